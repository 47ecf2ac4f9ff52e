import Verif.Lemmas.Final

/-!
# C81: verdicts about final answers, for the names the user asked about

`Ending w a x`: the resolution of the question `a` can end at the visit `x` (server, question, answers).  `question job rs m` is the question the
job asks about the name `m`: for the types of the job, but for all types where nothing is expected (`Unexpected`).
-/

namespace Groot
open Spec

section
variable {ctx : Context} {w : World} {xs : List (RR × Nat × Nat)} {job : Job}

theorem Processed.endsAt_of {pf : List PathFn} {nf : List NodeFn} {q : EC} {vs : List Violation} {g : IG} {l : Option Violation} {s : IG.Enum}
    (h : Processed w pf nf q vs g l s) (hw : WellFormed w) {x : Visit} (hx : Ending w (ask q) x) (hr : ¬ x.Tells .REFUSED) (hn : ¬ x.Tells .NSNOTFOUND) :
    EndsAt w (saidBy g) (ask q) x := by
  rw [endsAt_iff hw (answering_saidBy h.inv)]
  refine ⟨hx, ?_⟩
  obtain ⟨p, side, hp⟩ := hx.route
  exact says_determined hx.answers (answering_saidBy h.inv _ _ (reached_of_route hp) (route_server hw hp (x.server, x.ask, side) (by simp))) hr hn

theorem Processed.ending_of {pf : List PathFn} {nf : List NodeFn} {q : EC} {vs : List Violation} {g : IG} {l : Option Violation} {s : IG.Enum}
    (h : Processed w pf nf q vs g l s) (hw : WellFormed w) {x : Visit} (hx : EndsAt w (saidBy g) (ask q) x) : Ending w (ask q) x :=
  ((endsAt_iff hw (answering_saidBy h.inv) x).mp hx).1

theorem asked_congr {s : Str} {b c : Ask} {as : List Answer} (e : b.types = c.types) (ts : TypeSet) :
    (Visit.mk s b as).AskedFor ts ↔ (Visit.mk s c as).AskedFor ts := by unfold Visit.AskedFor; dsimp only; rw [e]

theorem informs_congr {s : Str} {b c : Ask} {as : List Answer} (e : b.types = c.types) (ts : TypeSet) :
    (Visit.mk s b as).Informs ts ↔ (Visit.mk s c as).Informs ts := and_congr (asked_congr e ts) Iff.rfl

theorem wrong_congr {s : Str} {b c : Ask} {as : List Answer} (e : b.types = c.types) (ts : TypeSet) (vs : List Str) :
    (Visit.mk s b as).Wrong ts vs ↔ (Visit.mk s c as).Wrong ts vs := and_congr (asked_congr e ts) Iff.rfl

theorem wrong_known {x : Visit} {ts : TypeSet} {vs : List Str} (h : x.Wrong ts vs) : ¬ x.Tells .REFUSED ∧ ¬ x.Tells .NSNOTFOUND := by
  have : ∀ {t : Tag}, x.Tells t → (t = .NX ∨ t = .YX ∨ t = .ANS ∨ t = .REWRITE) → ¬ x.Tells .REFUSED ∧ ¬ x.Tells .NSNOTFOUND := by
    intro t ht h
    unfold Visit.Tells at ht ⊢
    rw [ht]
    rcases h with rfl | rfl | rfl | rfl <;> decide
  rcases h.2 with h | h | ⟨h | h, _⟩
  · exact this h (by simp)
  · exact this h (by simp)
  · exact this h (by simp)
  · exact this h (by simp)

theorem exists_found (x : Visit) (ts : TypeSet) : ∃ found, x.Found ts found := by
  classical
  let l := if x.Tells .NX ∨ x.Tells .YX then [] else (x.records.filter (fun r => decide (Member ts r.type))).map (·.rdata)
  obtain ⟨h1, h2⟩ := strSet_spec l
  refine ⟨_, h1, fun s => ?_⟩
  rw [h2]
  show s ∈ (if x.Tells .NX ∨ x.Tells .YX then [] else _) ↔ _
  split
  · rename_i h; simp; intro h3 h4; rcases h with h | h
    · exact absurd h h3
    · exact absurd h h4
  · rename_i h
    push Not at h
    simp only [List.mem_map, List.mem_filter, decide_eq_true_eq]
    constructor
    · rintro ⟨r, ⟨h3, h4⟩, h5⟩; exact ⟨h.1, h.2, r, h3, h4, h5⟩
    · rintro ⟨_, _, r, h3, h4, h5⟩; exact ⟨r, ⟨h3, h4⟩, h5⟩

theorem denied_empty {s : Str} {a : Ask} {as : List Answer} (h : Says w s a as) (ht : as.head?.map (·.tag) = some .NX) :
    (as.head?.map (·.rrs)).getD [] = [] := by
  cases h with
  | tooLong => rfl
  | refused => rfl
  | unknown => rfl
  | zone id _ _ _ h =>
    cases h with
    | nx => rfl
    | referral => cases ht
    | dname => cases ht
    | cname e m exact ts r tag _ _ _ _ _ _ h =>
      rcases h with ⟨_, rfl⟩ | ⟨_, rfl⟩ <;> cases ht
    | data =>
      exfalso
      unfold dataAnswers at ht
      split at ht <;> split at ht <;> simp at ht

/-! ### Zero TTLs -/

/-- **C81** If a final answer for a name the job is about has a record with TTL zero, the run reports server and record. -/
theorem C81_zero_ttl_complete (S : Setting ctx w xs job) {thr thr' fuel : Nat} {g' : LGraph} {ts : List Task} {vs : List Violation}
    (hrun : Driver.runSequential fuel thr ctx (labelGraph thr' xs) job = .ok (g', ts, vs))
    {tys : TypeSet} (hf : NodeFn.zeroTTL tys ∈ job.nodeFns) {m : Name} (hm : InScope job m) (hs : Short m)
    {x : Visit} (hx : Ending w (question job (xs.map (·.1)) m) x) (hi : x.Informs tys) {r : RR} (hr : r ∈ x.records) (h0 : r.ttl = 0) :
    ∃ n, .zeroTTL n x.server (showRecord r) ∈ vs := by
  obtain ⟨q, hq, hst⟩ := S.covered hrun m hm
  obtain ⟨hqt, cs, g, l, s, hP, hsub, _⟩ := S.class_run hrun q hq
  have hB := S.endBridge hrun hq hst hs
  obtain ⟨b, h1, h2⟩ := hB.up x hx
  have e := hB.same h2
  obtain ⟨n, h⟩ := ((hP.endOutcome S.wellFormed S.nodeFns).zeroTTL x.server (showRecord r)).mpr
    ⟨tys, hf, _, hP.endsAt_of S.wellFormed h1 hi.2.1 hi.2.2, (informs_congr e tys).mpr hi, rfl, r, hr, h0, rfl⟩
  exact ⟨n, hsub _ h⟩

/-- **C81** A report of a zero TTL is true of every name of some class of the job. -/
theorem C81_zero_ttl_sound (S : Setting ctx w xs job) {thr thr' fuel : Nat} {g' : LGraph} {ts : List Task} {vs : List Violation}
    (hrun : Driver.runSequential fuel thr ctx (labelGraph thr' xs) job = .ok (g', ts, vs)) {n sv rec : Str} (hv : .zeroTTL n sv rec ∈ vs) :
    ∃ tys, NodeFn.zeroTTL tys ∈ job.nodeFns ∧ ∃ q ∈ classes ts, ∀ m, Stands (xs.map (·.1)) q m → Short m →
      ∃ x, Ending w (question job (xs.map (·.1)) m) x ∧ x.Informs tys ∧ x.server = sv ∧ ∃ r ∈ x.records, r.ttl = 0 ∧ rec = showRecord r := by
  obtain ⟨q, hq, cs, g, l, s, hP, _, hv⟩ := S.source hrun hv (fun _ _ e => nomatch e)
  obtain ⟨tys, h1, x, h2, h3, h4, r, h5, h6, h7⟩ := ((hP.endOutcome S.wellFormed S.nodeFns).zeroTTL sv rec).mp ⟨n, hv⟩
  refine ⟨tys, h1, q, hq, fun m hm hs => ?_⟩
  have hB := S.endBridge hrun hq hm hs
  obtain ⟨c, h8, h9⟩ := hB.down x (hP.ending_of S.wellFormed h2)
  exact ⟨_, h8, (informs_congr (hB.same h9) tys).mp h3, h4, r, h5, h6, h7⟩

/-- Where resolution for the types of the job ends, the resolution of the question the program asks ends too, with an answer of the same kind and at
least the same records. -/
theorem Setting.wider (S : Setting ctx w xs job) (m : Name) {x : Visit} (hx : Ending w ⟨m, job.types, false⟩ x) :
    ∃ y, Ending w (question job (xs.map (·.1)) m) y ∧ y.server = x.server ∧ y.ask.name = x.ask.name ∧
      (∀ t, Member x.ask.types t → Member y.ask.types t) ∧ Widens x.said y.said := by
  unfold question
  split
  · exact ending_widen (a := ⟨m, job.types, false⟩) (b := ⟨m, ~~~0, false⟩) S.types all_other (fun t ht => member_all t ht.1)
      ⟨rfl, rfl, .inl ⟨rfl, rfl⟩⟩ hx
  · exact ⟨x, hx, rfl, rfl, fun _ h => h, rfl, fun _ h => h, fun _ => rfl⟩

/-- **C81** The same for the types of the job, whatever is expected at the name: no zero TTL is missed. -/
theorem C81_zero_ttl_job (S : Setting ctx w xs job) {thr thr' fuel : Nat} {g' : LGraph} {ts : List Task} {vs : List Violation}
    (hrun : Driver.runSequential fuel thr ctx (labelGraph thr' xs) job = .ok (g', ts, vs))
    {tys : TypeSet} (hf : NodeFn.zeroTTL tys ∈ job.nodeFns) {m : Name} (hm : InScope job m) (hs : Short m)
    {x : Visit} (hx : Ending w ⟨m, job.types, false⟩ x) (hi : x.Informs tys) {r : RR} (hr : r ∈ x.records) (h0 : r.ttl = 0) :
    ∃ n, .zeroTTL n x.server (showRecord r) ∈ vs := by
  obtain ⟨y, h1, h2, _, h3, h4⟩ := S.wider m hx
  have := C81_zero_ttl_complete S hrun hf hm hs h1 ?_ (h4.records r hr) h0
  · rwa [h2] at this
  · obtain ⟨⟨t, h5, h6⟩, h7, h8⟩ := hi
    refine ⟨⟨t, h3 t h5, h6⟩, ?_, ?_⟩
    · intro h; exact h7 (h4.tag.trans h)
    · intro h; exact h8 (h4.tag.trans h)

/-! ### Inconsistent answers -/

/-- **C81** If the final answers for a name the job is about disagree, the run reports an inconsistency. -/
theorem C81_consistency_complete (S : Setting ctx w xs job) {thr thr' fuel : Nat} {g' : LGraph} {ts : List Task} {vs : List Violation}
    (hrun : Driver.runSequential fuel thr ctx (labelGraph thr' xs) job = .ok (g', ts, vs))
    {tys : TypeSet} (hf : NodeFn.consistency tys ∈ job.nodeFns) {m : Name} (hm : InScope job m) (hs : Short m)
    {x y : Visit} (hx : Ending w (question job (xs.map (·.1)) m) x) (hy : Ending w (question job (xs.map (·.1)) m) y)
    (hix : x.Informs tys) (hiy : y.Informs tys) (hd : x.Disagrees y) : ∃ n, .responseConsistency n ∈ vs := by
  obtain ⟨q, hq, hst⟩ := S.covered hrun m hm
  obtain ⟨hqt, cs, g, l, s, hP, hsub, _⟩ := S.class_run hrun q hq
  have hB := S.endBridge hrun hq hst hs
  obtain ⟨b, h1, h2⟩ := hB.up x hx
  obtain ⟨c, h3, h4⟩ := hB.up y hy
  have e := hB.same h2
  have e' := hB.same h4
  obtain ⟨n, h⟩ := (hP.endOutcome S.wellFormed S.nodeFns).consistency.mpr
    ⟨tys, hf, _, _, hP.endsAt_of S.wellFormed h1 hix.2.1 hix.2.2, hP.endsAt_of S.wellFormed h3 hiy.2.1 hiy.2.2,
      (informs_congr e tys).mpr hix, (informs_congr e' tys).mpr hiy, by
        rcases hd with hd | ⟨h5, h6, h7⟩
        · exact .inl hd
        · exact .inr ⟨by show Member b.types _; rw [e]; exact h5, by show Member c.types _; rw [e']; exact h6, h7⟩⟩
  exact ⟨n, hsub _ h⟩

/-- **C81** A report of inconsistent answers is true of every name of some class of the job. -/
theorem C81_consistency_sound (S : Setting ctx w xs job) {thr thr' fuel : Nat} {g' : LGraph} {ts : List Task} {vs : List Violation}
    (hrun : Driver.runSequential fuel thr ctx (labelGraph thr' xs) job = .ok (g', ts, vs)) {n : Str} (hv : .responseConsistency n ∈ vs) :
    ∃ tys, NodeFn.consistency tys ∈ job.nodeFns ∧ ∃ q ∈ classes ts, ∀ m, Stands (xs.map (·.1)) q m → Short m →
      ∃ x y, Ending w (question job (xs.map (·.1)) m) x ∧ Ending w (question job (xs.map (·.1)) m) y ∧ x.Informs tys ∧ y.Informs tys ∧
        x.Disagrees y := by
  obtain ⟨q, hq, cs, g, l, s, hP, _, hv⟩ := S.source hrun hv (fun _ _ e => nomatch e)
  obtain ⟨tys, h1, x, y, h2, h3, h4, h5, h6⟩ := (hP.endOutcome S.wellFormed S.nodeFns).consistency.mp ⟨n, hv⟩
  refine ⟨tys, h1, q, hq, fun m hm hs => ?_⟩
  have hB := S.endBridge hrun hq hm hs
  obtain ⟨b, h8, h9⟩ := hB.down x (hP.ending_of S.wellFormed h2)
  obtain ⟨c, h10, h11⟩ := hB.down y (hP.ending_of S.wellFormed h3)
  have e := hB.same h9
  have e' := hB.same h11
  refine ⟨_, _, h8, h10, (informs_congr e tys).mp h4, (informs_congr e' tys).mp h5, ?_⟩
  rcases h6 with hd | ⟨h5, h6, h7⟩
  · exact .inl hd
  · exact .inr ⟨by show Member b.types _; rw [← e]; exact h5, by show Member c.types _; rw [← e']; exact h6, h7⟩

/-- **C81** In particular, an inconsistency is reported if one server has records for a name and another has none, whatever is expected there. -/
theorem C81_consistency_denied (S : Setting ctx w xs job) {thr thr' fuel : Nat} {g' : LGraph} {ts : List Task} {vs : List Violation}
    (hrun : Driver.runSequential fuel thr ctx (labelGraph thr' xs) job = .ok (g', ts, vs))
    {tys : TypeSet} (hf : NodeFn.consistency tys ∈ job.nodeFns) {m : Name} (hm : InScope job m) (hs : Short m)
    {x y : Visit} (hx : Ending w ⟨m, job.types, false⟩ x) (hy : Ending w ⟨m, job.types, false⟩ y)
    (hix : x.Informs tys) (hiy : y.Informs tys) (hr : x.records ≠ []) (hd : y.Tells .NX) : ∃ n, .responseConsistency n ∈ vs := by
  obtain ⟨x', h1, h2, _, h3, h4⟩ := S.wider m hx
  obtain ⟨y', h5, h6, _, h7, h8⟩ := S.wider m hy
  have inf : ∀ {x x' : Visit}, (∀ t, Member x.ask.types t → Member x'.ask.types t) → Widens x.said x'.said → x.Informs tys → x'.Informs tys := by
    rintro x x' ha hb ⟨⟨t, h5, h6⟩, h7, h8⟩
    refine ⟨⟨t, ha t h5, h6⟩, ?_, ?_⟩
    · intro h; exact h7 (hb.tag.trans h)
    · intro h; exact h8 (hb.tag.trans h)
  refine C81_consistency_complete S hrun hf hm hs h1 h5 (inf h3 h4 hix) (inf h7 h8 hiy) (.inl fun hsame => ?_)
  have hnx : y'.records = [] := denied_empty h5.answers (h8.tag.symm.trans hd)
  have h9 := hsame.length_eq
  rw [hnx] at h9
  cases hl : x.records with
  | nil => exact hr hl
  | cons r rs =>
    have := h4.records r (by show r ∈ x.records; rw [hl]; simp)
    have h10 : x'.records = [] := by simpa using h9
    change r ∈ x'.records at this
    rw [h10] at this; cases this

/-! ### Wrong values -/

/-- **C81** If a final answer for a name the job is about does not consist of the expected values, the run reports it, with the server and the
values found there. -/
theorem C81_value_complete (S : Setting ctx w xs job) {thr thr' fuel : Nat} {g' : LGraph} {ts : List Task} {vs : List Violation}
    (hrun : Driver.runSequential fuel thr ctx (labelGraph thr' xs) job = .ok (g', ts, vs))
    {tys : TypeSet} {values : List Str} (hf : NodeFn.value tys values ∈ job.nodeFns) {m : Name} (hm : InScope job m) (hs : Short m)
    {x : Visit} (hx : Ending w (question job (xs.map (·.1)) m) x) (hw : x.Wrong tys values) :
    ∃ l, .responseValue values.flatten l ∈ vs ∧ ∃ found n, x.Found tys found ∧ (found.flatten, n, x.server) ∈ l ∧
      (n = showAsk x.ask ∨ ∃ q ∈ classes ts, Stands (xs.map (·.1)) q m ∧ n = showQuery q) := by
  obtain ⟨q, hq, hst⟩ := S.covered hrun m hm
  obtain ⟨hqt, cs, g, l, s, hP, hsub, _⟩ := S.class_run hrun q hq
  have hB := S.endBridge hrun hq hst hs
  obtain ⟨b, h1, h2⟩ := hB.up x hx
  have e := hB.same h2
  have hE := hP.endsAt_of S.wellFormed h1 (wrong_known hw).1 (wrong_known hw).2
  obtain ⟨l, h3, h4⟩ := (hP.endOutcome S.wellFormed S.nodeFns).valueComplete tys values hf _ hE ((wrong_congr e _ _).mpr hw)
  obtain ⟨found, hfo⟩ : ∃ found, (Visit.mk x.server b x.said).Found tys found := exists_found _ _
  refine ⟨l, hsub _ h3, found, showAsk b, hfo, (h4 _).mpr ⟨_, found, hE, (wrong_congr e _ _).mpr hw, hfo, rfl⟩, ?_⟩
  rcases h2 with h2 | ⟨h2, _⟩
  · left; rw [h2]
  · right
    refine ⟨q, hq, hst, ?_⟩
    rw [h2]
    exact toStr_of_ask (ask_ec _)

/-- **C81** A report of wrong values is true of every name of some class of the job, and lists exactly the wrong final answers. -/
theorem C81_value_sound (S : Setting ctx w xs job) {thr thr' fuel : Nat} {g' : LGraph} {ts : List Task} {vs : List Violation}
    (hrun : Driver.runSequential fuel thr ctx (labelGraph thr' xs) job = .ok (g', ts, vs)) {e : Str} {l : List (Str × Str × Str)}
    (hv : .responseValue e l ∈ vs) :
    ∃ tys values, NodeFn.value tys values ∈ job.nodeFns ∧ e = values.flatten ∧ ∃ q ∈ classes ts, ∀ m, Stands (xs.map (·.1)) q m → Short m →
      (∃ x, Ending w (question job (xs.map (·.1)) m) x ∧ x.Wrong tys values) ∧
      ∀ f sv, (∃ n, (f, n, sv) ∈ l) ↔ ∃ x found, Ending w (question job (xs.map (·.1)) m) x ∧ x.Wrong tys values ∧ x.Found tys found ∧
        f = found.flatten ∧ sv = x.server := by
  obtain ⟨q, hq, cs, g, lp, s, hP, _, hv⟩ := S.source hrun hv (fun _ _ e => nomatch e)
  obtain ⟨tys, values, h1, h2, ⟨x, h3, h4⟩, h5⟩ := (hP.endOutcome S.wellFormed S.nodeFns).value e l hv
  refine ⟨tys, values, h1, h2, q, hq, fun m hm hs => ?_⟩
  have hB := S.endBridge hrun hq hm hs
  refine ⟨?_, fun f sv => ⟨?_, ?_⟩⟩
  · obtain ⟨c, h8, h9⟩ := hB.down x (hP.ending_of S.wellFormed h3)
    exact ⟨_, h8, (wrong_congr (hB.same h9) _ _).mp h4⟩
  · rintro ⟨n, hn⟩
    obtain ⟨y, found, h6, h7, h8, h9⟩ := (h5 _).mp hn
    cases h9
    obtain ⟨c, h10, h11⟩ := hB.down y (hP.ending_of S.wellFormed h6)
    exact ⟨_, found, h10, (wrong_congr (hB.same h11) _ _).mp h7, h8, rfl, rfl⟩
  · rintro ⟨y, found, h6, h7, h8, rfl, rfl⟩
    obtain ⟨b, h9, h10⟩ := hB.up y h6
    exact ⟨showAsk b, (h5 _).mpr ⟨_, found, hP.endsAt_of S.wellFormed h9 (wrong_known h7).1 (wrong_known h7).2,
      (wrong_congr (hB.same h10) _ _).mpr h7, h8, rfl⟩⟩

/-! ### Missing types -/

/-- **C81** If a final answer for a name the job is about lacks a type, and something is expected at the name, the run reports the missing types. -/
theorem C81_missing_complete (S : Setting ctx w xs job) {thr thr' fuel : Nat} {g' : LGraph} {ts : List Task} {vs : List Violation}
    (hrun : Driver.runSequential fuel thr ctx (labelGraph thr' xs) job = .ok (g', ts, vs))
    {tys : TypeSet} (hf : NodeFn.returned tys ∈ job.nodeFns) {m : Name} (hm : InScope job m) (hs : Short m)
    (hu : ¬ Unexpected job (xs.map (·.1)) m) {x : Visit} (hx : Ending w ⟨m, job.types, false⟩ x) (hi : x.Informs tys)
    {a : Answer} (ha : a ∈ x.said) (h0 : a.rrs = []) (ht : ∃ t, Member a.types t ∧ Member tys t) :
    ∃ n, .responseReturned n (showTypes (a.types &&& tys)) x.server ∈ vs := by
  obtain ⟨q, hq, hst⟩ := S.covered hrun m hm
  obtain ⟨hqt, cs, g, l, s, hP, hsub, _⟩ := S.class_run hrun q hq
  have hB := S.endBridge hrun hq hst hs
  have hqm : question job (xs.map (·.1)) m = ⟨m, job.types, false⟩ := by unfold question; rw [if_neg hu]
  have hne : q.nonExistent = false := by
    cases h : q.nonExistent with
    | false => rfl
    | true => exact absurd ((S.asked hrun hq hst).2.mp h) hu
  obtain ⟨b, h1, h2⟩ := hB.up x (hqm ▸ hx)
  have e := hB.same h2
  refine ⟨showAsk b, hsub _ (hP.missing_iff S.wellFormed hne hf (hP.endsAt_of S.wellFormed h1 hi.2.1 hi.2.2) ?_)⟩
  exact ⟨(informs_congr e tys).mpr hi, a, ha, h0, ht, rfl⟩

/-- **C81** A report of missing types is true of every name of some class of the job. -/
theorem C81_missing_sound (S : Setting ctx w xs job) {thr thr' fuel : Nat} {g' : LGraph} {ts : List Task} {vs : List Violation}
    (hrun : Driver.runSequential fuel thr ctx (labelGraph thr' xs) job = .ok (g', ts, vs)) {n t sv : Str} (hv : .responseReturned n t sv ∈ vs) :
    ∃ tys, NodeFn.returned tys ∈ job.nodeFns ∧ ∃ q ∈ classes ts, ∀ m, Stands (xs.map (·.1)) q m → Short m →
      ∃ x, Ending w (question job (xs.map (·.1)) m) x ∧ x.Informs tys ∧ x.server = sv ∧
        ∃ a ∈ x.said, a.rrs = [] ∧ (∃ u, Member a.types u ∧ Member tys u) ∧ t = showTypes (a.types &&& tys) := by
  obtain ⟨q, hq, cs, g, lp, s, hP, _, hv⟩ := S.source hrun hv (fun _ _ e => nomatch e)
  obtain ⟨tys, h1, x, h2, h3, a, h4, h5, h6, h7⟩ := (hP.endOutcome S.wellFormed S.nodeFns).missing n t sv hv
  refine ⟨tys, h1, q, hq, fun m hm hs => ?_⟩
  have hB := S.endBridge hrun hq hm hs
  obtain ⟨c, h8, h9⟩ := hB.down x (hP.ending_of S.wellFormed h2)
  injection h7 with e1 e2 e3
  exact ⟨_, h8, (informs_congr (hB.same h9) tys).mp h3, e3.symm, a, h4, h5, h6, e2⟩

end

/-! ### A sample run -/

private def rr (n : String) (t : RRType) (ttl : Nat) (d : String) : RR :=
  { name := stringToLabels n.toList, type := t, cls := 1, ttl := ttl, rdata := d.toList }

private def nm (s : String) : Name := stringToLabels s.toList

/-- Two servers with different files for `com`: one has a wildcard (with a TTL of zero), the other knows `x.b.com` and nothing else. -/
def endWorld : World where
  zones := [(1, [rr "com." .SOA 300 "x", rr "*.com." .A 0 "1.1.1.1", rr "*.com." .TXT 0 "t"]),
    (2, [rr "com." .SOA 300 "x", rr "x.b.com." .A 300 "2.2.2.2"])]
  nsZones := [("s.".toList, [1]), ("t.".toList, [2])]
  top := ["s.".toList, "t.".toList]

def endCtx : Context where
  nsZones := endWorld.nsZones
  top := endWorld.top
  zones := endWorld.zones.map (fun p => (p.1, Zone.afterAdds 500 p.1 p.2))

def endRecords : List (RR × Nat × Nat) := endWorld.zones.flatMap (fun p => p.2.map (fun r => (r, p.1, 0)))

def endJob : Job where
  domain := "com.".toList
  subdomains := true
  types := TypeSet.add (TypeSet.single .A) .MX
  nodeFns := [.zeroTTL (TypeSet.single .A), .consistency (TypeSet.single .A), .value (TypeSet.single .A) ["1.1.1.1".toList], .returned (TypeSet.single .MX)]

theorem end_setting : Setting endCtx endWorld endRecords endJob := by
  refine ⟨represents_of (thr := 500) rfl rfl rfl, wellFormed_of _ (by decide +kernel) (by decide +kernel) (by decide +kernel), ?_, by decide +kernel, ?_, by decide +kernel,
    ⟨.A, by decide, by show Member endJob.types .A; unfold Member; decide⟩, (fun f hf => by cases hf), ?_⟩
  · intro id r hr
    unfold World.log at hr
    cases hl : endWorld.zones.lookup id with
    | none => rw [hl] at hr; simp [stored] at hr
    | some rs =>
      rw [hl] at hr
      have hr := stored_subset rs r hr
      exact List.mem_map.mpr ⟨(r, id, 0), List.mem_flatMap.mpr ⟨(id, rs), mem_of_lookup hl, List.mem_map.mpr ⟨r, hr, rfl⟩⟩, rfl⟩
  · have key : ∀ r ∈ endRecords.map (·.1), r.type ≠ .DNAME ∧ ∀ l ∈ r.name, l ≠ ['.'] ∧ l.length ≤ 63 := by decide +kernel
    rintro n (rfl | ⟨r, hr, _, ⟨rest, e⟩ | ⟨h, _⟩⟩) l hl
    · cases hl
    · exact (key r hr).2 l (by rw [e]; exact List.mem_append_left _ hl)
    · exact absurd h (key r hr).1
  · intro f hf
    simp only [endJob, List.mem_cons, List.not_mem_nil, or_false] at hf
    rcases hf with rfl | rfl | rfl | rfl <;> first | trivial | exact ⟨List.pairwise_singleton _ _, by decide +kernel⟩

theorem end_setting_at (dom : Str) (sub : Bool) (hd : Short (stringToLabels dom)) :
    Setting endCtx endWorld endRecords { endJob with domain := dom, subdomains := sub } :=
  { end_setting with domain := hd }

/-- Running the job is successful, and everything in `good` is reported and nothing in `bad`. -/
def RunReports (job : Job) (cs : List EC) (good bad : List Violation) : Prop :=
  ∃ g ts vs, Driver.runSequential 300 500 endCtx (labelGraph 500 endRecords) job = .ok (g, ts, vs) ∧ classes ts = cs ∧ (∀ v ∈ good, v ∈ vs) ∧ ∀ v ∈ bad, v ∉ vs

theorem runReports_of {job : Job} {cs : List EC} {good bad : List Violation}
    (h : (match Driver.runSequential 300 500 endCtx (labelGraph 500 endRecords) job with
      | .ok (_, ts, vs) => decide (classes ts = cs ∧ (∀ v ∈ good, v ∈ vs) ∧ ∀ v ∈ bad, v ∉ vs)
      | _ => false) = true) : RunReports job cs good bad := by
  unfold RunReports
  cases hr : Driver.runSequential 300 500 endCtx (labelGraph 500 endRecords) job with
  | ok x =>
    obtain ⟨g, ts, vs⟩ := x
    rw [hr] at h
    exact ⟨g, ts, vs, rfl, of_decide_eq_true h⟩
  | _ => rw [hr] at h; cases h

/-- The unknown name `zz.com`, asked about alone: the two servers disagree, one of them has a zero TTL, the other denies the name (instead of the
expected value), and neither has MX records.  All this is reported for the class of the unknown names below `com`. -/
theorem end_run : RunReports { endJob with domain := "zz.com.".toList, subdomains := false } [{ name := nm "com.", types := endJob.types, excluded := some [] }]
    [.zeroTTL "~{ }.com.".toList "s.".toList "*.com.   A   1.1.1.1".toList, .responseConsistency "~{ }.com.".toList,
      .responseValue "1.1.1.1".toList [([], "~{ }.com.".toList, "t.".toList)], .responseReturned "~{ }.com.".toList "MX".toList "s.".toList] [] :=
  runReports_of (by decide +kernel)

/-- The hypotheses of all the theorems above are met: by the unknown name `zz.com`. -/
example :
    let job : Job := { endJob with domain := "zz.com.".toList, subdomains := false }
    let m := nm "zz.com."
    Setting endCtx endWorld endRecords job ∧ InScope job m ∧ Short m ∧ ¬ Known (endRecords.map (·.1)) m ∧ ¬ Unexpected job (endRecords.map (·.1)) m ∧
      question job (endRecords.map (·.1)) m = ⟨m, job.types, false⟩ ∧
      (∃ x tys, NodeFn.zeroTTL tys ∈ job.nodeFns ∧ Ending endWorld ⟨m, job.types, false⟩ x ∧ x.Informs tys ∧ ∃ r ∈ x.records, r.ttl = 0) ∧
      (∃ x y tys, NodeFn.consistency tys ∈ job.nodeFns ∧ Ending endWorld ⟨m, job.types, false⟩ x ∧ Ending endWorld ⟨m, job.types, false⟩ y ∧
        x.Informs tys ∧ y.Informs tys ∧ x.Disagrees y) ∧
      (∃ x tys values, NodeFn.value tys values ∈ job.nodeFns ∧ Ending endWorld ⟨m, job.types, false⟩ x ∧ x.Wrong tys values) ∧
      ∃ x tys, NodeFn.returned tys ∈ job.nodeFns ∧ Ending endWorld ⟨m, job.types, false⟩ x ∧ x.Informs tys ∧
        ∃ a ∈ x.said, a.rrs = [] ∧ ∃ t, Member a.types t ∧ Member tys t := by
  intro job m
  have hS : Setting endCtx endWorld endRecords job := end_setting_at _ _ (by decide +kernel)
  have hs : Short m := by decide +kernel
  have hu : ¬ Unexpected job (endRecords.map (·.1)) m := fun h => by cases h.1
  have hqm : question job (endRecords.map (·.1)) m = ⟨m, job.types, false⟩ := by unfold question; rw [if_neg hu]
  obtain ⟨g, ts, vs, hrun, hcs, hgood, _⟩ := end_run
  have hst : ∀ q ∈ classes ts, Stands (endRecords.map (·.1)) q m := by
    intro q hq
    rw [hcs] at hq
    obtain rfl := List.mem_singleton.mp hq
    exact ⟨"zz".toList, [], by decide +kernel, by decide +kernel⟩
  refine ⟨hS, by unfold InScope; rw [if_neg (by simp [job])]; rfl, hs, by decide +kernel, hu, hqm, ?_, ?_, ?_, ?_⟩
  · obtain ⟨tys, h1, q, hq, h2⟩ := C81_zero_ttl_sound hS hrun
      (hgood (.zeroTTL "~{ }.com.".toList "s.".toList "*.com.   A   1.1.1.1".toList) (by simp))
    obtain ⟨x, h3, h4, _, r, h5, h6, _⟩ := h2 m (hst q hq) hs
    exact ⟨x, tys, h1, hqm ▸ h3, h4, r, h5, h6⟩
  · obtain ⟨tys, h1, q, hq, h2⟩ := C81_consistency_sound hS hrun (hgood (.responseConsistency "~{ }.com.".toList) (by simp))
    obtain ⟨x, y, h3, h4, h5⟩ := h2 m (hst q hq) hs
    exact ⟨x, y, tys, h1, hqm ▸ h3, hqm ▸ h4, h5⟩
  · obtain ⟨tys, values, h1, _, q, hq, h2⟩ := C81_value_sound hS hrun (hgood (.responseValue "1.1.1.1".toList [([], "~{ }.com.".toList, "t.".toList)]) (by simp))
    obtain ⟨x, h3, h4⟩ := (h2 m (hst q hq) hs).1
    exact ⟨x, tys, values, h1, hqm ▸ h3, h4⟩
  · obtain ⟨tys, h1, q, hq, h2⟩ := C81_missing_sound hS hrun (hgood (.responseReturned "~{ }.com.".toList "MX".toList "s.".toList) (by simp))
    obtain ⟨x, h3, h4, _, a, h5, h6, h7, _⟩ := h2 m (hst q hq) hs
    exact ⟨x, tys, h1, hqm ▸ h3, h4, a, h5, h6, h7⟩

/-- **C81** (disagreement) Where nothing is expected the program asks for all types, and so reports records of types nobody asked for: here the TXT
record of the wildcard, although the job lists only A and MX and a job about `q.b.com` alone is not told of it. -/
theorem C81_disagreement_types :
    (∃ g ts vs, Driver.runSequential 300 500 endCtx (labelGraph 500 endRecords) endJob = .ok (g, ts, vs) ∧
      .zeroTTL "~{ }.b.com.".toList "s.".toList "*.com.   TXT   t".toList ∈ vs ∧ ¬ Member endJob.types .TXT ∧
      InScope endJob (nm "q.b.com.") ∧ Unexpected endJob (endRecords.map (·.1)) (nm "q.b.com.")) ∧
    ∃ g ts vs, Driver.runSequential 300 500 endCtx (labelGraph 500 endRecords) { endJob with domain := "q.b.com.".toList, subdomains := false } = .ok (g, ts, vs) ∧
      ∀ n, .zeroTTL n "s.".toList "*.com.   TXT   t".toList ∉ vs := by
  constructor
  · have h : ∀ r : Res (LGraph × List Task × List Violation), (match r with
        | .ok (_, _, vs) => decide (.zeroTTL "~{ }.b.com.".toList "s.".toList "*.com.   TXT   t".toList ∈ vs)
        | _ => false) = true → ∃ g ts vs, r = .ok (g, ts, vs) ∧ .zeroTTL "~{ }.b.com.".toList "s.".toList "*.com.   TXT   t".toList ∈ vs := by
      intro r hr
      cases r with
      | ok x => exact ⟨_, _, _, rfl, of_decide_eq_true hr⟩
      | _ => cases hr
    obtain ⟨g, ts, vs, h1, h2⟩ := h (Driver.runSequential 300 500 endCtx (labelGraph 500 endRecords) endJob) (by decide +kernel)
    refine ⟨g, ts, vs, h1, h2, by unfold Member; decide, ?_, rfl, by decide +kernel, nm "b.com.", "q".toList, [], by decide +kernel, by decide +kernel,
      by decide +kernel, by decide +kernel⟩
    unfold InScope
    rw [if_pos (show endJob.subdomains = true from rfl)]
    exact ⟨by decide +kernel, by decide +kernel⟩
  · have h : ∀ r : Res (LGraph × List Task × List Violation), (match r with
        | .ok (_, _, vs) => vs.all (fun v => match v with | .zeroTTL _ s r => !decide (s = "s.".toList ∧ r = "*.com.   TXT   t".toList) | _ => true)
        | _ => false) = true → ∃ g ts vs, r = .ok (g, ts, vs) ∧ ∀ n, .zeroTTL n "s.".toList "*.com.   TXT   t".toList ∉ vs := by
      intro r hr
      cases r with
      | ok x =>
        refine ⟨_, _, _, rfl, fun n hn => ?_⟩
        have := List.all_eq_true.mp hr _ hn
        simp at this
      | _ => cases hr
    exact h _ (by decide +kernel)

end Groot
