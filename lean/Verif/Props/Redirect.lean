import Verif.Lemmas.Redirect
import Verif.Props.Dname

/-!
# C88: final answers and delegations in the presence of DNAMEs

C81 and C82 for zones with DNAMEs (`Redirecting`).  `AskedWith job rs m T b`: about the name `m` the program asks for the types `T`, and `b` says that nothing is
expected there.  Without DNAMEs one question is asked about a name (C81); with DNAMEs it may be two.
-/

namespace Groot
open Spec

section
variable {ctx : Context} {w : World} {xs : List (RR × Nat × Nat)} {job : Job}

/-- **C88** What is asked about the names of the job: the classes a name stands in ask exactly what `AskedWith` says. -/
theorem C88_asked (S : Redirecting ctx w xs job) {thr thr' fuel : Nat} {g' : LGraph} {ts : List Task} {vs : List Violation}
    (hrun : Driver.runSequential fuel thr ctx (labelGraph thr' xs) job = .ok (g', ts, vs)) {m : Name} (hm : InScope job m) (T : TypeSet) (b : Bool) :
    AskedWith job (xs.map (·.1)) m T b ↔ ∃ q ∈ classes ts, StandsFor (xs.map (·.1)) q m ∧ q.types = T ∧ q.nonExistent = b := by
  refine ⟨(S.asked (Redirecting.generated hrun)).2 m hm T b, ?_⟩
  rintro ⟨q, hq, hst, rfl, rfl⟩
  exact (S.asked (Redirecting.generated hrun)).1 q hq m hst

/-- **C88** Something is asked about every name of the job. -/
theorem C88_covered (S : Redirecting ctx w xs job) {thr thr' fuel : Nat} {g' : LGraph} {ts : List Task} {vs : List Violation}
    (hrun : Driver.runSequential fuel thr ctx (labelGraph thr' xs) job = .ok (g', ts, vs)) {m : Name} (hm : InScope job m) :
    ∃ T b, AskedWith job (xs.map (·.1)) m T b := by
  obtain ⟨q, hq, hst⟩ := S.covered hrun m hm
  exact ⟨_, _, (S.asked (Redirecting.generated hrun)).1 q hq m hst⟩

/-- **C88** Without DNAMEs it is the question of C81. -/
theorem C88_plain (rs : List RR) (hd : ∀ r ∈ rs, r.type ≠ .DNAME) (job : Job) (m : Name) (T : TypeSet) (b : Bool) (h : AskedWith job rs m T b) :
    question job rs m = ⟨m, T, false⟩ ∧ (b = true ↔ Unexpected job rs m) := by
  have hcov : Covering job rs ↔ job.subdomains = true ∧ Known rs (stringToLabels job.domain) := by
    refine and_congr_right (fun _ => ⟨?_, fun h => ⟨_, matches_self h⟩⟩)
    rintro ⟨k, hk⟩
    obtain ⟨h1, ⟨r, h2⟩, h3⟩ := (matches_plain hd).mp hk
    have : r = [] := by
      have := congrArg List.length h2
      rw [List.length_append] at this
      exact List.length_eq_zero_iff.mp (by omega)
    rw [this, List.append_nil] at h2
    rwa [← h2] at h3
  have key : ∀ {i k}, Deepest rs m i → Matches rs m k i → ∀ {n l rest}, m = n ++ l :: rest → Known rs n → ¬ Known rs (n ++ [l]) → k = n := by
    intro i k hD hM n l rest e hn hl
    obtain ⟨h1, ⟨r, h2⟩, h3⟩ := (matches_plain hd).mp hM
    cases r with
    | nil =>
      rw [List.append_nil] at h2
      rw [← h2, e] at h3
      exact absurd (known_closed (n := n ++ [l]) (rest := rest) (by simpa using h3)) hl
    | cons l' r =>
      refine longest_unique (rs := rs) (l := l') (l' := l) (rest := r) (rest' := rest) (h2.symm.trans e) h3 (fun hk => ?_) hn hl
      have := hD.2 _ _ ((matches_plain hd).mpr ⟨rfl, ⟨r, by rw [h2]; simp⟩, hk⟩)
      rw [List.length_append, List.length_singleton] at this
      omega
  have hno : ∀ {T : TypeSet}, T = job.types → ¬ Unexpected job rs m → question job rs m = ⟨m, T, false⟩ ∧ (false = true ↔ Unexpected job rs m) := by
    rintro T rfl hu
    unfold question
    rw [if_neg hu]; simp [hu]
  cases h with
  | single h => exact hno rfl (fun hu => h (hcov.mpr ⟨hu.1, hu.2.1⟩))
  | known k h =>
    refine hno rfl ?_
    rintro ⟨_, _, n, l, rest, e, hn, hl, _⟩
    have hD : Deepest rs m m.length := ⟨⟨_, h⟩, fun _ _ h => matches_le h⟩
    have := key hD h e hn hl
    have h1 := ((matches_plain hd).mp h).1
    rw [this, e] at h1
    simp at h1
  | wild i k hD _ hM hw =>
    refine hno rfl ?_
    rintro ⟨_, _, n, l, rest, e, hn, hl, h⟩
    rw [← key hD hM e hn hl] at h
    exact h hw
  | nothing i k hc hD hlt hM hw =>
    obtain ⟨h1, ⟨r, h2⟩, h3⟩ := (matches_plain hd).mp hM
    have hu : Unexpected job rs m := by
      refine ⟨hc.1, (hcov.mp hc).2, ?_⟩
      cases r with
      | nil => rw [List.append_nil] at h2; rw [h2] at hlt; omega
      | cons l r =>
        refine ⟨k, l, r, h2, h3, fun hk => ?_, hw⟩
        have := hD.2 _ _ ((matches_plain hd).mpr ⟨rfl, ⟨r, by rw [h2]; simp⟩, hk⟩)
        rw [List.length_append, List.length_singleton] at this
        omega
    unfold question
    rw [if_pos hu]; simp [hu]

/-! ### Zero TTLs -/

/-- **C88** If a final answer for a name the job is about has a record with TTL zero, the run reports server and record. -/
theorem C88_zero_ttl_complete (S : Redirecting ctx w xs job) {thr thr' fuel : Nat} {g' : LGraph} {ts : List Task} {vs : List Violation}
    (hrun : Driver.runSequential fuel thr ctx (labelGraph thr' xs) job = .ok (g', ts, vs))
    {tys : TypeSet} (hf : NodeFn.zeroTTL tys ∈ job.nodeFns) {m : Name} (hm : InScope job m) (hs : Fits w ⟨m, job.types, false⟩)
    {T : TypeSet} {b0 : Bool} (ha : AskedWith job (xs.map (·.1)) m T b0) {x : Visit} (hx : Ending w ⟨m, T, false⟩ x) (hi : x.Informs tys) {r : RR} (hr : r ∈ x.records) (h0 : r.ttl = 0) :
    ∃ n, .zeroTTL n x.server (showRecord r) ∈ vs := by
  obtain ⟨q, hq, hst, rfl, rfl⟩ := (S.asked (Redirecting.generated hrun)).2 m hm _ _ ha
  obtain ⟨hqt, cs, g, l, s, hP, hsub, _⟩ := S.class_run hrun q hq
  have hB := S.endsAlike hrun hq hst hs
  obtain ⟨b, h1, h2⟩ := hB.up x hx
  have e := h2.types
  obtain ⟨n, h⟩ := ((hP.endOutcome S.wellFormed S.nodeFns).zeroTTL x.server (showRecord r)).mpr
    ⟨tys, hf, _, hP.endsAt_of S.wellFormed h1 hi.2.1 hi.2.2, (informs_congr e tys).mpr hi, rfl, r, hr, h0, rfl⟩
  exact ⟨n, hsub _ h⟩

/-- **C88** A report of a zero TTL is true of every name of some class of the job. -/
theorem C88_zero_ttl_sound (S : Redirecting ctx w xs job) {thr thr' fuel : Nat} {g' : LGraph} {ts : List Task} {vs : List Violation}
    (hrun : Driver.runSequential fuel thr ctx (labelGraph thr' xs) job = .ok (g', ts, vs)) {n sv rec : Str} (hv : .zeroTTL n sv rec ∈ vs) :
    ∃ tys, NodeFn.zeroTTL tys ∈ job.nodeFns ∧ ∃ q ∈ classes ts, ∀ m, StandsFor (xs.map (·.1)) q m → Fits w ⟨m, job.types, false⟩ →
      AskedWith job (xs.map (·.1)) m q.types q.nonExistent ∧
      ∃ x, Ending w ⟨m, q.types, false⟩ x ∧ x.Informs tys ∧ x.server = sv ∧ ∃ r ∈ x.records, r.ttl = 0 ∧ rec = showRecord r := by
  obtain ⟨q, hq, cs, g, l, s, hP, _, hv⟩ := S.source hrun hv (fun _ _ e => nomatch e)
  obtain ⟨tys, h1, x, h2, h3, h4, r, h5, h6, h7⟩ := ((hP.endOutcome S.wellFormed S.nodeFns).zeroTTL sv rec).mp ⟨n, hv⟩
  refine ⟨tys, h1, q, hq, fun m hm hs => ⟨(S.asked (Redirecting.generated hrun)).1 q hq m hm, ?_⟩⟩
  have hB := S.endsAlike hrun hq hm hs
  obtain ⟨c, h8, h9⟩ := hB.down x (hP.ending_of S.wellFormed h2)
  exact ⟨_, h8, (informs_congr h9.types tys).mp h3, h4, r, h5, h6, h7⟩

/-! ### Inconsistent answers -/

/-- **C88** If the final answers for a name the job is about disagree, the run reports an inconsistency. -/
theorem C88_consistency_complete (S : Redirecting ctx w xs job) {thr thr' fuel : Nat} {g' : LGraph} {ts : List Task} {vs : List Violation}
    (hrun : Driver.runSequential fuel thr ctx (labelGraph thr' xs) job = .ok (g', ts, vs))
    {tys : TypeSet} (hf : NodeFn.consistency tys ∈ job.nodeFns) {m : Name} (hm : InScope job m) (hs : Fits w ⟨m, job.types, false⟩)
    {T : TypeSet} {b0 : Bool} (ha : AskedWith job (xs.map (·.1)) m T b0) {x y : Visit} (hx : Ending w ⟨m, T, false⟩ x) (hy : Ending w ⟨m, T, false⟩ y)
    (hix : x.Informs tys) (hiy : y.Informs tys) (hd : x.Disagrees y) : ∃ n, .responseConsistency n ∈ vs := by
  obtain ⟨q, hq, hst, rfl, rfl⟩ := (S.asked (Redirecting.generated hrun)).2 m hm _ _ ha
  obtain ⟨hqt, cs, g, l, s, hP, hsub, _⟩ := S.class_run hrun q hq
  have hB := S.endsAlike hrun hq hst hs
  obtain ⟨b, h1, h2⟩ := hB.up x hx
  obtain ⟨c, h3, h4⟩ := hB.up y hy
  have e := h2.types
  have e' := h4.types
  obtain ⟨n, h⟩ := (hP.endOutcome S.wellFormed S.nodeFns).consistency.mpr
    ⟨tys, hf, _, _, hP.endsAt_of S.wellFormed h1 hix.2.1 hix.2.2, hP.endsAt_of S.wellFormed h3 hiy.2.1 hiy.2.2,
      (informs_congr e tys).mpr hix, (informs_congr e' tys).mpr hiy, by
        rcases hd with hd | ⟨h5, h6, h7⟩
        · exact .inl hd
        · exact .inr ⟨by show Member b.types _; rw [e]; exact h5, by show Member c.types _; rw [e']; exact h6, h7⟩⟩
  exact ⟨n, hsub _ h⟩

/-- **C88** A report of inconsistent answers is true of every name of some class of the job. -/
theorem C88_consistency_sound (S : Redirecting ctx w xs job) {thr thr' fuel : Nat} {g' : LGraph} {ts : List Task} {vs : List Violation}
    (hrun : Driver.runSequential fuel thr ctx (labelGraph thr' xs) job = .ok (g', ts, vs)) {n : Str} (hv : .responseConsistency n ∈ vs) :
    ∃ tys, NodeFn.consistency tys ∈ job.nodeFns ∧ ∃ q ∈ classes ts, ∀ m, StandsFor (xs.map (·.1)) q m → Fits w ⟨m, job.types, false⟩ →
      AskedWith job (xs.map (·.1)) m q.types q.nonExistent ∧
      ∃ x y, Ending w ⟨m, q.types, false⟩ x ∧ Ending w ⟨m, q.types, false⟩ y ∧ x.Informs tys ∧ y.Informs tys ∧
        x.Disagrees y := by
  obtain ⟨q, hq, cs, g, l, s, hP, _, hv⟩ := S.source hrun hv (fun _ _ e => nomatch e)
  obtain ⟨tys, h1, x, y, h2, h3, h4, h5, h6⟩ := (hP.endOutcome S.wellFormed S.nodeFns).consistency.mp ⟨n, hv⟩
  refine ⟨tys, h1, q, hq, fun m hm hs => ⟨(S.asked (Redirecting.generated hrun)).1 q hq m hm, ?_⟩⟩
  have hB := S.endsAlike hrun hq hm hs
  obtain ⟨b, h8, h9⟩ := hB.down x (hP.ending_of S.wellFormed h2)
  obtain ⟨c, h10, h11⟩ := hB.down y (hP.ending_of S.wellFormed h3)
  have e := h9.types
  have e' := h11.types
  refine ⟨_, _, h8, h10, (informs_congr e tys).mp h4, (informs_congr e' tys).mp h5, ?_⟩
  rcases h6 with hd | ⟨h5, h6, h7⟩
  · exact .inl hd
  · exact .inr ⟨by show Member b.types _; rw [← e]; exact h5, by show Member c.types _; rw [← e']; exact h6, h7⟩

/-! ### Wrong values -/

/-- **C88** If a final answer for a name the job is about does not consist of the expected values, the run reports it, with the server and the
values found there. -/
theorem C88_value_complete (S : Redirecting ctx w xs job) {thr thr' fuel : Nat} {g' : LGraph} {ts : List Task} {vs : List Violation}
    (hrun : Driver.runSequential fuel thr ctx (labelGraph thr' xs) job = .ok (g', ts, vs))
    {tys : TypeSet} {values : List Str} (hf : NodeFn.value tys values ∈ job.nodeFns) {m : Name} (hm : InScope job m) (hs : Fits w ⟨m, job.types, false⟩)
    {T : TypeSet} {b0 : Bool} (ha : AskedWith job (xs.map (·.1)) m T b0) {x : Visit} (hx : Ending w ⟨m, T, false⟩ x) (hw : x.Wrong tys values) :
    ∃ l, .responseValue values.flatten l ∈ vs ∧ ∃ found n, x.Found tys found ∧ (found.flatten, n, x.server) ∈ l ∧ CalledBy x.ask n := by
  obtain ⟨q, hq, hst, rfl, rfl⟩ := (S.asked (Redirecting.generated hrun)).2 m hm _ _ ha
  obtain ⟨hqt, cs, g, l, s, hP, hsub, _⟩ := S.class_run hrun q hq
  have hB := S.endsAlike hrun hq hst hs
  obtain ⟨b, h1, h2⟩ := hB.up x hx
  have e := h2.types
  have hE := hP.endsAt_of S.wellFormed h1 (wrong_known hw).1 (wrong_known hw).2
  obtain ⟨l, h3, h4⟩ := (hP.endOutcome S.wellFormed S.nodeFns).valueComplete tys values hf _ hE ((wrong_congr e _ _).mpr hw)
  obtain ⟨found, hfo⟩ : ∃ found, (Visit.mk x.server b x.said).Found tys found := exists_found _ _
  refine ⟨l, hsub _ h3, found, showAsk b, hfo, (h4 _).mpr ⟨_, found, hE, (wrong_congr e _ _).mpr hw, hfo, rfl⟩, h2.called⟩

/-- **C88** A report of wrong values is true of every name of some class of the job, and lists exactly the wrong final answers. -/
theorem C88_value_sound (S : Redirecting ctx w xs job) {thr thr' fuel : Nat} {g' : LGraph} {ts : List Task} {vs : List Violation}
    (hrun : Driver.runSequential fuel thr ctx (labelGraph thr' xs) job = .ok (g', ts, vs)) {e : Str} {l : List (Str × Str × Str)}
    (hv : .responseValue e l ∈ vs) :
    ∃ tys values, NodeFn.value tys values ∈ job.nodeFns ∧ e = values.flatten ∧ ∃ q ∈ classes ts, ∀ m, StandsFor (xs.map (·.1)) q m → Fits w ⟨m, job.types, false⟩ →
      AskedWith job (xs.map (·.1)) m q.types q.nonExistent ∧
      (∃ x, Ending w ⟨m, q.types, false⟩ x ∧ x.Wrong tys values) ∧
      ∀ f sv, (∃ n, (f, n, sv) ∈ l) ↔ ∃ x found, Ending w ⟨m, q.types, false⟩ x ∧ x.Wrong tys values ∧ x.Found tys found ∧
        f = found.flatten ∧ sv = x.server := by
  obtain ⟨q, hq, cs, g, lp, s, hP, _, hv⟩ := S.source hrun hv (fun _ _ e => nomatch e)
  obtain ⟨tys, values, h1, h2, ⟨x, h3, h4⟩, h5⟩ := (hP.endOutcome S.wellFormed S.nodeFns).value e l hv
  refine ⟨tys, values, h1, h2, q, hq, fun m hm hs => ⟨(S.asked (Redirecting.generated hrun)).1 q hq m hm, ?_⟩⟩
  have hB := S.endsAlike hrun hq hm hs
  refine ⟨?_, fun f sv => ⟨?_, ?_⟩⟩
  · obtain ⟨c, h8, h9⟩ := hB.down x (hP.ending_of S.wellFormed h3)
    exact ⟨_, h8, (wrong_congr h9.types _ _).mp h4⟩
  · rintro ⟨n, hn⟩
    obtain ⟨y, found, h6, h7, h8, h9⟩ := (h5 _).mp hn
    cases h9
    obtain ⟨c, h10, h11⟩ := hB.down y (hP.ending_of S.wellFormed h6)
    exact ⟨_, found, h10, (wrong_congr h11.types _ _).mp h7, h8, rfl, rfl⟩
  · rintro ⟨y, found, h6, h7, h8, rfl, rfl⟩
    obtain ⟨b, h9, h10⟩ := hB.up y h6
    exact ⟨showAsk b, (h5 _).mpr ⟨_, found, hP.endsAt_of S.wellFormed h9 (wrong_known h7).1 (wrong_known h7).2,
      (wrong_congr h10.types _ _).mpr h7, h8, rfl⟩⟩

/-! ### Missing types -/

/-- **C88** If a final answer for a name the job is about lacks a type, and the types of the job are asked for there (something is expected), the run reports the missing types. -/
theorem C88_missing_complete (S : Redirecting ctx w xs job) {thr thr' fuel : Nat} {g' : LGraph} {ts : List Task} {vs : List Violation}
    (hrun : Driver.runSequential fuel thr ctx (labelGraph thr' xs) job = .ok (g', ts, vs))
    {tys : TypeSet} (hf : NodeFn.returned tys ∈ job.nodeFns) {m : Name} (hm : InScope job m) (hs : Fits w ⟨m, job.types, false⟩)
    (ha : AskedWith job (xs.map (·.1)) m job.types false) {x : Visit} (hx : Ending w ⟨m, job.types, false⟩ x) (hi : x.Informs tys)
    {a : Answer} (hm' : a ∈ x.said) (h0 : a.rrs = []) (ht : ∃ t, Member a.types t ∧ Member tys t) :
    ∃ n, .responseReturned n (showTypes (a.types &&& tys)) x.server ∈ vs := by
  obtain ⟨q, hq, hst, h3, hne⟩ := (S.asked (Redirecting.generated hrun)).2 m hm _ _ ha
  obtain ⟨hqt, cs, g, l, s, hP, hsub, _⟩ := S.class_run hrun q hq
  have hB := S.endsAlike hrun hq hst hs
  rw [h3] at hB
  obtain ⟨b, h1, h2⟩ := hB.up x hx
  have e := h2.types
  refine ⟨showAsk b, hsub _ (hP.missing_iff S.wellFormed hne hf (hP.endsAt_of S.wellFormed h1 hi.2.1 hi.2.2) ?_)⟩
  exact ⟨(informs_congr e tys).mpr hi, a, hm', h0, ht, rfl⟩

/-- **C88** A report of missing types is true of every name of some class of the job. -/
theorem C88_missing_sound (S : Redirecting ctx w xs job) {thr thr' fuel : Nat} {g' : LGraph} {ts : List Task} {vs : List Violation}
    (hrun : Driver.runSequential fuel thr ctx (labelGraph thr' xs) job = .ok (g', ts, vs)) {n t sv : Str} (hv : .responseReturned n t sv ∈ vs) :
    ∃ tys, NodeFn.returned tys ∈ job.nodeFns ∧ ∃ q ∈ classes ts, ∀ m, StandsFor (xs.map (·.1)) q m → Fits w ⟨m, job.types, false⟩ →
      AskedWith job (xs.map (·.1)) m q.types q.nonExistent ∧
      ∃ x, Ending w ⟨m, q.types, false⟩ x ∧ x.Informs tys ∧ x.server = sv ∧
        ∃ a ∈ x.said, a.rrs = [] ∧ (∃ u, Member a.types u ∧ Member tys u) ∧ t = showTypes (a.types &&& tys) := by
  obtain ⟨q, hq, cs, g, lp, s, hP, _, hv⟩ := S.source hrun hv (fun _ _ e => nomatch e)
  obtain ⟨tys, h1, x, h2, h3, a, h4, h5, h6, h7⟩ := (hP.endOutcome S.wellFormed S.nodeFns).missing n t sv hv
  refine ⟨tys, h1, q, hq, fun m hm hs => ⟨(S.asked (Redirecting.generated hrun)).1 q hq m hm, ?_⟩⟩
  have hB := S.endsAlike hrun hq hm hs
  obtain ⟨c, h8, h9⟩ := hB.down x (hP.ending_of S.wellFormed h2)
  injection h7 with e1 e2 e3
  exact ⟨_, h8, (informs_congr h9.types tys).mp h3, e3.symm, a, h4, h5, h6, e2⟩

/-- Where resolution for the types of the job ends, the resolution of a question the program asks ends too, with an answer of the same kind and at
least the same records. -/
theorem Spec.AskedWith.wider (ht : AsksOther job.types) {rs : List RR} {m : Name} {T : TypeSet} {b0 : Bool} (ha : AskedWith job rs m T b0) {x : Visit}
    (hx : Ending w ⟨m, job.types, false⟩ x) :
    ∃ y, Ending w ⟨m, T, false⟩ y ∧ y.server = x.server ∧ (∀ t, Member x.ask.types t → Member y.ask.types t) ∧ Widens x.said y.said := by
  have hT : T = job.types ∨ T = ~~~0 := by
    cases ha with
    | single => exact .inl rfl
    | known => exact .inl rfl
    | wild => exact .inl rfl
    | nothing => exact .inr rfl
  rcases hT with rfl | rfl
  · exact ⟨x, hx, rfl, fun _ h => h, rfl, fun _ h => h, fun _ => rfl⟩
  · obtain ⟨y, h1, h2, _, h3, h4⟩ := ending_widen (a := ⟨m, job.types, false⟩) (b := ⟨m, ~~~0, false⟩) ht all_other (fun t ht => member_all t ht.1)
      ⟨rfl, rfl, .inl ⟨rfl, rfl⟩⟩ hx
    exact ⟨y, h1, h2, h3, h4⟩

theorem Widens.informs {tys : TypeSet} {x x' : Visit} (ha : ∀ t, Member x.ask.types t → Member x'.ask.types t) (hb : Widens x.said x'.said) (h : x.Informs tys) :
    x'.Informs tys := by
  obtain ⟨⟨t, h5, h6⟩, h7, h8⟩ := h
  refine ⟨⟨t, ha t h5, h6⟩, ?_, ?_⟩
  · intro h; exact h7 (hb.tag.trans h)
  · intro h; exact h8 (hb.tag.trans h)

/-- **C88** No zero TTL in an answer for the types of the job is missed, whatever is asked. -/
theorem C88_zero_ttl_job (S : Redirecting ctx w xs job) {thr thr' fuel : Nat} {g' : LGraph} {ts : List Task} {vs : List Violation}
    (hrun : Driver.runSequential fuel thr ctx (labelGraph thr' xs) job = .ok (g', ts, vs))
    {tys : TypeSet} (hf : NodeFn.zeroTTL tys ∈ job.nodeFns) {m : Name} (hm : InScope job m) (hs : Fits w ⟨m, job.types, false⟩)
    {x : Visit} (hx : Ending w ⟨m, job.types, false⟩ x) (hi : x.Informs tys) {r : RR} (hr : r ∈ x.records) (h0 : r.ttl = 0) :
    ∃ n, .zeroTTL n x.server (showRecord r) ∈ vs := by
  obtain ⟨T, b, ha⟩ := C88_covered S hrun hm
  obtain ⟨y, h1, h2, h3, h4⟩ := ha.wider S.types hx
  have := C88_zero_ttl_complete S hrun hf hm hs ha h1 (h4.informs h3 hi) (h4.records r hr) h0
  rwa [h2] at this

/-- **C88** An inconsistency is reported if one server has records for a name and another has none, whatever is asked. -/
theorem C88_consistency_denied (S : Redirecting ctx w xs job) {thr thr' fuel : Nat} {g' : LGraph} {ts : List Task} {vs : List Violation}
    (hrun : Driver.runSequential fuel thr ctx (labelGraph thr' xs) job = .ok (g', ts, vs))
    {tys : TypeSet} (hf : NodeFn.consistency tys ∈ job.nodeFns) {m : Name} (hm : InScope job m) (hs : Fits w ⟨m, job.types, false⟩)
    {x y : Visit} (hx : Ending w ⟨m, job.types, false⟩ x) (hy : Ending w ⟨m, job.types, false⟩ y)
    (hix : x.Informs tys) (hiy : y.Informs tys) (hr : x.records ≠ []) (hd : y.Tells .NX) : ∃ n, .responseConsistency n ∈ vs := by
  obtain ⟨T, b, ha⟩ := C88_covered S hrun hm
  obtain ⟨x', h1, h2, h3, h4⟩ := ha.wider S.types hx
  obtain ⟨y', h5, h6, h7, h8⟩ := ha.wider S.types hy
  refine C88_consistency_complete S hrun hf hm hs ha h1 h5 (h4.informs h3 hix) (h8.informs h7 hiy) (.inl fun hsame => ?_)
  have hnx : y'.records = [] := denied_empty h5.answers (h8.tag.symm.trans hd)
  have h9 := hsame.length_eq
  rw [hnx] at h9
  cases hl : x.records with
  | nil => exact hr hl
  | cons r rs =>
    have := h4.records r (by show r ∈ x.records; rw [hl]; simp)
    have h10 : x'.records = [] := by simpa using h9
    change r ∈ x'.records at this
    rw [h10] at this; cases this

/-! ### Lame delegations -/

/-- **C88** If a server consulted about a name the job is about refers to a server that has zone files but none for the name, the run reports this, with
both servers, under the class of the name. -/
theorem C88_lame_complete (S : Redirecting ctx w xs job) {thr thr' fuel : Nat} {g' : LGraph} {ts : List Task} {vs : List Violation}
    (hrun : Driver.runSequential fuel thr ctx (labelGraph thr' xs) job = .ok (g', ts, vs))
    (hf : PathFn.lame ∈ job.pathFns) {m : Name} (hm : InScope job m) (hft : Fits w ⟨m, job.types, false⟩)
    {s t : Str} (hc : Consulted w m s) (hr : Refers w m s t) (hl : w.Listed t) (he : ¬ Encloses w t m) :
    ∃ q ∈ classes ts, StandsFor (xs.map (·.1)) q m ∧ .lame (showQuery q) s t ∈ vs := by
  obtain ⟨q, hq, hst⟩ := S.covered hrun m hm
  obtain ⟨hqt, cs, g, l, st, hP, hsub, _⟩ := S.class_run hrun q hq
  obtain ⟨lb, rest, e, hfr⟩ := S.member hrun hq hst hft
  have hs : Short m := hft _ .refl
  have hsay : ∀ s as, Says w s (ask q) as ↔ Says w s ⟨m, q.types, false⟩ as := by
    intro s as; rw [← e]; exact says_member (hfr.good .start) s as
  refine ⟨q, hq, hst, ?_⟩
  have hcon := (consulted_route S.wellFormed (ts := q.types) hs (a := ask q) (fun s as => (hsay s as).mpr) (.referred s t hc hr)).1
  have hend := ends_of_says (w := w) (a := ask q) (as := [⟨.REFUSED, q.types, []⟩]) hcon
    (fun as' h => refuses hs hl he _ ((hsay _ _).mp h)) (fun x hx => by rw [List.mem_singleton.mp hx]; exact ⟨by simp, by simp⟩)
  obtain ⟨_, pre, sd, sd', hcomp⟩ := complete_of_consulted S.wellFormed (ts := q.types) hs (a := ask q) (fun s as => (hsay s as).mpr) hc hr hend
  have hA := answering_saidBy hP.inv
  have h1 : Reached w (ask q) s (ask q) := reached_route .start hcomp.route (s, ask q, sd) (by simp)
  have h2 : Reached w (ask q) t (ask q) := reached_route .start hcomp.route (t, ask q, sd') (by simp)
  have hs0 := route_server S.wellFormed hcomp.route (s, ask q, sd) (by simp)
  obtain ⟨id, en, us, _, _, _, hsr, _⟩ := hr.says hs q.types
  have hsS := says_determined ((hsay _ _).mpr hsr) (hA _ _ h1 hs0) (by simp) (by simp)
  have hsT := refuses hs hl he _ ((hsay _ _).mp (hA _ _ h2 hcon))
  obtain ⟨v', hv', hal⟩ := (hP.pathOutcome S.wellFormed S.pathFns).complete _ hf _ (.inl hcomp) (.lame (showQuery q) s t)
    ⟨transcript (saidBy g) pre, ⟨s, ask q, saidBy g s (ask q)⟩, ⟨t, ask q, saidBy g t (ask q)⟩, [], by simp [transcript],
      (congrArg headTag hsS).symm, congrArg headTag hsT, rfl, by
      rw [show showAsk (ask q) = showQuery q from toStr_of_ask (ask_ec _)]⟩
  rw [alike_plain hal (fun _ _ _ e => nomatch e)] at hv'
  exact hsub _ hv'

/-- **C88** A report of a lame delegation is true of every name of some class of the job: in the course of its resolution a question is put to the server,
for the name itself or (if an alias leads there) the name the class is called by, and the delegation is lame for the name in question. -/
theorem C88_lame_sound (S : Redirecting ctx w xs job) {thr thr' fuel : Nat} {g' : LGraph} {ts : List Task} {vs : List Violation}
    (hrun : Driver.runSequential fuel thr ctx (labelGraph thr' xs) job = .ok (g', ts, vs)) {n s t : Str} (hv : .lame n s t ∈ vs) :
    PathFn.lame ∈ job.pathFns ∧ ∃ q ∈ classes ts, n = showQuery q ∧ ∀ m, StandsFor (xs.map (·.1)) q m → Fits w ⟨m, job.types, false⟩ →
      ∃ a, PutTo w ⟨m, job.types, false⟩ s a ∧ (a.name = m ∨ a.name = q.name) ∧ LameFor w a.name s t := by
  obtain ⟨q, hq, cs, g, l, st, hP, _, hv⟩ := S.source hrun hv (fun _ _ e => nomatch e)
  obtain ⟨f, hf, p, hp, hrep⟩ := (hP.pathOutcome S.wellFormed S.pathFns).sound _ hv trivial
  have hfe : f = .lame := by
    cases f <;> simp only [Reports] at hrep
    case hops => cases hrep.2.2
    case rewrites => obtain ⟨_, _, _, h⟩ := hrep; cases h
    case delegation => obtain ⟨_, _, _, _, _, _, _, _, ⟨_, h⟩ | ⟨_, h⟩⟩ := hrep <;> cases h
    case infiniteDname => obtain ⟨_, _, _, _, _, _, _, _, _, h⟩ := hrep; cases h
    case lame => rfl
    case queryRewrite => obtain ⟨_, _, _, _, _, _, _, h⟩ := hrep; cases h
    case nsContact => obtain ⟨_, _, _, h⟩ := hrep; cases h
    case blackholing => obtain ⟨_, _, _, _, _, _, _, _, h⟩ := hrep; cases h
    case allAliases => obtain ⟨_, _, _, _, _, _, _, _, _, h⟩ := hrep; cases h
    case dnameLength => obtain ⟨_, _, _, _, h⟩ := hrep; cases h
  subst hfe
  obtain ⟨pre, x, y, post, htr, hx, hy, hyn, e⟩ := hrep
  injection e with e1 e2 e3
  subst e2 e3
  refine ⟨hf, q, hq, e1.trans (toStr_of_ask (ask_ec _)), fun m hm hs => ?_⟩
  obtain ⟨lb, rest, e, hfr⟩ := S.member hrun hq hm hs
  obtain ⟨hput, hx0, hy0, hsx, hsy, sd, hst⟩ := examined_pair S.wellFormed (answering_saidBy hP.inv) hp htr
  obtain ⟨p', sd', hroute⟩ := hput
  have hre := reached_of_route hroute
  have hya := (step_referred hx0 hsx hx hst).1
  obtain ⟨b, hb1, hb2, _⟩ := putTo_member (S.asksOther hrun hq) S.types e hfr ⟨p', sd', hroute⟩
  have hst' := step_member (hfr.good hre) (hfr.good (.step _ _ _ _ _ hre hst)) hst
  have hsx' := (says_member (hfr.good hre) _ _).mp hsx
  have hsy' := (says_member (hfr.good (.step _ _ _ _ _ hre hst)) _ _).mp hsy
  have href := (step_referred hx0 hsx' hx hst').2
  rw [← hb2] at href
  refine ⟨b, hb1, ?_, href, ?_⟩
  · rw [hb2, ← hya]
    cases hbl : y.ask.below with
    | false => rw [member_exact hbl]; exact .inr hyn
    | true =>
      left
      obtain ⟨h1, h2⟩ := below_types (.step _ _ _ _ _ hre hst) hbl
      have : y.ask = ask q := by
        cases hy' : y.ask with
        | mk n t b =>
          rw [hy'] at h1 hyn hbl
          dsimp only at h1 hyn hbl
          rw [hyn, h1, hbl, ← h2]
      rw [this, e]
  · rw [hb2, ← hya]
    exact refused_of_says hsy' hy

/-! ### Inconsistent delegations -/

/-- What parent and child answer about a name delegated. -/
theorem Spec.Redirecting.delegated (S : Redirecting ctx w xs job) {thr thr' fuel : Nat} {g' : LGraph} {ts : List Task} {vs : List Violation}
    (hrun : Driver.runSequential fuel thr ctx (labelGraph thr' xs) job = .ok (g', ts, vs))
    (hf : PathFn.delegation ∈ job.pathFns) (hns : Member job.types .NS) {m : Name} (hm : InScope job m) (hs : Short m)
    {s t : Str} {id id' : Nat} (hc : Consulted w m s) (hd : Delegated w m s t id id') {b : Bool}
    (hb : b = false ∧ ServersDiffer w m id id' ∨ b = true ∧ AddressesDiffer w m job.types id id') :
    .delegation (present m) s t b ∈ vs := by
  obtain ⟨q, hq, e, hshow⟩ := S.alone hrun hm (hd.known S.all)
  obtain ⟨hqt, cs, g, l, st, hP, hsub, _⟩ := S.class_run hrun q hq
  have hr : Refers w m s t := ⟨id, m, hd.parent, hd.at_, hd.cut, hd.named⟩
  obtain ⟨found, missing, hf0, hfns, hsayT⟩ := hd.says hs hns
  have hchild : dataAnswers found missing (dataFor (w.log id') (Ask.ec ⟨m, job.types, false⟩) m true) =
      ⟨.ANS, found, dataFor (w.log id') (Ask.ec ⟨m, job.types, false⟩) m true⟩ :: (if missing = 0 then [] else [⟨.ANS, missing, []⟩]) := by
    unfold dataAnswers; rw [if_neg hf0]; rfl
  have hdet : ∀ as', Says w t ⟨m, job.types, false⟩ as' → as' = dataAnswers found missing (dataFor (w.log id') (Ask.ec ⟨m, job.types, false⟩) m true) :=
    fun as' h => (says_determined hsayT h (by rw [hchild]; simp) (by rw [hchild]; simp)).symm
  have hcon := (consulted_route S.wellFormed (ts := job.types) hs (a := ⟨m, job.types, false⟩) (fun _ _ h => h) (.referred s t hc hr)).1
  have hend := ends_of_says (w := w) hcon hdet (fun x hx => by
    rw [hchild] at hx
    rcases List.mem_cons.mp hx with rfl | hx
    · exact ⟨by simp, by simp⟩
    · split at hx
      · cases hx
      · rw [List.mem_singleton.mp hx]; exact ⟨by simp, by simp⟩)
  obtain ⟨_, pre, sd, sd', hcomp⟩ := complete_of_consulted S.wellFormed (ts := job.types) hs (a := ⟨m, job.types, false⟩) (fun _ _ h => h) hc hr hend
  have hA := answering_saidBy hP.inv
  rw [e] at hA
  have h1 : Reached w ⟨m, job.types, false⟩ s ⟨m, job.types, false⟩ := reached_route .start hcomp.route (s, ⟨m, job.types, false⟩, sd) (by simp)
  have h2 : Reached w ⟨m, job.types, false⟩ t ⟨m, job.types, false⟩ := reached_route .start hcomp.route (t, ⟨m, job.types, false⟩, sd') (by simp)
  have hs0 := route_server S.wellFormed hcomp.route (s, ⟨m, job.types, false⟩, sd) (by simp)
  obtain ⟨us, hus⟩ := exists_types (fun t => HasType (w.log id) m t)
  have hsayS : Says w s ⟨m, job.types, false⟩ [⟨.REF, us, withGlue (w.log id) (nsAt (w.log id) m)⟩] :=
    .zone id _ hs hd.parent (.referral m us hd.at_ hd.cut hus)
  have hsS := says_determined hsayS (hA _ _ h1 hs0) (by simp) (by simp)
  have hsT := hdet _ (hA _ _ h2 hcon)
  rw [hchild] at hsT
  let x : Visit := ⟨s, ⟨m, job.types, false⟩, saidBy g s ⟨m, job.types, false⟩⟩
  let y : Visit := ⟨t, ⟨m, job.types, false⟩, saidBy g t ⟨m, job.types, false⟩⟩
  have hxr : x.records = withGlue (w.log id) (nsAt (w.log id) m) := by
    show (List.head? (saidBy g s _) |>.map (·.rrs)).getD [] = _
    rw [← hsS]; rfl
  have hyr : y.records = dataFor (w.log id') (Ask.ec ⟨m, job.types, false⟩) m true := by
    show (List.head? (saidBy g t _) |>.map (·.rrs)).getD [] = _
    rw [hsT]; rfl
  have hxn : nsOf x.records = nsAt (w.log id) m := by rw [hxr]; exact nsOf_withGlue (fun r hr => (mem_nsAt hr).2.2)
  have hyn : nsOf y.records = nsAt (w.log id') m := by rw [hyr]; exact nsOf_dataFor (q := Ask.ec ⟨m, job.types, false⟩) hns
  have hxa : addressesOf x.records = glueAt (w.log id) m := by rw [hxr]; exact addressesOf_withGlue (fun r hr => (mem_nsAt hr).2.2)
  have hya : addressesOf y.records = ownAddresses (w.log id') m job.types ++ glueAt (w.log id') m := by
    rw [hyr]; exact addressesOf_dataFor (q := Ask.ec ⟨m, job.types, false⟩) hns
  obtain ⟨y0, ys, hy0, hy0n⟩ : ∃ y0 ys, nsAt (w.log id') m = y0 :: ys ∧ y0.name = m := by
    obtain ⟨z, hz, e1, e2⟩ := hd.own
    have : z ∈ nsAt (w.log id') m := by
      unfold nsAt recordsAt
      exact List.mem_filter.mpr ⟨List.mem_filter.mpr ⟨hz, by simpa using e1⟩, by simpa using e2⟩
    obtain ⟨y0, ys, h⟩ := List.exists_cons_of_ne_nil (List.ne_nil_of_mem this)
    exact ⟨y0, ys, h, (mem_nsAt (log := w.log id') (by rw [h]; exact List.mem_cons_self)).2.1⟩
  have hyne : y.records ≠ [] := by
    intro h0
    rw [h0] at hyn
    rw [hy0] at hyn
    cases hyn
  have hcomp' : Complete w (ask q) (pre ++ [(s, ⟨m, job.types, false⟩, sd), (t, ⟨m, job.types, false⟩, sd')]) := e ▸ hcomp
  have hrep : Reports (ask q) (transcript (saidBy g) (pre ++ [(s, ⟨m, job.types, false⟩, sd), (t, ⟨m, job.types, false⟩, sd')]))
      (.delegation (present m) s t b) .delegation := by
    refine ⟨transcript (saidBy g) pre, x, y, [], (by simp [transcript, x, y]), ⟨(congrArg headTag hsS).symm,
        congrArg headTag hsT, ⟨_, congrArg (fun l : List Answer => l.head?) hsT, hfns⟩, hyne, (by rw [e])⟩, ?_, ?_, ?_⟩
    · intro pre' x' y' post' h
      have := congrArg List.length h
      simp only [List.length_append, List.length_cons, List.length_nil] at this
      omega
    · rw [hxn, hyn]
      intro z hz z' hz'
      rw [(mem_nsAt (List.mem_of_mem_head? hz)).2.1, (mem_nsAt (List.mem_of_mem_head? hz')).2.1]
    · have hsh : showAsk (ask q) = present m := (toStr_of_ask (ask_ec _)).trans hshow
      rw [hxn, hyn, hxa, hya, hsh]
      rcases hb with ⟨rfl, hb⟩ | ⟨rfl, hb⟩
      · exact .inl ⟨hb, rfl⟩
      · refine .inr ⟨?_, rfl⟩
        unfold AddressesDiffer at hb
        rw [hy0]
        unfold within
        dsimp only
        rw [hy0n]
        exact hb
  obtain ⟨v', hv', hal⟩ := (hP.pathOutcome S.wellFormed S.pathFns).complete _ hf _ (.inl hcomp') _ hrep
  rw [alike_plain hal (fun _ _ _ e => nomatch e)] at hv'
  exact hsub _ hv'

/-- **C88** If a server consulted about a name the job is about delegates it, and names other servers than the child's own zone does, the run reports
this, with both servers. -/
theorem C88_servers_complete (S : Redirecting ctx w xs job) {thr thr' fuel : Nat} {g' : LGraph} {ts : List Task} {vs : List Violation}
    (hrun : Driver.runSequential fuel thr ctx (labelGraph thr' xs) job = .ok (g', ts, vs))
    (hf : PathFn.delegation ∈ job.pathFns) (hns : Member job.types .NS) {m : Name} (hm : InScope job m) (hs : Short m)
    {s t : Str} {id id' : Nat} (hc : Consulted w m s) (hd : Delegated w m s t id id') (hb : ServersDiffer w m id id') :
    .delegation (present m) s t false ∈ vs := S.delegated hrun hf hns hm hs hc hd (.inl ⟨rfl, hb⟩)

/-- **C88** The same for the addresses of the servers. -/
theorem C88_addresses_complete (S : Redirecting ctx w xs job) {thr thr' fuel : Nat} {g' : LGraph} {ts : List Task} {vs : List Violation}
    (hrun : Driver.runSequential fuel thr ctx (labelGraph thr' xs) job = .ok (g', ts, vs))
    (hf : PathFn.delegation ∈ job.pathFns) (hns : Member job.types .NS) {m : Name} (hm : InScope job m) (hs : Short m)
    {s t : Str} {id id' : Nat} (hc : Consulted w m s) (hd : Delegated w m s t id id') (hb : AddressesDiffer w m job.types id id') :
    .delegation (present m) s t true ∈ vs := S.delegated hrun hf hns hm hs hc hd (.inr ⟨rfl, hb⟩)

/-- **C88** A report of an inconsistent delegation is true: the zones of the two servers disagree about the name of some class of the job, and the
resolution of every name of the class puts a question about it to the parent. -/
theorem C88_delegation_sound (S : Redirecting ctx w xs job) {thr thr' fuel : Nat} {g' : LGraph} {ts : List Task} {vs : List Violation}
    (hrun : Driver.runSequential fuel thr ctx (labelGraph thr' xs) job = .ok (g', ts, vs)) {n s t : Str} {b : Bool} (hv : .delegation n s t b ∈ vs) :
    PathFn.delegation ∈ job.pathFns ∧ ∃ q ∈ classes ts, n = showQuery q ∧ Member q.types .NS ∧
      (∃ id id', Delegated w q.name s t id id' ∧ (b = false → ServersDiffer w q.name id id') ∧ (b = true → AddressesDiffer w q.name q.types id id')) ∧
      ∀ m, StandsFor (xs.map (·.1)) q m → Fits w ⟨m, job.types, false⟩ → ∃ a, a.name = q.name ∧ PutTo w ⟨m, job.types, false⟩ s a := by
  obtain ⟨q, hq, cs, g, l, st, hP, _, hv⟩ := S.source hrun hv (fun _ _ e => nomatch e)
  obtain ⟨f, hf, p, hp, hrep⟩ := (hP.pathOutcome S.wellFormed S.pathFns).sound _ hv trivial
  have hfe : f = .delegation := by
    cases f <;> simp only [Reports] at hrep
    case hops => cases hrep.2.2
    case rewrites => obtain ⟨_, _, _, h⟩ := hrep; cases h
    case delegation => rfl
    case infiniteDname => obtain ⟨_, _, _, _, _, _, _, _, _, h⟩ := hrep; cases h
    case lame => obtain ⟨_, _, _, _, _, _, _, _, h⟩ := hrep; cases h
    case queryRewrite => obtain ⟨_, _, _, _, _, _, _, h⟩ := hrep; cases h
    case nsContact => obtain ⟨_, _, _, h⟩ := hrep; cases h
    case blackholing => obtain ⟨_, _, _, _, _, _, _, _, h⟩ := hrep; cases h
    case allAliases => obtain ⟨_, _, _, _, _, _, _, _, _, h⟩ := hrep; cases h
    case dnameLength => obtain ⟨_, _, _, _, h⟩ := hrep; cases h
  subst hfe
  obtain ⟨pre, x, y, post, htr, ⟨hx, hy, hyns, hyr, hyn⟩, _, hown, hor⟩ := hrep
  obtain ⟨hput, hx0, hy0, hsx, hsy, sd, hst⟩ := examined_pair S.wellFormed (answering_saidBy hP.inv) hp htr
  obtain ⟨hya, id, e, us, _, h2, h3, h4, hxs, h5⟩ := step_named hx0 hsx hx hst
  have hqt := (S.class_run hrun q hq).1
  have hqo : AsksOther (ask q).types := by
    show AsksOther q.types
    rcases hqt with e | e <;> rw [e]
    · exact S.types
    · exact all_other
  have htypes : ∀ t, t ≠ .CNAME → (Member y.ask.types t ↔ Member q.types t) := by
    intro t ht; rw [hya]; exact hput.types t ht
  have hoc : AsksOther y.ask.types := by
    obtain ⟨t, h1, h2⟩ := hqo
    exact ⟨t, h1, (htypes t h1).mpr h2⟩
  have hxr : x.records = withGlue (w.log id) (nsAt (w.log id) e) := by
    show (x.said.head?.map (·.rrs)).getD [] = _
    rw [hxs]; rfl
  have hxn : nsOf x.records = nsAt (w.log id) e := by rw [hxr]; exact nsOf_withGlue (fun r hr => (mem_nsAt hr).2.2)
  have hxa : addressesOf x.records = glueAt (w.log id) e := by rw [hxr]; exact addressesOf_withGlue (fun r hr => (mem_nsAt hr).2.2)
  have hP0 : nsAt (w.log id) e ≠ [] := by obtain ⟨r, hr, _⟩ := h5; exact List.ne_nil_of_mem hr
  obtain ⟨h6, h7, h8, id', h9, h10, h11, h12, h13⟩ := own_of_says hsy hoc hy hyns hyr hP0 (p := e) (fun r hr => (mem_nsAt hr).2.1)
    (by rw [hya]; exact h3.1) (hxn ▸ hown)
  have hqn : y.ask.name = q.name := hyn
  rw [hqn] at h7 h9 h10 h11 h12 h13
  rw [← hya, hqn] at h2 h3
  rw [h7] at h3 h4 h5 hxr hxn hxa
  have hyr' : y.records = dataFor (w.log id') y.ask.ec q.name true := h13
  have hynn : nsOf y.records = nsAt (w.log id') q.name := by rw [hyr']; exact nsOf_dataFor (q := y.ask.ec) h8
  have hyaa : addressesOf y.records = ownAddresses (w.log id') q.name q.types ++ glueAt (w.log id') q.name := by
    rw [hyr', addressesOf_dataFor (q := y.ask.ec) h8]
    congr 1
    unfold ownAddresses
    apply List.filter_congr
    intro r _
    rw [decide_eq_decide]
    refine and_congr_right (fun hr => ?_)
    exact htypes _ (by rcases hr with h | h <;> rw [h] <;> simp)
  have hshow : showAsk (ask q) = showQuery q := toStr_of_ask (ask_ec _)
  obtain ⟨y1, ys, hy1, hy1n⟩ : ∃ y0 ys, nsAt (w.log id') q.name = y0 :: ys ∧ y0.name = q.name := by
    obtain ⟨z, hz, e1, e2⟩ := h12
    have : z ∈ nsAt (w.log id') q.name := by
      unfold nsAt recordsAt
      exact List.mem_filter.mpr ⟨List.mem_filter.mpr ⟨hz, by simpa using e1⟩, by simpa using e2⟩
    obtain ⟨y0, ys, h⟩ := List.exists_cons_of_ne_nil (List.ne_nil_of_mem this)
    exact ⟨y0, ys, h, (mem_nsAt (log := w.log id') (by rw [h]; exact List.mem_cons_self)).2.1⟩
  rw [hxn, hynn, hxa, hyaa, hshow] at hor
  have key : n = showQuery q ∧ s = x.server ∧ t = y.server ∧ (b = false → ServersDiffer w q.name id id') ∧
      (b = true → AddressesDiffer w q.name q.types id id') := by
    rcases hor with ⟨h14, h15⟩ | ⟨h14, h15⟩ <;> injection h15 with e1 e2 e3 e4 <;> subst e4
    · exact ⟨e1, e2, e3, fun _ => h14, fun h => by cases h⟩
    · refine ⟨e1, e2, e3, (fun h => by cases h), fun _ => ?_⟩
      unfold AddressesDiffer
      rw [hy1] at h14
      unfold within at h14
      dsimp only at h14
      rwa [hy1n] at h14
  obtain ⟨e1, rfl, rfl, hsd, had⟩ := key
  refine ⟨hf, q, hq, e1, (htypes _ (by simp)).mp h8, ⟨id, id', ⟨h2, h3, h4, h5, h9, h10, h11, h12⟩, hsd, had⟩, fun m hm hs => ?_⟩
  obtain ⟨lb, rest, e, hfr⟩ := S.member hrun hq hm hs
  obtain ⟨c, hc1, hc2, _⟩ := putTo_member (S.asksOther hrun hq) S.types e hfr hput
  refine ⟨c, ?_, hc1⟩
  rw [hc2, ← hya, member_exact h6, hqn]

end

/-! ### A sample run -/

private def rr (n : String) (t : RRType) (ttl : Nat) (d : String) : RR :=
  { name := stringToLabels n.toList, type := t, cls := 1, ttl := ttl, rdata := d.toList }

private def nm (s : String) : Name := stringToLabels s.toList

/-- Everything below `a.com` is redirected to `b.com`, where one of two servers has a wildcard and the other has not. -/
def twoWorld : World where
  zones := [(1, [rr "com." .SOA 300 "x", rr "a.com." .DNAME 300 "b.com.", rr "*.b.com." .A 0 "1.1.1.1"]),
    (2, [rr "com." .SOA 300 "x", rr "a.com." .DNAME 300 "b.com.", rr "b.com." .A 300 "2.2.2.2"])]
  nsZones := [("s.".toList, [1]), ("t.".toList, [2])]
  top := ["s.".toList, "t.".toList]

def twoJob : Job where
  domain := "a.com.".toList
  subdomains := true
  types := TypeSet.add (TypeSet.single .A) .MX
  nodeFns := [.zeroTTL (TypeSet.single .A), .consistency (TypeSet.single .A), .value (TypeSet.single .A) ["1.1.1.1".toList], .returned (TypeSet.single .MX)]

theorem twice_setting : Redirecting (contextOf twoWorld) twoWorld (recordsOf twoWorld) twoJob :=
  { redirecting_of twoWorld { twoJob with nodeFns := [] } (wellFormed_of _ (by decide +kernel) (by decide +kernel) (by decide +kernel)) (by decide +kernel)
      (by decide +kernel) ⟨.A, by decide, by show Member twoJob.types .A; unfold Member; decide⟩ (fun f hf => by cases hf) rfl with
    nodeFns := by
      intro f hf
      simp only [twoJob, List.mem_cons, List.not_mem_nil, or_false] at hf
      rcases hf with rfl | rfl | rfl | rfl <;> first | trivial | exact ⟨List.pairwise_singleton _ _, by decide +kernel⟩ }

/-- How much of a name is known, by running the search. -/
theorem deepest_of_check {w : World} {m : Name} {i : Nat}
    (h : (match LGraph.closestEnclosers 100 (labelGraph 500 (recordsOf w)) m with
      | .ok (_, es) => decide (∀ x ∈ es, x.2 = i)
      | _ => false) = true) : ∀ k j, Matches ((recordsOf w).map (·.1)) m k j → j ≤ i := by
  intro k j hk
  obtain ⟨N, es, n, h1, h2, h3, -, h5⟩ := C22_search 500 (recordsOf w) m
  cases hs : LGraph.closestEnclosers 100 (labelGraph 500 (recordsOf w)) m with
  | ok r =>
    rw [hs] at h
    have hc := of_decide_eq_true h
    have he := mono_agree (f := fun n => LGraph.closestEnclosers n (labelGraph 500 (recordsOf w)) m)
      (fun n r => searchNode_mono n _ _ _ _ r) hs (h1 N (Nat.le_refl _))
    subst he
    obtain ⟨x, hx⟩ := List.exists_mem_of_ne_nil _ h2
    have e1 := h3 x hx
    have e2 := hc x hx
    have e3 := h5 _ _ hk
    omega
  | _ => rw [hs] at h; cases h

theorem twice_run : ∃ g ts vs, Driver.runSequential 300 500 (contextOf twoWorld) (labelGraph 500 (recordsOf twoWorld)) twoJob = .ok (g, ts, vs) ∧
    (∀ v ∈ [Violation.zeroTTL "~{ }.b.com.".toList "s.".toList "*.b.com.   A   1.1.1.1".toList, .responseConsistency "~{ }.b.com.".toList,
      .responseValue "1.1.1.1".toList [([], "~{ }.b.com.".toList, "t.".toList)], .responseReturned "~{ }.b.com.".toList "MX".toList "s.".toList], v ∈ vs) ∧
    ∀ v ∈ [Violation.zeroTTL "~{ }.b.com.".toList "t.".toList "*.b.com.   A   1.1.1.1".toList], v ∉ vs := run_of_check (by decide +kernel)

/-- **C88** (disagreement with C81) With DNAMEs one and the same name can be asked about twice, with different types: as a name where nothing is expected (below
`a.com`) and as one covered by a wildcard (below `b.com`, to which `a.com` is redirected). -/
theorem C88_disagreement_twice : InScope twoJob (nm "u.a.com.") ∧ Fits twoWorld ⟨nm "u.a.com.", twoJob.types, false⟩ ∧
    AskedWith twoJob ((recordsOf twoWorld).map (·.1)) (nm "u.a.com.") twoJob.types false ∧
    AskedWith twoJob ((recordsOf twoWorld).map (·.1)) (nm "u.a.com.") (~~~0) true ∧ twoJob.types ≠ ~~~0 := by
  have hal : Alias ((recordsOf twoWorld).map (·.1)) (nm "a.com.") (nm "b.com.") := by
    refine ⟨rr "a.com." .DNAME 300 "b.com.", by decide +kernel, by decide +kernel, by decide +kernel, by decide +kernel⟩
  have hd : Matches ((recordsOf twoWorld).map (·.1)) (nm "a.com.") (nm "a.com.") (nm "a.com.").length := matches_self (by decide +kernel)
  have ha : Matches ((recordsOf twoWorld).map (·.1)) (nm "u.a.com.") (nm "a.com.") 2 :=
    matches_append ["u".toList] hd
  have hb : Matches ((recordsOf twoWorld).map (·.1)) (nm "u.a.com.") (nm "b.com.") 2 := .redirect _ _ _ ha (by decide +kernel) hal
  have hD : Deepest ((recordsOf twoWorld).map (·.1)) (nm "u.a.com.") 2 := ⟨⟨_, ha⟩, deepest_of_check (by decide +kernel)⟩
  refine ⟨?_, fits_of_check twice_setting.represents twice_setting.wellFormed (by decide +kernel) (by decide +kernel),
    .wild 2 (nm "b.com.") hD (by decide +kernel) hb (by decide +kernel),
    .nothing 2 (nm "a.com.") ⟨rfl, _, hd⟩ hD (by decide +kernel) ha (by decide +kernel), by decide +kernel⟩
  unfold InScope
  rw [if_pos (show twoJob.subdomains = true from rfl)]
  exact ⟨by decide +kernel, by decide +kernel⟩

/-- The job about `u.a.com` alone, and what it reports. -/
theorem two_single : ∃ g ts vs, Driver.runSequential 300 500 (contextOf twoWorld) (labelGraph 500 (recordsOf twoWorld))
      { twoJob with domain := "u.a.com.".toList, subdomains := false } = .ok (g, ts, vs) ∧
    classes ts = [{ name := nm "a.com.", types := twoJob.types, excluded := some [] }] ∧
    ∀ v ∈ [Violation.zeroTTL "~{ }.b.com.".toList "s.".toList "*.b.com.   A   1.1.1.1".toList, .responseConsistency "~{ }.b.com.".toList,
      .responseValue "1.1.1.1".toList [([], "~{ }.b.com.".toList, "t.".toList)], .responseReturned "~{ }.b.com.".toList "MX".toList "s.".toList], v ∈ vs := by
  have h : (match Driver.runSequential 300 500 (contextOf twoWorld) (labelGraph 500 (recordsOf twoWorld)) { twoJob with domain := "u.a.com.".toList, subdomains := false } with
      | .ok (_, ts, vs) => decide (classes ts = [{ name := nm "a.com.", types := twoJob.types, excluded := some [] }] ∧
        ∀ v ∈ [Violation.zeroTTL "~{ }.b.com.".toList "s.".toList "*.b.com.   A   1.1.1.1".toList, .responseConsistency "~{ }.b.com.".toList,
          .responseValue "1.1.1.1".toList [([], "~{ }.b.com.".toList, "t.".toList)], .responseReturned "~{ }.b.com.".toList "MX".toList "s.".toList], v ∈ vs)
      | _ => false) = true := by decide +kernel
  cases hr : Driver.runSequential 300 500 (contextOf twoWorld) (labelGraph 500 (recordsOf twoWorld)) { twoJob with domain := "u.a.com.".toList, subdomains := false } with
  | ok x =>
    obtain ⟨g, ts, vs⟩ := x
    rw [hr] at h
    exact ⟨g, ts, vs, rfl, of_decide_eq_true h⟩
  | _ => rw [hr] at h; cases h

/-- The ends of the resolution of `u.a.com` meet the hypotheses of the theorems above: one answer has a zero TTL, two disagree, one has a wrong value, one lacks
MX records. -/
example :
    let m := nm "u.a.com."
    (∃ x tys, NodeFn.zeroTTL tys ∈ twoJob.nodeFns ∧ Ending twoWorld ⟨m, twoJob.types, false⟩ x ∧ x.Informs tys ∧ ∃ r ∈ x.records, r.ttl = 0) ∧
      (∃ x y tys, NodeFn.consistency tys ∈ twoJob.nodeFns ∧ Ending twoWorld ⟨m, twoJob.types, false⟩ x ∧ Ending twoWorld ⟨m, twoJob.types, false⟩ y ∧
        x.Informs tys ∧ y.Informs tys ∧ x.Disagrees y) ∧
      (∃ x tys values, NodeFn.value tys values ∈ twoJob.nodeFns ∧ Ending twoWorld ⟨m, twoJob.types, false⟩ x ∧ x.Wrong tys values) ∧
      ∃ x tys, NodeFn.returned tys ∈ twoJob.nodeFns ∧ Ending twoWorld ⟨m, twoJob.types, false⟩ x ∧ x.Informs tys ∧
        ∃ a ∈ x.said, a.rrs = [] ∧ ∃ t, Member a.types t ∧ Member tys t := by
  intro m
  have hS : Redirecting (contextOf twoWorld) twoWorld (recordsOf twoWorld) { twoJob with domain := "u.a.com.".toList, subdomains := false } :=
    { twice_setting with domain := by decide +kernel }
  have hs : Fits twoWorld ⟨m, twoJob.types, false⟩ := C88_disagreement_twice.2.1
  obtain ⟨g, ts, vs, hrun, hcs, hgood⟩ := two_single
  have hst : ∀ q ∈ classes ts, StandsFor ((recordsOf twoWorld).map (·.1)) q m ∧ q.types = twoJob.types := by
    intro q hq
    rw [hcs] at hq
    obtain rfl := List.mem_singleton.mp hq
    refine ⟨⟨"u".toList, [], by decide +kernel, ?_⟩, rfl⟩
    rintro ⟨k, hk⟩
    have h1 := deepest_of_check (w := twoWorld) (i := 2) (by decide +kernel) k _ hk
    have h2 : (nm "a.com.").length + 1 = 3 := by decide +kernel
    have h3 : (nm "a.com.").length + 1 ≤ 2 := h1
    omega
  refine ⟨?_, ?_, ?_, ?_⟩
  · obtain ⟨tys, h1, q, hq, h2⟩ := C88_zero_ttl_sound hS hrun
      (hgood (.zeroTTL "~{ }.b.com.".toList "s.".toList "*.b.com.   A   1.1.1.1".toList) (by simp))
    obtain ⟨_, x, h3, h4, _, r, h5, h6, _⟩ := h2 m (hst q hq).1 hs
    exact ⟨x, tys, h1, (hst q hq).2 ▸ h3, h4, r, h5, h6⟩
  · obtain ⟨tys, h1, q, hq, h2⟩ := C88_consistency_sound hS hrun (hgood (.responseConsistency "~{ }.b.com.".toList) (by simp))
    obtain ⟨_, x, y, h3, h4, h5⟩ := h2 m (hst q hq).1 hs
    exact ⟨x, y, tys, h1, (hst q hq).2 ▸ h3, (hst q hq).2 ▸ h4, h5⟩
  · obtain ⟨tys, values, h1, _, q, hq, h2⟩ := C88_value_sound hS hrun (hgood (.responseValue "1.1.1.1".toList [([], "~{ }.b.com.".toList, "t.".toList)]) (by simp))
    obtain ⟨x, h3, h4⟩ := (h2 m (hst q hq).1 hs).2.1
    exact ⟨x, tys, values, h1, (hst q hq).2 ▸ h3, h4⟩
  · obtain ⟨tys, h1, q, hq, h2⟩ := C88_missing_sound hS hrun (hgood (.responseReturned "~{ }.b.com.".toList "MX".toList "s.".toList) (by simp))
    obtain ⟨_, x, h3, h4, _, a, h5, h6, h7, _⟩ := h2 m (hst q hq).1 hs
    exact ⟨x, tys, h1, (hst q hq).2 ▸ h3, h4, a, h5, h6, h7⟩

/-! Delegations -/

/-- The world of C82 with a DNAME. -/
def cutDnameWorld : World := { cutWorld with
  zones := [(1, [rr "com." .SOA 300 "x", rr "b.com." .NS 300 "n1.b.com.", rr "n1.b.com." .A 300 "1.1.1.1", rr "c.com." .NS 300 "n1.b.com.", rr "d.com." .DNAME 300 "c.com."]),
    (2, [rr "b.com." .SOA 300 "x", rr "b.com." .NS 300 "n1.b.com.", rr "b.com." .NS 300 "n9.b.com.", rr "n1.b.com." .A 300 "2.2.2.2"])] }

theorem cut_dname_setting : Redirecting (contextOf cutDnameWorld) cutDnameWorld (recordsOf cutDnameWorld) cutJob :=
  redirecting_of _ _ (wellFormed_of _ (by decide +kernel) (by decide +kernel) (by decide +kernel)) (by decide +kernel) (by decide +kernel)
    ⟨.A, by decide, by show Member cutJob.types .A; unfold Member; decide⟩
    (fun f hf => by
      simp only [cutJob, List.mem_cons, List.not_mem_nil, or_false] at hf
      rcases hf with rfl | rfl <;> trivial) rfl

/-- What the sample run reports: the delegation of `c.com` is lame for every unknown name below it, and `b.com` is delegated inconsistently. -/
example : ∃ g ts vs, Driver.runSequential 300 500 (contextOf cutDnameWorld) (labelGraph 500 (recordsOf cutDnameWorld)) cutJob = .ok (g, ts, vs) ∧
    (∀ v ∈ [Violation.lame "~{ }.c.com.".toList "s.".toList "n1.b.com.".toList, .delegation "b.com.".toList "s.".toList "n1.b.com.".toList false,
      .delegation "b.com.".toList "s.".toList "n1.b.com.".toList true], v ∈ vs) ∧
    ∀ v ∈ [Violation.lame "b.com.".toList "s.".toList "n1.b.com.".toList, .lame "~{ }.d.com.".toList "s.".toList "n1.b.com.".toList], v ∉ vs :=
  run_of_check (by decide +kernel)

/-- The hypotheses of the theorems about delegations are met by `c.com` and `b.com`. -/
example :
    (let m := nm "c.com."
     InScope cutJob m ∧ Fits cutDnameWorld ⟨m, cutJob.types, false⟩ ∧ Consulted cutDnameWorld m "s.".toList ∧ Refers cutDnameWorld m "s.".toList "n1.b.com.".toList ∧
      cutDnameWorld.Listed "n1.b.com.".toList ∧ ¬ Encloses cutDnameWorld "n1.b.com.".toList m) ∧
    (let m := nm "b.com."
     InScope cutJob m ∧ Short m ∧ Delegated cutDnameWorld m "s.".toList "n1.b.com.".toList 1 2 ∧ ServersDiffer cutDnameWorld m 1 2 ∧
      AddressesDiffer cutDnameWorld m cutJob.types 1 2) := by
  have hin : ∀ {m}, AtOrBelow (stringToLabels cutJob.domain) m → octets m < 253 → InScope cutJob m := by
    intro m h1 h2
    unfold InScope
    rw [if_pos (show cutJob.subdomains = true from rfl)]
    exact ⟨h1, h2⟩
  refine ⟨⟨hin (by decide +kernel) (by decide +kernel),
      fits_of_check cut_dname_setting.represents cut_dname_setting.wellFormed (by decide +kernel) (by decide +kernel), .top _ (by simp [cutDnameWorld, cutWorld]),
      ⟨1, nm "c.com.", ⟨[], [], by decide +kernel, by decide +kernel, by simp, by simp⟩, encloser_self (by decide +kernel) (by decide +kernel), by decide +kernel, by decide +kernel⟩,
      by unfold World.Listed; decide +kernel, by decide +kernel⟩,
    hin (by decide +kernel) (by decide +kernel), by decide +kernel,
    { parent := ⟨[], [], by decide +kernel, by decide +kernel, by simp, by simp⟩
      at_ := encloser_self (by decide +kernel) (by decide +kernel)
      cut := by decide +kernel
      named := by decide +kernel
      child := ⟨[], [], by decide +kernel, by decide +kernel, by simp, by simp⟩
      at' := encloser_self (by decide +kernel) (by decide +kernel)
      apex := by decide +kernel
      own := by decide +kernel }, by unfold ServersDiffer; decide +kernel, by unfold AddressesDiffer; decide +kernel⟩

end Groot
