import Verif.Spec.Whole
import Verif.Props.Redirect
import Verif.Props.Dname
import Verif.Props.Program

/-!
# C89: from the text of the zone files to the output file, DNAMEs included
-/

namespace Groot

open Spec Driver

section

variable {ctx : Context} {w : World} {xs : List (RR × Nat × Nat)} {job : Job}

/-! ### Classes have members -/

theorem unknown_of_free {rs : List RR} {c : Char} (h : ∀ r ∈ rs, [c] ∉ r.name ∧ (r.type = .DNAME → [c] ∉ stringToLabels r.rdata)) (n : Name) :
    ¬ Known rs (n ++ [[c]]) := by
  rintro (e | ⟨r, hr, -, ⟨rest, e⟩ | ⟨hd, ⟨rest, e⟩⟩⟩)
  · exact absurd e (by simp)
  · exact (h r hr).1 (by rw [e]; simp)
  · exact (h r hr).2 hd (by rw [e]; simp)

theorem unmatched_of_free {rs : List RR} {c : Char} (h : ∀ r ∈ rs, [c] ∉ r.name ∧ (r.type = .DNAME → [c] ∉ stringToLabels r.rdata)) (n : Name) :
    ¬ ∃ k, Matches rs (n ++ [[c]]) k (n.length + 1) := by
  rintro ⟨k, hk⟩
  generalize hi : n.length + 1 = i at hk
  cases hk with
  | root => omega
  | down n' i l h1 h2 h3 =>
    have : i = n.length := by omega
    subst this
    simp at h2
    subst h2
    exact unknown_of_free h n' h3
  | redirect n' _ _ h1 h2 h3 => simp at h2; omega

theorem visits_first {rs : List RR} {dom k0 n k : Name} {b : Bool} (h : Visits rs dom k0 n k b) : ∃ k', Visits rs dom k0 n k' false := by
  induction h with
  | start => exact ⟨_, .start⟩
  | down n k b l h1 h2 _ => exact ⟨_, .down n k b l h1 h2⟩
  | redirect n k b t _ _ ih => exact ih

/-- **C89** Every class a run tests has a member, a name of legal length that the job is about (unless it is the class of the names below a name that
the job is about and the files know, and which has no room for more). -/
theorem C89_inhabited (S : Redirecting ctx w xs job) (hfree : FreeLabel (xs.map (·.1))) (hdom : octets (stringToLabels job.domain) < 253)
    {thr thr' fuel : Nat} {g' : LGraph} {ts : List Task} {vs : List Violation}
    (hrun : runSequential fuel thr ctx (labelGraph thr' xs) job = .ok (g', ts, vs)) {q : EC} (hq : q ∈ classes ts) :
    (∃ m, StandsFor (xs.map (·.1)) q m ∧ InScope job m ∧ Short m) ∨
      (q.excluded ≠ none ∧ 250 < octets q.name ∧ InScope job q.name ∧ ∃ k, Matches (xs.map (·.1)) q.name k q.name.length) := by
  have hts := Redirecting.generated hrun
  have hg : g' = labelGraph thr' xs := C23_generation_no_trace thr' xs _ _ _ _ hts
  subst hg
  have hself : InScope job (stringToLabels job.domain) := by
    unfold InScope
    split
    · exact ⟨⟨[], (List.append_nil _).symm⟩, hdom⟩
    · rfl
  by_cases hc : Covering job (xs.map (·.1))
  · obtain ⟨hsub, kd, hkd⟩ := hc
    obtain ⟨N2, ts2, h8, h9⟩ := C24_classes thr' xs S.regular (req job) ⟨S.domain, hsub, kd, hkd⟩
    have hEq : ts2 = ts := by
      have := mono_agree (f := fun n => LGraph.generateECs n (labelGraph thr' xs) (req job)) (fun n r => generateECs_mono n _ _ r)
        (h8 N2 (Nat.le_refl _)) hts
      simpa using this
    subst hEq
    obtain ⟨hsh, -⟩ := (S.tasks hts).2.1 q hq
    obtain ⟨k0, n, k1, b, h10, h11, hoct, ⟨-, rfl⟩ | e⟩ := (h9 q).mp hq
    · refine .inl ⟨n, rfl, ?_, hsh⟩
      unfold InScope
      rw [if_pos hsub]
      exact ⟨visits_prefix h11, hoct⟩
    · have hex : q.excluded = some [] := by rw [e]; unfold belowClass; split <;> rfl
      have hqn : q.name = n := by rw [e]; exact belowClass_name _ _ _
      obtain ⟨c, hc⟩ := hfree
      by_cases hroom : 250 < octets n
      · right
        rw [hqn]
        refine ⟨by rw [hex]; simp, hroom, ?_, ?_⟩
        · unfold InScope
          rw [if_pos hsub]
          exact ⟨visits_prefix h11, hoct⟩
        · obtain ⟨k2, h12⟩ := visits_first h11
          obtain ⟨rest, hrest⟩ := visits_prefix h11
          have := matches_of_visits (rest := rest) (r := []) h10 h12 (by rw [List.append_nil]; exact hrest.symm) (fun e => by cases e)
          exact ⟨k2, by rw [hrest] at this ⊢; exact this⟩
      left
      have ho : octets (n ++ [[c]]) = octets n + 2 := octets_snoc n [c]
      refine ⟨n ++ [[c]], ?_, ?_, short_of_octets (by omega) ?_⟩
      · unfold StandsFor
        rw [hex, hqn]
        exact ⟨[c], [], rfl, unmatched_of_free hc n⟩
      · unfold InScope
        rw [if_pos hsub]
        obtain ⟨r, e⟩ := visits_prefix h11
        exact ⟨⟨r ++ [[c]], by rw [e]; simp [req]⟩, by omega⟩
      · intro l hl
        rcases List.mem_append.mp hl with hl | hl
        · exact hsh.1 l (by rw [hqn]; exact hl)
        · rw [List.mem_singleton.mp hl]; simp
  · obtain ⟨N, ts', h1, _, h3⟩ := C29_single thr' xs (req job)
    have hEq : ts' = ts := by
      have := mono_agree (f := fun n => LGraph.generateECs n (labelGraph thr' xs) (req job)) (fun n r => generateECs_mono n _ _ r)
        (h1 N (Nat.le_refl _)) hts
      simpa using this
    subst hEq
    obtain ⟨i, ⟨k, h4⟩, -, h6, h7⟩ := h3 S.domain
    change i = (stringToLabels job.domain).length → job.subdomains = false → ts' = [Task.ec (exactClass (stringToLabels job.domain) job.types)] at h6
    change i ≠ (stringToLabels job.domain).length →
      ts' = [Task.ec { name := (stringToLabels job.domain).take i, types := job.types, excluded := some [] }] at h7
    change Matches (xs.map (·.1)) (stringToLabels job.domain) k i at h4
    have hone : ∃ t, ts' = [Task.ec t] := by
      by_cases hi : i = (stringToLabels job.domain).length
      · refine ⟨_, h6 hi ?_⟩
        cases hsub : job.subdomains with
        | false => rfl
        | true => exact absurd ⟨hsub, k, hi ▸ h4⟩ hc
      · exact ⟨_, h7 hi⟩
    obtain ⟨q', hq', hst⟩ := S.covered hrun _ hself
    obtain ⟨t, rfl⟩ := hone
    have e1 : q = t := by simpa [Spec.classes] using hq
    have e2 : q' = t := by simpa [Spec.classes] using hq'
    rw [e1, ← e2]
    exact .inl ⟨_, hst, hself, S.domain⟩

/-! ### Reports about paths -/

theorem next_of_route {s : Str} {a : Ask} {p : Trail} (h : Route w s a p) : ∀ x ∈ p, Relation.ReflTransGen (Next w) (s, a) (x.1, x.2.1) := by
  induction h with
  | done => intro x hx; cases hx
  | step s a s' a' sd p hst _ ih =>
    have h1 : Relation.ReflTransGen (Next w) (s, a) (s', a') := .single ⟨sd, hst⟩
    intro x hx
    rcases List.mem_cons.mp hx with rfl | hx
    · exact h1
    · exact h1.trans (ih x hx)

theorem Spec.Redirecting.path_source (S : Redirecting ctx w xs job) {thr thr' fuel : Nat} {g' : LGraph} {ts : List Task} {vs : List Violation}
    (hrun : runSequential fuel thr ctx (labelGraph thr' xs) job = .ok (g', ts, vs)) {v : Violation} (hv : v ∈ vs) (hab : AboutPath v) :
    ∃ f ∈ job.pathFns, ∃ q ∈ classes ts, ∃ said p, (∀ x ∈ p, Says w x.1 x.2.1 (said x.1 x.2.1)) ∧ Route w [] (ask q) p ∧
      Reports (ask q) (transcript said p) v f ∧ ∀ m, StandsFor (xs.map (·.1)) q m → Fits w ⟨m, job.types, false⟩ →
        ∃ p', Route w [] ⟨m, job.types, false⟩ p' ∧ Mirrors w p' p := by
  obtain ⟨q, hq, cs, g, l, st, hP, hB, hv⟩ := S.source hrun hv (by rintro _ _ rfl; exact hab)
  obtain ⟨f, hf, p, hp, hrep⟩ := (hP.pathOutcome S.wellFormed S.pathFns).sound _ hv hab
  have hA := answering_saidBy hP.inv
  have hroute : Route w [] (ask q) p := hp.elim (·.route) (·.route)
  exact ⟨f, hf, q, hq, saidBy g, p, fun x hx => hA _ _ (reached_route .start hroute x hx) (route_server S.wellFormed hroute x hx), hroute, hrep,
    fun m hm hs => (hB m hm hs).route p hroute⟩

/-- **C89** A report of a name that became too long by rewriting: then no name of the class can be resolved without an over-long name. -/
theorem C89_too_long (S : Redirecting ctx w xs job) {thr thr' fuel : Nat} {g' : LGraph} {ts : List Task} {vs : List Violation}
    (hrun : runSequential fuel thr ctx (labelGraph thr' xs) job = .ok (g', ts, vs)) {a b sv : Str} (hv : .dnameLength a b sv ∈ vs) :
    PathFn.dnameLength ∈ job.pathFns ∧ ∃ q ∈ classes ts, ∀ m, StandsFor (xs.map (·.1)) q m → ¬ Fits w ⟨m, job.types, false⟩ := by
  obtain ⟨f, hf, q, hq, said, p, hsay, -, hrep, h⟩ := S.path_source hrun hv trivial
  cases f with
  | dnameLength =>
    obtain ⟨pre, y, h1, h2, e⟩ := hrep
    refine ⟨hf, q, hq, fun m hm hs => ?_⟩
    obtain ⟨p', h3, h4⟩ := h m hm hs
    unfold transcript at h1
    obtain ⟨p1, p2, rfl, h5, h6⟩ := List.map_eq_append_iff.mp h1
    obtain ⟨z, p3, rfl, h7, h8⟩ := List.map_eq_cons_iff.mp h6
    rw [List.map_eq_nil_iff.mp h8] at h4
    obtain ⟨p4, p5, rfl, h9, h10⟩ := forall₂_split h4
    cases h10 with
    | @cons z' _ _ _ hz h11 =>
    cases h11
    have hk : Kind w z.1 z.2.1 .YX := by
      have hs := hsay z (by rw [List.map_eq_nil_iff.mp h8]; simp)
      rw [← h7] at h2
      unfold Visit.Tells at h2
      dsimp only at h2
      cases hsaid : said z.1 z.2.1 with
      | nil => rw [hsaid] at h2; cases h2
      | cons x as =>
        rw [hsaid] at h2 hs
        exact ⟨x, as, hs, by simpa using h2⟩
    obtain ⟨x, as, hx, htag⟩ := (hz.2.1 _).mpr hk
    have hshort : Short z'.2.1.name := hs (z'.1, z'.2.1) (next_of_route h3 z' (by simp))
    cases hx with
    | tooLong hl => exact hl hshort
    | refused => cases htag
    | unknown => cases htag
    | zone id _ _ _ hR => exact reply_not_yx hR _ List.mem_cons_self htag
  | _ => exact (reports_about hrep).elim

theorem showAsk_exact {a : Ask} (h : a.below = false) : showAsk a = present a.name := by
  unfold showAsk showQuery Ask.ec; rw [h]; rfl

theorem denotes_member (b : Ask) (l : Label) (rest : Name) : Denotes (showAsk b) (b.member l rest).name := by
  cases hb : b.below with
  | false => left; rw [member_exact hb]; exact showAsk_exact hb
  | true =>
    right
    rw [member_below hb]
    refine ⟨b.name, l, rest, rfl, ?_⟩
    unfold showAsk showQuery Ask.ec
    rw [hb]

/-- **C89** A listed alias is one: while any name of its class is resolved, a question for the alias is rewritten, and later one for the listed name
is asked. -/
theorem C89_alias_sound (S : Redirecting ctx w xs job) {thr thr' fuel : Nat} {g' : LGraph} {ts : List Task} {vs : List Violation}
    (hrun : runSequential fuel thr ctx (labelGraph thr' xs) job = .ok (g', ts, vs)) {al cn : Str} (hv : .alias al cn ∈ vs) :
    ∃ cs n, PathFn.allAliases cs ∈ job.pathFns ∧ n ∈ cs ∧ cn = present n ∧ ∃ q ∈ classes ts, ∀ m, StandsFor (xs.map (·.1)) q m →
      Fits w ⟨m, job.types, false⟩ → AskedWith job (xs.map (·.1)) m q.types q.nonExistent ∧
        ∃ p k, Route w [] ⟨m, q.types, false⟩ p ∧ Aliased w k n p ∧ Denotes al k := by
  obtain ⟨f, hf, q, hq, said, p, hsay, hroute, hrep, -⟩ := S.path_source hrun hv trivial
  cases f with
  | allAliases cs =>
    obtain ⟨pre, x, mid, y, post, htr, hx, hy, hyb, e⟩ := hrep
    injection e with e1 e2
    refine ⟨cs, y.ask.name, hf, hy, e2.trans (showAsk_exact hyb), q, hq, fun m hm hs => ⟨(S.asked (Redirecting.generated hrun)).1 q hq m hm, ?_⟩⟩
    obtain ⟨lb, rest, e, hfr⟩ := S.member hrun hq hm hs
    have hr := C28_class_to_member w (ask q) lb rest hfr p hroute
    rw [e] at hr
    rw [List.append_assoc] at htr
    unfold transcript at htr
    obtain ⟨l1, l2, rfl, _, e3⟩ := List.map_eq_append_iff.mp htr
    obtain ⟨x', l3, rfl, rfl, e4⟩ := List.map_eq_cons_iff.mp e3
    obtain ⟨l4, l5, rfl, _, e5⟩ := List.map_eq_append_iff.mp e4
    obtain ⟨y', l6, rfl, rfl, _⟩ := List.map_eq_cons_iff.mp e5
    have hkx : Kind w x'.1 x'.2.1 .REWRITE := (tells_iff (hsay x' (by simp)) (by simp) (by simp)).mp hx
    refine ⟨_, (x'.2.1.member lb rest).name, hr, ?_, e1 ▸ denotes_member _ _ _⟩
    refine ⟨l1.map (fun x => (x.1, x.2.1.member lb rest, x.2.2)), (x'.1, x'.2.1.member lb rest, x'.2.2),
      l4.map (fun x => (x.1, x.2.1.member lb rest, x.2.2)), (y'.1, y'.2.1.member lb rest, y'.2.2), l6.map (fun x => (x.1, x.2.1.member lb rest, x.2.2)),
      by simp, ?_, rfl, ?_⟩
    · exact (kind_member hfr (reached_route .start hroute x' (by simp)) _).mp hkx
    · dsimp only at hyb ⊢
      rw [member_exact hyb]
  | _ => exact (reports_about hrep).elim

/-- **C89** If while some name of the job is resolved two questions are rewritten with the same record, the second name at least as long, this is
reported (or a loop is). -/
theorem C89_infinite_any (S : Redirecting ctx w xs job) {thr thr' fuel : Nat} {g' : LGraph} {ts : List Task} {vs : List Violation}
    (hrun : runSequential fuel thr ctx (labelGraph thr' xs) job = .ok (g', ts, vs))
    (hf : PathFn.infiniteDname ∈ job.pathFns) {m : Name} (hm : InScope job m) (hs : Fits w ⟨m, job.types, false⟩)
    {p : Trail} (hp : Route w [] ⟨m, job.types, false⟩ p) (hr : Revisits w p) :
    (∃ ns, .loop ns ∈ vs) ∨ ∃ a b used, .infiniteDname a b used ∈ vs := by
  rcases S.completes hrun hm hs hp with h | ⟨p', hcomp⟩
  · exact .inl h
  right
  obtain ⟨q, hq, hst⟩ := S.covered hrun m hm
  obtain ⟨hqt, vs', g, l, st, hP, hsub, -⟩ := S.class_run hrun q hq
  obtain ⟨lb, rest, e, hfr, -⟩ := member_of_standsFor S.wellFormed S.all S.flat hst (fits_retype S.types (S.asksOther hrun hq) hs)
  exact infinite_complete S.wellFormed S.types S.pathFns hf hqt e hfr hcomp hr.append hP hsub

/-- **C89** If while some name of the job is resolved a question for `k` is rewritten and later one for a listed name asked, which is a known name, then `k`
is listed as an alias of it (or a loop is reported). -/
theorem C89_alias_complete (S : Redirecting ctx w xs job) {thr thr' fuel : Nat} {g' : LGraph} {ts : List Task} {vs : List Violation}
    (hrun : runSequential fuel thr ctx (labelGraph thr' xs) job = .ok (g', ts, vs))
    {cs : List Name} (hf : PathFn.allAliases cs ∈ job.pathFns) {m : Name} (hm : InScope job m) (hs : Fits w ⟨m, job.types, false⟩)
    {p : Trail} (hp : Route w [] ⟨m, job.types, false⟩ p) {k n : Name} (hal : Aliased w k n p) (hn : n ∈ cs) (hkn : Known (xs.map (·.1)) n) :
    (∃ ns, .loop ns ∈ vs) ∨ ∃ al, .alias al (present n) ∈ vs ∧ Denotes al k := by
  rcases S.completes hrun hm hs hp with h | ⟨p', hcomp⟩
  · exact .inl h
  right
  obtain ⟨q, hq, hst⟩ := S.covered hrun m hm
  obtain ⟨hqt, vs', g, l, st, hP, hsub, -⟩ := S.class_run hrun q hq
  have hqo := S.asksOther hrun hq
  obtain ⟨lb, rest, e, hfr, hnk⟩ := member_of_standsFor S.wellFormed S.all S.flat hst (fits_retype S.types hqo hs)
  have : ∃ p1, Complete w ⟨m, q.types, false⟩ p1 ∧
      List.Forall₂ (fun x y => x.1 = y.1 ∧ AlikeAsk job.types q.types x.2.1 y.2.1 ∨ x = y) (p ++ p') p1 := by
    rcases hqt with e1 | e1
    · refine ⟨p ++ p', by rw [e1]; exact hcomp, ?_⟩
      exact List.forall₂_same.mpr (fun x _ => .inr rfl)
    · obtain ⟨p1, h1, h2⟩ := complete_retype S.types hqo (by rw [e1]; exact member_all _ (by decide)) (a := ⟨m, job.types, false⟩)
        (b := ⟨m, q.types, false⟩) ⟨rfl, rfl, .inl ⟨rfl, rfl⟩⟩ hcomp
      exact ⟨p1, h1, h2.imp (fun _ _ h => .inl h)⟩
  obtain ⟨p1, h1, h2⟩ := this
  rw [← e] at h1
  obtain ⟨p2, rfl, hc2⟩ := complete_of_member hfr h1
  obtain ⟨pre, x, mid, y, post, e', hk, hxk, hyn⟩ := hal.append p'
  rw [e', List.append_assoc] at h2
  unfold narrow at h2
  rw [List.forall₂_map_right_iff] at h2
  obtain ⟨pre2, r2, rfl, hm1, hm2⟩ := forall₂_split' h2
  cases hm2 with
  | @cons _ x2 _ r3 hx hm3 =>
  obtain ⟨mid2, r4, rfl, hm4, hm5⟩ := forall₂_split' hm3
  cases hm5 with
  | @cons _ y2 _ post2 hy hm6 =>
  have hreach := reached_route .start hc2.route
  have hnx : x.2.1.name = (x2.2.1.member lb rest).name := by
    rcases hx with hx | hx
    · exact hx.2.1
    · rw [hx]
  have hny : y.2.1.name = (y2.2.1.member lb rest).name := by
    rcases hy with hy | hy
    · exact hy.2.1
    · rw [hy]
  have hk2 : Kind w x2.1 x2.2.1 .REWRITE := by
    refine (kind_member hfr (hreach x2 (by simp)) _).mpr ?_
    rcases hx with hx | hx
    · have hx1 : x.1 = x2.1 := hx.1
      rw [← hx1]
      exact hk.retype hx.2.1 hx.2.2.1 (hx.2.left S.types) (hx.2.symm.left hqo)
    · rw [hx] at hk; exact hk
  have hyb : y2.2.1.below = false := by
    by_contra hb
    have hb : y2.2.1.below = true := by simpa using hb
    rw [member_below hb] at hny
    refine hnk _ _ (hreach y2 (by simp)) hb (known_prefix hkn ⟨rest, ?_⟩)
    rw [← hyn, hny]; simp
  rw [member_exact hyb, hyn] at hny
  have hA := answering_saidBy hP.inv
  have hsx := hA _ _ (hreach x2 (by simp)) (route_server S.wellFormed hc2.route x2 (by simp))
  obtain ⟨v', hv', hal'⟩ := (hP.pathOutcome S.wellFormed S.pathFns).complete _ hf _ (.inl hc2) (.alias (showAsk x2.2.1) (showAsk y2.2.1))
    ⟨transcript (saidBy g) pre2, ⟨x2.1, x2.2.1, saidBy g x2.1 x2.2.1⟩, transcript (saidBy g) mid2, ⟨y2.1, y2.2.1, saidBy g y2.1 y2.2.1⟩,
      transcript (saidBy g) post2, by simp [transcript], (tells_iff hsx (by simp) (by simp)).mpr hk2, by rw [← hny]; exact hn, hyb, rfl⟩
  rw [alike_plain hal' (fun _ _ _ e => nomatch e), showAsk_exact hyb, ← hny] at hv'
  refine ⟨_, hsub _ hv', ?_⟩
  rw [← hxk, hnx]
  exact denotes_member _ _ _

/-- **C89** Every report of a run other than a structural one or one about the length of names is about some class that was tested, and true of every
name of the class that is resolved without over-long names. -/
theorem C89_true (S : Redirecting ctx w xs job) {thr thr' fuel : Nat}
    {g' : LGraph} {ts : List Task} {vs : List Violation}
    (hrun : runSequential fuel thr ctx (labelGraph thr' xs) job = .ok (g', ts, vs)) {v : Violation} (hv : v ∈ vs) :
    (job.structural = true ∧ ∃ d ps, v = .structural d ps) ∨ ∃ q ∈ classes ts,
      ((∃ a b s, v = .dnameLength a b s ∧ .dnameLength ∈ job.pathFns ∧ ∀ m, StandsFor (xs.map (·.1)) q m → ¬ Fits w ⟨m, job.types, false⟩) ∨
      ∀ m, StandsFor (xs.map (·.1)) q m → Fits w ⟨m, job.types, false⟩ → Justified w (xs.map (·.1)) job q m v) := by
  by_cases hns : ∃ d ps, v = .structural d ps
  · refine .inl ⟨?_, hns⟩
    by_contra hst
    have R : RunSetting ctx w xs job := ⟨S.represents, S.wellFormed, S.regular, fun n hn l hl => (S.labels n hn l hl).2, other_ne S.types, S.pathFns, S.nodeFns,
      fun h => absurd h hst⟩
    rcases C79_sound R hrun hv with ⟨_, _, _, h⟩ | ⟨q, hq, said, rs, h1, h2, -⟩
    · exact hst h
    · obtain ⟨d, ps, rfl⟩ := hns
      exact h1.kinds _ h2
  right
  cases v with
  | loop ns =>
    obtain ⟨q, hq, h⟩ := C84_loops_sound S hrun hv
    exact ⟨q, hq, .inr fun m hm hs => .loop ns (h m hm hs)⟩
  | responseReturned n t sv =>
    obtain ⟨tys, h1, q, hq, h⟩ := C88_missing_sound S hrun hv
    refine ⟨q, hq, .inr fun m hm hs => ?_⟩
    obtain ⟨h0, x, h2, h3, rfl, a, h4, h5, h6, rfl⟩ := h m hm hs
    exact .missing n tys _ _ x a h1 h0 h2 h3 h4 h5 h6
  | responseValue e l =>
    obtain ⟨tys, values, h1, rfl, q, hq, h⟩ := C88_value_sound S hrun hv
    exact ⟨q, hq, .inr fun m hm hs => .value tys values l _ _ h1 (h m hm hs).1 (h m hm hs).2.1 (h m hm hs).2.2⟩
  | responseConsistency n =>
    obtain ⟨tys, h1, q, hq, h⟩ := C88_consistency_sound S hrun hv
    refine ⟨q, hq, .inr fun m hm hs => ?_⟩
    obtain ⟨h0, x, y, h2, h3, h4, h5, h6⟩ := h m hm hs
    exact .consistency n tys _ _ x y h1 h0 h2 h3 h4 h5 h6
  | zeroTTL n sv rec =>
    obtain ⟨tys, h1, q, hq, h⟩ := C88_zero_ttl_sound S hrun hv
    refine ⟨q, hq, .inr fun m hm hs => ?_⟩
    obtain ⟨h0, x, h2, h3, rfl, r, h4, h5, rfl⟩ := h m hm hs
    exact .zeroTTL n tys _ _ x r h1 h0 h2 h3 h4 h5
  | «alias» al cn =>
    obtain ⟨cs, n, h1, h2, rfl, q, hq, h⟩ := C89_alias_sound S hrun hv
    refine ⟨q, hq, .inr fun m hm hs => ?_⟩
    obtain ⟨h0, p, k, h3, h4, h5⟩ := h m hm hs
    exact .alias_ al cs n k _ _ p h1 h2 h0 h3 h4 h5
  | infiniteDname a b used =>
    obtain ⟨f, hf, q, hq, said, p, hsay, -, hrep, h⟩ := S.path_source hrun hv trivial
    cases f with
    | infiniteDname =>
      refine ⟨q, hq, .inr fun m hm hs => ?_⟩
      obtain ⟨p', h3, h4⟩ := h m hm hs
      exact .infinite a b used p' hf h3 (recurs_of_reports hsay hrep h4)
    | _ => exact (reports_about hrep).elim
  | delegation n s t b =>
    obtain ⟨h1, q, hq, rfl, h2, ⟨id, id', h3, h4, h5⟩, h⟩ := C88_delegation_sound S hrun hv
    refine ⟨q, hq, .inr fun m hm hs => ?_⟩
    obtain ⟨a, h6, h7⟩ := h m hm hs
    exact .delegation s t b id id' a h1 h7 h6 h2 h3 h4 h5
  | lame n s t =>
    obtain ⟨h1, q, hq, rfl, h⟩ := C88_lame_sound S hrun hv
    refine ⟨q, hq, .inr fun m hm hs => ?_⟩
    obtain ⟨a, h2, h3, h4⟩ := h m hm hs
    exact .lame s t a h1 h2 h3 h4
  | dnameLength a b sv =>
    obtain ⟨h1, q, hq, h⟩ := C89_too_long S hrun hv
    exact ⟨q, hq, .inl ⟨a, b, sv, rfl, h1, h⟩⟩
  | nsContact a sv al =>
    obtain ⟨d, h1, rfl, q, hq, h⟩ := C84_contact_sound S hrun hv
    refine ⟨q, hq, .inr fun m hm hs => ?_⟩
    obtain ⟨p, h2, h3⟩ := h m hm hs
    exact .contact a sv d p h1 h2 h3
  | hops nm k n =>
    obtain ⟨h1, -, h2, q, hq, rfl, h⟩ := C84_hops_sound S hrun hv
    refine ⟨q, hq, .inr fun m hm hs => ?_⟩
    obtain ⟨p, h3, rfl⟩ := h m hm hs
    exact .hops p n h1 h3 h2
  | rewrites nm k n =>
    obtain ⟨h1, h2, q, hq, rfl, h⟩ := C84_rewrites_sound S hrun hv
    refine ⟨q, hq, .inr fun m hm hs => ?_⟩
    obtain ⟨p, h3, rfl⟩ := h m hm hs
    exact .rewrites p n h1 h3 h2
  | queryRewrite a b sv al =>
    obtain ⟨d, h1, rfl, h⟩ := C84_rewrite_sound S hrun hv
    by_cases hk : ∀ n ∈ d, Known (xs.map (·.1)) n
    · obtain ⟨q, hq, h⟩ := h hk
      refine ⟨q, hq, .inr fun m hm hs => ?_⟩
      exact .queryRewrite a b sv d h1 (fun _ => h m hm hs)
    · obtain ⟨q, hq, -⟩ := S.source hrun hv (fun _ _ e => nomatch e)
      exact ⟨q, hq, .inr fun m hm hs => .queryRewrite a b sv d h1 (fun h => absurd h hk)⟩
  | blackhole a b sv =>
    obtain ⟨h1, q, hq, h⟩ := C84_blackhole_sound S hrun hv
    refine ⟨q, hq, .inr fun m hm hs => ?_⟩
    obtain ⟨p, h2, h3⟩ := h m hm hs
    exact .blackhole a b sv p h1 h2 h3
  | structural d ps => exact absurd ⟨d, ps, rfl⟩ hns
  | allAliases groups =>
    exfalso
    obtain ⟨q, hq, cs, g, l, st, hP, -, hv⟩ := S.source hrun hv (fun _ _ e => nomatch e)
    exact hP.kinds _ hv

end

/-! ### From the files -/

theorem load_redirecting (thr : Nat) (lint : Bool) {read : Str → Str} {exists_ : Str → Bool} {m : Meta} {tops : List Str} {zs : List Listing}
    {ess : List (List (Entry × Nat))} (h : Loadable read exists_ m tops zs ess) (hn : Redirects (allRecords zs ess)) :
    ∃ d xs, setContext thr lint read exists_ m = .ok d ∧ d.lg = labelGraph thr xs ∧ xs.map (·.1) = allRecords zs ess ∧
      ∀ u job, JobMeans {} u job → Short (stringToLabels (toLower u.domain)) → Testable u → ∀ b,
        Redirecting d.ctx (worldOf tops zs ess) xs { job with structural := b } := by
  obtain ⟨d, xs, h1, h2, h3, h4, h5, h6, h7, h8⟩ := load_parts thr lint h
  refine ⟨d, xs, h1, h2, h3, fun u job hm hdom ht b => ?_⟩
  obtain ⟨g1, g2, g3, g4⟩ := h8 u job hm hdom ht
  refine ⟨h4, h5, h6, by rw [h3]; exact hn.flat, ?_, ?_, g1, g2, g3, g4⟩
  · rw [h3]
    rintro t ⟨r, hr, ht, e, -⟩
    exact hn.root r hr ht e
  · rw [h3]
    rintro n (rfl | ⟨r, hr, _, hk⟩) l hl
    · cases hl
    · rcases hk with ⟨rest, e⟩ | ⟨ht, ⟨rest, e⟩⟩
      · have hl' : l ∈ r.name := by rw [e]; exact List.mem_append_left _ hl
        exact ⟨fun e => hn.owners r hr (e ▸ hl'), (h7 r hr).1.1 l hl'⟩
      · have hl' : l ∈ stringToLabels r.rdata := by rw [e]; exact List.mem_append_left _ hl
        exact ⟨fun e => hn.targets r hr ht (e ▸ hl'), ((h7 r hr).2.2 (by unfold Pointing; simp [ht])).1 l hl'⟩

/-- The run of a job of a program, with its setting. -/
theorem job_redirecting {ord : List Str → List Str} {fuel thr : Nat} {lint : Bool} {read : Str → Str} {exists_ : Str → Bool}
    {m : Meta} {us : List UJob} {tops : List Str} {zs : List Listing}
    {ess : List (List (Entry × Nat))} (hl : Loadable read exists_ m tops zs ess) (hn : Redirects (allRecords zs ess)) {d : Loaded} {js : List Json}
    (h1 : setContext thr lint read exists_ m = .ok d) (h : Account ord fuel thr d us js) {u : UJob} (hu : u ∈ us) {job : Job}
    (hj : JobMeans {} u job) (hdom : Short (stringToLabels (toLower u.domain))) (ht : Testable u) :
    ∃ ctx xs b g ts vs, xs.map (·.1) = allRecords zs ess ∧
      Redirecting ctx (worldOf tops zs ess) xs { job with structural := b } ∧
      runSequential fuel thr ctx (labelGraph thr xs) { job with structural := b } = .ok (g, ts, vs) ∧
      (∀ v ∈ vs, Direct v → (∀ gs, v ≠ .allAliases gs) → ∃ j ∈ js, (leaves j).Perm (entries ord v)) ∧
    ∀ al cn, .alias al cn ∈ vs → ∃ groups als, (cn, als) ∈ groups ∧ al ∈ als ∧ ∃ j ∈ js, (leaves j).Perm (entries ord (.allAliases groups)) := by
  obtain ⟨job', hj', b, g, ts, vs, hrun, -, hout⟩ := h.1 u hu
  obtain ⟨d', xs, e1, e2, e3, e4⟩ := load_redirecting thr lint hl hn
  rw [h1] at e1
  injection e1 with e1
  subst e1
  have hjj : job' = job := by
    have a := (C57_job _ _ _).mpr hj'
    have a' := (C57_job _ _ _).mpr hj
    rw [a] at a'
    injection a'
  subst hjj
  rw [e2] at hrun
  exact ⟨d.ctx, xs, b, g, ts, vs, e3, e4 u job' hj hdom ht b, hrun, hout⟩

theorem Spec.AskedWith.structural {job : Job} {b' : Bool} {rs : List RR} {m : Name} {T : TypeSet} {b : Bool} :
    AskedWith { job with structural := b' } rs m T b ↔ AskedWith job rs m T b := by
  constructor
  · intro h
    cases h with
    | single h => exact .single h
    | known k h => exact .known k h
    | wild i k h1 h2 h3 h4 => exact .wild i k h1 h2 h3 h4
    | nothing i k h0 h1 h2 h3 h4 => exact .nothing i k h0 h1 h2 h3 h4
  · intro h
    cases h with
    | single h => exact .single h
    | known k h => exact .known k h
    | wild i k h1 h2 h3 h4 => exact .wild i k h1 h2 h3 h4
    | nothing i k h0 h1 h2 h3 h4 => exact .nothing i k h0 h1 h2 h3 h4

/-- Every problem is reported by the objects that give account of the jobs. -/
theorem found_of_account {ord : List Str → List Str} {fuel thr : Nat} {lint : Bool} {read : Str → Str} {exists_ : Str → Bool}
    {m : Meta} {us : List UJob} {tops : List Str} {zs : List Listing}
    {ess : List (List (Entry × Nat))} (hl : Loadable read exists_ m tops zs ess) (hn : Redirects (allRecords zs ess)) {d : Loaded} {js : List Json}
    (h1 : setContext thr lint read exists_ m = .ok d) (h : Account ord fuel thr d us js) {u : UJob} (hu : u ∈ us) {job : Job}
    (hj : JobMeans {} u job) (hdom : Short (stringToLabels (toLower u.domain))) (ht : Testable u) {n : Name} (hs : InScope job n)
    (hsh : Fits (worldOf tops zs ess) ⟨n, job.types, false⟩)
    {p : UProp} (hp : p ∈ u.properties) {want : Wanted} (ha : Asks p want) {report : Violation → Prop}
    (hpr : Trouble (worldOf tops zs ess) (allRecords zs ess) job n want report) :
    (∃ ns, ∃ j ∈ js, (leaves j).Perm (entries ord (.loop ns))) ∨ ∃ v, report v ∧ ∃ j ∈ js, (leaves j).Perm (entries ord v) := by
  obtain ⟨ctx, xs, b, g, ts, vs, e3, S, hrun, hout, hals⟩ := job_redirecting hl hn h1 h hu hj hdom ht
  have hs' : InScope { job with structural := b } n := hs
  obtain ⟨hpath, hnode⟩ := pathFn_of_asks hj hp ha
  have loopOut : (∃ ns, Violation.loop ns ∈ vs) → ∃ ns, ∃ j ∈ js, (leaves j).Perm (entries ord (.loop ns)) := by
    rintro ⟨ns, hv⟩
    exact ⟨ns, hout _ hv trivial (fun _ e => nomatch e)⟩
  have hq : ∀ {T b0}, AskedWith job (allRecords zs ess) n T b0 → AskedWith { job with structural := b } (xs.map (·.1)) n T b0 :=
    fun h => by rw [e3]; exact AskedWith.structural.mpr h
  cases hpr with
  | hops k p h0 hr hk =>
    rcases C84_hops_any S hrun (hpath _ rfl) h0 hs' hsh hr hk with hv | ⟨q, -, hst, k', hk', hv⟩
    · exact .inl (loopOut hv)
    · exact .inr ⟨_, ⟨q, k', by rw [← e3]; exact hst, hk', rfl⟩, hout _ hv trivial (fun _ e => nomatch e)⟩
  | rewrites k p hr hk =>
    rcases C84_rewrites_any S hrun (hpath _ rfl) hs' hsh hr hk with hv | ⟨q, -, hst, k', hk', hv⟩
    · exact .inl (loopOut hv)
    · exact .inr ⟨_, ⟨q, k', by rw [← e3]; exact hst, hk', rfl⟩, hout _ hv trivial (fun _ e => nomatch e)⟩
  | blackhole p s hc hb =>
    rcases C84_blackhole_any S hrun (hpath _ rfl) hs' hsh hc hb with hv | ⟨a, c, hv⟩
    · exact .inl (loopOut hv)
    · exact .inr ⟨_, ⟨a, c, rfl⟩, hout _ hv trivial (fun _ e => nomatch e)⟩
  | queryRewrite ds p s hr hb =>
    rcases C84_rewrite_any S hrun (hpath _ rfl) hs' hsh hr hb with hv | ⟨a, c, hv⟩
    · exact .inl (loopOut hv)
    · exact .inr ⟨_, ⟨a, c, rfl⟩, hout _ hv trivial (fun _ e => nomatch e)⟩
  | contact ds p s hr hb =>
    rcases C84_contact_any S hrun (hpath _ rfl) hs' hsh hr hb with hv | ⟨a, hv⟩
    · exact .inl (loopOut hv)
    · exact .inr ⟨_, ⟨a, rfl⟩, hout _ hv trivial (fun _ e => nomatch e)⟩
  | lame s t h1 h2 h3 h4 =>
    obtain ⟨q, -, hst, hv⟩ := C88_lame_complete S hrun (hpath _ rfl) hs' hsh h1 h2 h3 h4
    exact .inr ⟨_, ⟨q, by rw [← e3]; exact hst, rfl⟩, hout _ hv trivial (fun _ e => nomatch e)⟩
  | servers s t id id' hns h1 h2 h3 =>
    have hv := C88_servers_complete S hrun (hpath _ rfl) hns hs' (hsh _ .refl) h1 h2 h3
    exact .inr ⟨_, rfl, hout _ hv trivial (fun _ e => nomatch e)⟩
  | addresses s t id id' hns h1 h2 h3 =>
    have hv := C88_addresses_complete S hrun (hpath _ rfl) hns hs' (hsh _ .refl) h1 h2 h3
    exact .inr ⟨_, rfl, hout _ hv trivial (fun _ e => nomatch e)⟩
  | alias_ cs n k p hin hkn hr hal =>
    rcases C89_alias_complete S hrun (hpath _ rfl) hs' hsh hr hal hin (by rw [e3]; exact hkn) with hv | ⟨al, hv, hnm⟩
    · exact .inl (loopOut hv)
    · obtain ⟨groups, als, h4, h5, h6⟩ := hals al _ hv
      exact .inr ⟨_, ⟨groups, als, al, rfl, h4, h5, hnm⟩, h6⟩
  | infinite p hr hv =>
    rcases C89_infinite_any S hrun (hpath _ rfl) hs' hsh hr hv with hv | ⟨a, c, used, hv⟩
    · exact .inl (loopOut hv)
    · exact .inr ⟨_, ⟨a, c, used, rfl⟩, hout _ hv trivial (fun _ e => nomatch e)⟩
  | zeroTTL tys T b0 x r h0 h1 h2 h3 h4 =>
    obtain ⟨k, hv⟩ := C88_zero_ttl_complete S hrun (hnode _ rfl) hs' hsh (hq h0) h1 h2 h3 h4
    exact .inr ⟨_, ⟨k, rfl⟩, hout _ hv trivial (fun _ e => nomatch e)⟩
  | consistency tys T b0 x y h0 h1 h2 h3 h4 h5 =>
    obtain ⟨k, hv⟩ := C88_consistency_complete S hrun (hnode _ rfl) hs' hsh (hq h0) h1 h2 h3 h4 h5
    exact .inr ⟨_, ⟨k, rfl⟩, hout _ hv trivial (fun _ e => nomatch e)⟩
  | value tys values T b0 x h0 h1 h2 =>
    obtain ⟨l, hv, found, k, h3, h4, -⟩ := C88_value_complete S hrun (hnode _ rfl) hs' hsh (hq h0) h1 h2
    exact .inr ⟨_, ⟨l, found, k, rfl, h3, h4⟩, hout _ hv trivial (fun _ e => nomatch e)⟩
  | missing tys x a h0 h2 h3 h4 h5 h6 =>
    obtain ⟨k, hv⟩ := C88_missing_complete S hrun (hnode _ rfl) hs' hsh (hq h0) h2 h3 h4 h5 h6
    exact .inr ⟨_, ⟨k, rfl⟩, hout _ hv trivial (fun _ e => nomatch e)⟩

/-- **C89** Every problem is reported: if a property of a job forbids something, and it happens to some name in the scope of the job, the output
file of the program has an object that says so — or one that tells of a loop. -/
theorem C89_found (ord : List Str → List Str) (hord : ∀ l, (ord l).Perm l) (fuel thr : Nat) (lint : Bool) (read : Str → Str) (exists_ : Str → Bool)
    (jm jj : JVal) (m : Meta) (us : List UJob) (hm : MetaOf jm m) (hus : JobsOf jj us) (tops : List Str) (zs : List Listing)
    (ess : List (List (Entry × Nat))) (hl : Loadable read exists_ m tops zs ess) (hn : Redirects (allRecords zs ess)) (f : Files)
    (h : programJ ord fuel thr lint read exists_ jm (some jj) = .ok f) (hf : f.finished = true) (u : UJob) (hu : u ∈ us) (job : Job)
    (hj : JobMeans {} u job) (hdom : Short (stringToLabels (toLower u.domain))) (ht : Testable u) (n : Name) (hs : InScope job n)
    (hsh : Fits (worldOf tops zs ess) ⟨n, job.types, false⟩)
    (p : UProp) (hp : p ∈ u.properties) (want : Wanted) (ha : Asks p want) (report : Violation → Prop)
    (hpr : Trouble (worldOf tops zs ess) (allRecords zs ess) job n want report) :
    ∃ js, JsonText.parse f.output = some (.arr js) ∧
      ((∃ ns, ∃ j ∈ js, (leaves j).Perm (entries ord (.loop ns))) ∨ ∃ v, report v ∧ ∃ j ∈ js, (leaves j).Perm (entries ord v)) := by
  obtain ⟨d, js, h1, h2, h3⟩ := job_run hord (program_of_values hm hus h) hf
  exact ⟨js, h2, found_of_account hl hn h1 h3 hu hj hdom ht hs hsh hp ha hpr⟩

/-- A loop is reported by the objects that give account of the jobs. -/
theorem loop_of_account {ord : List Str → List Str} {fuel thr : Nat} {lint : Bool} {read : Str → Str} {exists_ : Str → Bool}
    {m : Meta} {us : List UJob} {tops : List Str} {zs : List Listing}
    {ess : List (List (Entry × Nat))} (hl : Loadable read exists_ m tops zs ess) (hn : Redirects (allRecords zs ess)) {d : Loaded} {js : List Json}
    (h1 : setContext thr lint read exists_ m = .ok d) (h : Account ord fuel thr d us js) {u : UJob} (hu : u ∈ us) {job : Job}
    (hj : JobMeans {} u job) (hdom : Short (stringToLabels (toLower u.domain))) (ht : Testable u) {n : Name} (hs : InScope job n)
    (hsh : Fits (worldOf tops zs ess) ⟨n, job.types, false⟩) (hc : Circular (worldOf tops zs ess) ⟨n, job.types, false⟩) :
    ∃ ns, ∃ j ∈ js, (leaves j).Perm (entries ord (.loop ns)) := by
  obtain ⟨ctx, xs, b, g, ts, vs, e3, S, hrun, hout, hals⟩ := job_redirecting hl hn h1 h hu hj hdom ht
  obtain ⟨ns, hv⟩ := C84_loops_complete S hrun (m := n) hs hsh hc
  exact ⟨ns, hout _ hv trivial (fun _ e => nomatch e)⟩

/-- **C89** If resolving some name in the scope of a job can go in circles, the output file has an object that tells of a loop. -/
theorem C89_loop_found (ord : List Str → List Str) (hord : ∀ l, (ord l).Perm l) (fuel thr : Nat) (lint : Bool) (read : Str → Str) (exists_ : Str → Bool)
    (jm jj : JVal) (m : Meta) (us : List UJob) (hm : MetaOf jm m) (hus : JobsOf jj us) (tops : List Str) (zs : List Listing)
    (ess : List (List (Entry × Nat))) (hl : Loadable read exists_ m tops zs ess) (hn : Redirects (allRecords zs ess)) (f : Files)
    (h : programJ ord fuel thr lint read exists_ jm (some jj) = .ok f) (hf : f.finished = true) (u : UJob) (hu : u ∈ us) (job : Job)
    (hj : JobMeans {} u job) (hdom : Short (stringToLabels (toLower u.domain))) (ht : Testable u) (n : Name) (hs : InScope job n)
    (hsh : Fits (worldOf tops zs ess) ⟨n, job.types, false⟩) (hc : Circular (worldOf tops zs ess) ⟨n, job.types, false⟩) :
    ∃ js ns, JsonText.parse f.output = some (.arr js) ∧ ∃ j ∈ js, (leaves j).Perm (entries ord (.loop ns)) := by
  obtain ⟨d, js, h1, h2, h3⟩ := job_run hord (program_of_values hm hus h) hf
  obtain ⟨ns, hv⟩ := loop_of_account hl hn h1 h3 hu hj hdom ht hs hsh hc
  exact ⟨js, ns, h2, hv⟩

/-- **C89** A clean bill: if the output file is an empty list, nothing a property of a job forbids happens to any name in the scope of the job,
and no resolution of one goes in circles. -/
theorem C89_clean (ord : List Str → List Str) (hord : ∀ l, (ord l).Perm l) (fuel thr : Nat) (lint : Bool) (read : Str → Str) (exists_ : Str → Bool)
    (jm jj : JVal) (m : Meta) (us : List UJob) (hm : MetaOf jm m) (hus : JobsOf jj us) (tops : List Str) (zs : List Listing)
    (ess : List (List (Entry × Nat))) (hl : Loadable read exists_ m tops zs ess) (hn : Redirects (allRecords zs ess)) (f : Files)
    (h : programJ ord fuel thr lint read exists_ jm (some jj) = .ok f) (hempty : JsonText.parse f.output = some (.arr [])) (u : UJob) (hu : u ∈ us)
    (job : Job) (hj : JobMeans {} u job) (hdom : Short (stringToLabels (toLower u.domain))) (ht : Testable u) (n : Name) (hs : InScope job n)
    (hsh : Fits (worldOf tops zs ess) ⟨n, job.types, false⟩) :
    ¬ Circular (worldOf tops zs ess) ⟨n, job.types, false⟩ ∧
      ∀ p ∈ u.properties, ∀ want, Asks p want → ∀ report, ¬ Trouble (worldOf tops zs ess) (allRecords zs ess) job n want report := by
  have hf : f.finished = true := by
    by_contra hc
    obtain ⟨t, -, -, -, h3⟩ := C76_output ord hord fuel thr lint read exists_ m (some us) f (program_of_values hm hus h)
    rw [h3 (by simpa using hc)] at hempty
    cases hempty
  constructor
  · intro hc
    obtain ⟨js, ns, e1, j, hj', -⟩ := C89_loop_found ord hord fuel thr lint read exists_ jm jj m us hm hus tops zs ess hl hn f h hf u hu job hj hdom ht n hs hsh hc
    rw [hempty] at e1
    injection e1 with e1
    injection e1 with e1
    rw [← e1] at hj'; cases hj'
  · intro p hp want ha report hpr
    obtain ⟨js, e1, e2⟩ := C89_found ord hord fuel thr lint read exists_ jm jj m us hm hus tops zs ess hl hn f h hf u hu job hj hdom ht n hs hsh p hp want ha
      report hpr
    rw [hempty] at e1
    injection e1 with e1
    injection e1 with e1
    subst e1
    rcases e2 with ⟨_, j, hj', -⟩ | ⟨_, -, j, hj', -⟩ <;> cases hj'

theorem Spec.Justified.structural {w : World} {rs : List RR} {job : Job} {b : Bool} {q : EC} {n : Name} {v : Violation}
    (h : Justified w rs { job with structural := b } q n v) : Justified w rs job q n v := by
  cases h with
  | loop ns h => exact .loop ns h
  | hops p n h1 h3 h4 => exact .hops p n h1 h3 h4
  | rewrites p n h1 h3 h4 => exact .rewrites p n h1 h3 h4
  | blackhole a b s p h1 h2 h3 => exact .blackhole a b s p h1 h2 h3
  | queryRewrite a b s ds h1 h2 => exact .queryRewrite a b s ds h1 h2
  | contact a s ds p h1 h2 h3 => exact .contact a s ds p h1 h2 h3
  | lame s t a h1 h3 h4 h5 => exact .lame s t a h1 h3 h4 h5
  | delegation s t b id id' a h1 h3 h4 h5 h6 h7 h8 => exact .delegation s t b id id' a h1 h3 h4 h5 h6 h7 h8
  | zeroTTL n tys T b x r h1 h0 h2 h3 h4 h5 => exact .zeroTTL n tys T b x r h1 (AskedWith.structural.mp h0) h2 h3 h4 h5
  | consistency n tys T b x y h1 h0 h2 h3 h4 h5 h6 => exact .consistency n tys T b x y h1 (AskedWith.structural.mp h0) h2 h3 h4 h5 h6
  | value tys values l T b h1 h0 h2 h3 => exact .value tys values l T b h1 (AskedWith.structural.mp h0) h2 h3
  | missing n tys T b x a h1 h0 h2 h3 h4 h5 h6 => exact .missing n tys T b x a h1 (AskedWith.structural.mp h0) h2 h3 h4 h5 h6
  | alias_ al cs n k T b p h1 h2 h0 h3 h4 h5 => exact .alias_ al cs n k T b p h1 h2 (AskedWith.structural.mp h0) h3 h4 h5
  | infinite a b used p h1 h2 h3 => exact .infinite a b used p h1 h2 h3

/-- The objects that give account of the jobs are true. -/
theorem true_of_run {fuel thr : Nat} {lint : Bool} {read : Str → Str} {exists_ : Str → Bool}
    {m : Meta} {us : List UJob} {tops : List Str} {zs : List Listing}
    {ess : List (List (Entry × Nat))} (hl : Loadable read exists_ m tops zs ess) (hn : Redirects (allRecords zs ess)) (hfree : FreeLabel (allRecords zs ess))
    (hjobs : ∀ u ∈ us, Short (stringToLabels (toLower u.domain)) ∧ octets (stringToLabels (toLower u.domain)) < 253 ∧ Testable u) {d : Loaded}
    (h1 : setContext thr lint read exists_ m = .ok d) {v : Violation} {u : UJob} {job : Job} {b : Bool} {g : LGraph} {ts : List Task} {vs : List Violation}
    (hu : u ∈ us) (hmeans : JobMeans {} u job) (hrun : runSequential fuel thr d.ctx d.lg { job with structural := b } = .ok (g, ts, vs))
    (hb : b = true → SomeStructural us) (hc : Contributes vs v) :
      (SomeStructural us ∧ ∃ d ps, v = .structural d ps) ∨ (∃ q, Sustained (worldOf tops zs ess) (allRecords zs ess) job q v) ∨
        ∃ groups, v = .allAliases groups ∧ groups ≠ [] ∧ ∀ c als, (c, als) ∈ groups → als ≠ [] ∧ ∀ al ∈ als,
          ∃ q, Sustained (worldOf tops zs ess) (allRecords zs ess) job q (.alias al c) := by
  obtain ⟨d', xs, e1, e2, e3, e4⟩ := load_redirecting thr lint hl hn
  rw [h1] at e1
  injection e1 with e1
  subst e1
  obtain ⟨hs, ho, ht⟩ := hjobs u hu
  have S := e4 u job hmeans hs ht b
  rw [e2] at hrun
  have ho' : octets (stringToLabels { job with structural := b }.domain) < 253 := by
    show octets (stringToLabels job.domain) < 253
    rw [hmeans.domain]; exact ho
  have key : ∀ {v : Violation}, v ∈ vs → (SomeStructural us ∧ ∃ d ps, v = .structural d ps) ∨
      ∃ q, Sustained (worldOf tops zs ess) (allRecords zs ess) job q v := by
    intro v hv
    rcases C89_true S hrun hv with hst | ⟨q, hq, h4⟩
    · exact .inl ⟨hb hst.1, hst.2⟩
    · refine .inr ⟨q, ?_, ?_⟩
      · have := C89_inhabited S (by rw [e3]; exact hfree) ho' hrun hq
        rwa [e3] at this
      · rw [e3] at h4
        exact h4.imp id (fun h m hm hs => (h m hm hs).structural)
  cases hc with
  | direct v hv hd => exact (key hv).imp id .inl
  | aliases q c hal groups hg =>
    refine .inr (.inr ⟨groups, rfl, ?_, fun c als hca => ⟨(hg.members c als hca).1, fun al hal => ?_⟩⟩)
    · obtain ⟨qs, hq⟩ := hg.all q c hal
      exact List.ne_nil_of_mem hq
    rcases key (((hg.members c als hca).2.2 al).mp hal) with ⟨_, _, _, e⟩ | h
    · cases e
    · exact h

theorem true_of_account {ord : List Str → List Str} {fuel thr : Nat} {lint : Bool} {read : Str → Str} {exists_ : Str → Bool}
    {m : Meta} {us : List UJob} {tops : List Str} {zs : List Listing}
    {ess : List (List (Entry × Nat))} (hl : Loadable read exists_ m tops zs ess) (hn : Redirects (allRecords zs ess)) (hfree : FreeLabel (allRecords zs ess))
    (hjobs : ∀ u ∈ us, Short (stringToLabels (toLower u.domain)) ∧ octets (stringToLabels (toLower u.domain)) < 253 ∧ Testable u) {d : Loaded} {js : List Json}
    (h1 : setContext thr lint read exists_ m = .ok d) (h : Account ord fuel thr d us js) {j : Json} (hj : j ∈ js) :
    ∃ v, (leaves j).Perm (entries ord v) ∧ ∃ u ∈ us, ∃ job, JobMeans {} u job ∧
      ((SomeStructural us ∧ ∃ d ps, v = .structural d ps) ∨ (∃ q, Sustained (worldOf tops zs ess) (allRecords zs ess) job q v) ∨
        ∃ groups, v = .allAliases groups ∧ groups ≠ [] ∧ ∀ c als, (c, als) ∈ groups → als ≠ [] ∧ ∀ al ∈ als,
          ∃ q, Sustained (worldOf tops zs ess) (allRecords zs ess) job q (.alias al c)) := by
  obtain ⟨v, u, job, b, g, ts, vs, hp, hu, hmeans, hrun, hb, hc⟩ := h.2 j hj
  exact ⟨v, hp, u, hu, job, hmeans, true_of_run hl hn hfree hjobs h1 hu hmeans hrun hb hc⟩

/-- **C89** Every report is true: each object of the output file is about a job, and is a report of the structural check some job asks for, or true
of the names of some class of the job, or lists aliases each of which is. -/
theorem C89_all_true (ord : List Str → List Str) (hord : ∀ l, (ord l).Perm l) (fuel thr : Nat) (lint : Bool) (read : Str → Str) (exists_ : Str → Bool)
    (jm jj : JVal) (m : Meta) (us : List UJob) (hm : MetaOf jm m) (hus : JobsOf jj us) (tops : List Str) (zs : List Listing)
    (ess : List (List (Entry × Nat))) (hl : Loadable read exists_ m tops zs ess) (hn : Redirects (allRecords zs ess)) (hfree : FreeLabel (allRecords zs ess))
    (hjobs : ∀ u ∈ us, Short (stringToLabels (toLower u.domain)) ∧ octets (stringToLabels (toLower u.domain)) < 253 ∧ Testable u) (f : Files)
    (h : programJ ord fuel thr lint read exists_ jm (some jj) = .ok f) (hf : f.finished = true) :
    ∃ js, JsonText.parse f.output = some (.arr js) ∧ ∀ j ∈ js, ∃ v, (leaves j).Perm (entries ord v) ∧ ∃ u ∈ us, ∃ job, JobMeans {} u job ∧
      ((SomeStructural us ∧ ∃ d ps, v = .structural d ps) ∨ (∃ q, Sustained (worldOf tops zs ess) (allRecords zs ess) job q v) ∨
        ∃ groups, v = .allAliases groups ∧ groups ≠ [] ∧ ∀ c als, (c, als) ∈ groups → als ≠ [] ∧ ∀ al ∈ als,
          ∃ q, Sustained (worldOf tops zs ess) (allRecords zs ess) job q (.alias al c)) := by
  obtain ⟨d, js, h1, h2, h3⟩ := job_run hord (program_of_values hm hus h) hf
  exact ⟨js, h2, fun j hj => true_of_account hl hn hfree hjobs h1 h3 hj⟩

/-! ### A run -/

private def k (s : String) (v : JVal) : Str × JVal := (s.toList, v)
private def t (s : String) : JVal := .str s.toList
private def ln (owner type : String) (rdata : List String) : Line :=
  ⟨owner.toList, none, none, true, type.toList, rdata.map String.toList⟩

/-- A zone with a DNAME. -/
def redirectFile : Str := "@ SOA n1 h 1\nd DNAME tt\ntt A 1.1.1.1\n".toList

def redirectEntries : List (Entry × Nat) :=
  [(.atSign (ln "" "SOA" ["n1", "h", "1"]), 1), (.record (ln "d" "DNAME" ["tt"]), 1), (.record (ln "tt" "A" ["1.1.1.1"]), 1)]

def redirectListing : List Listing := [("f".toList, "NS.x.".toList, some "X.".toList)]

theorem redirectFile_says : FileSays redirectFile redirectEntries := by
  refine ⟨Lexer.tokens redirectFile, cut [9, 5, 5] (Lexer.tokens redirectFile), [], tokens_munch _,
    split_of_check _ _ (by decide +kernel), ?_⟩
  have e : (cut [9, 5, 5] (Lexer.tokens redirectFile)).map (fun l => (fields l, eols l + 1)) =
      redirectEntries.map (fun e => (e.1.words, e.2)) := by decide +kernel
  generalize cut _ _ = ls at e
  revert e
  generalize redirectEntries = es
  intro e
  induction ls generalizing es with
  | nil => cases es with
    | nil => exact .nil
    | cons x xs => cases e
  | cons l ls ih => cases es with
    | nil => cases e
    | cons x xs =>
      simp only [List.map_cons, List.cons.injEq, Prod.mk.injEq] at e
      exact .cons e.1 (ih xs e.2)

theorem redirectFile_good : GoodFile redirectFile "x.".toList redirectEntries := by
  refine ⟨redirectFile_says, ?_, by decide +kernel, ?_⟩
  · exact ⟨⟨by decide +kernel, standardLine_spec (by decide +kernel)⟩, standardLine_spec (by decide +kernel), standardLine_spec (by decide +kernel), trivial⟩
  · refine (noOrphanFrom_iff [] _).mp ?_
    have : ∀ (log : List RR) (x : Nat × RR), x.2.type = .SOA ∨ soaOwner log ≠ [] → ¬ Orphan log x.2 := by
      rintro log x (h | h) ⟨-, -, h1, h2⟩
      · exact h2 h
      · exact h h1
    exact ⟨this _ _ (by decide +kernel), this _ _ (by decide +kernel), this _ _ (by decide +kernel), trivial⟩

theorem redirect_loadable : Loadable (fun _ => redirectFile) (fun _ => true) programMeta ["NS.x.".toList] redirectListing [redirectEntries] where
  good := ⟨rfl, rfl, fun _ _ => rfl, "NS.x.".toList, by simp, _, List.mem_singleton.mpr rfl, rfl⟩
  files := .cons redirectFile_good .nil
  top := by simp

/-- A job: at most `n` rewritings below `d.x`. -/
def redirectJobJ (n : Nat) : JVal := .obj [k "Domain" (t "D.x"), k "Properties" (.arr [
  .obj [k "PropertyName" (t "Rewrites"), k "Types" (.arr [t "A"]), k "Value" (.int n)]]), k "SubDomain" (.bool true)]

def redirectUJob (n : Nat) : UJob := ⟨"D.x".toList, true, [⟨"Rewrites".toList, some ["A".toList], .int n⟩]⟩

def redirectJob (n : Nat) : Job where
  domain := "d.x".toList
  subdomains := true
  types := TypeSet.single .A
  pathFns := [.rewrites n]

theorem redirectJobJ_of (n : Nat) (hn : n < 10) : JobsOf (.arr [redirectJobJ n]) [redirectUJob n] := by
  refine ⟨_, .array _, .cons ?_ .nil⟩
  exact {
    domain := ⟨_, rfl, rfl⟩
    subdomain := ⟨_, rfl, rfl⟩
    properties := ⟨_, _, ⟨_, rfl, rfl⟩, .array _,
      .cons ⟨⟨_, rfl, rfl⟩, .inr ⟨_, ["A".toList], ⟨_, rfl, rfl⟩, .array _, rfl⟩, .inr ⟨_, ⟨_, rfl, rfl⟩, .int _ _ ⟨by omega, by omega, 0, by omega⟩⟩⟩ .nil⟩ }

theorem redirectJob_means : JobMeans {} (redirectUJob 0) (redirectJob 0) ∧ JobMeans {} (redirectUJob 1) (redirectJob 1) :=
  ⟨(C57_job _ _ _).mp rfl, (C57_job _ _ _).mp rfl⟩

/-- The program reports the rewriting if none is allowed, and nothing if one is. -/
theorem redirect_runs : (∃ f, programJ id 300 500 true (fun _ => redirectFile) (fun _ => true) programMetaJ (some (.arr [redirectJobJ 0])) = .ok f ∧
      f.finished = true ∧ (JsonText.parse f.output).map (fun j => match j with | .arr l => l.length | _ => 0) = some 1) ∧
    ∃ f, programJ id 300 500 true (fun _ => redirectFile) (fun _ => true) programMetaJ (some (.arr [redirectJobJ 1])) = .ok f ∧
      JsonText.parse f.output = some (.arr []) :=
  ⟨files_of_check (by decide +kernel), files_of_check (by decide +kernel)⟩

/-- What the file says. -/
def redirectWorld : World where
  zones := [(1, Listing.records ("f".toList, "NS.x.".toList, some "X.".toList) redirectEntries)]
  nsZones := [("ns.x.".toList, [1])]
  top := ["ns.x.".toList]

theorem redirect_world : worldOf ["NS.x.".toList] redirectListing [redirectEntries] = redirectWorld := by
  unfold worldOf redirectListing sitesFrom sitesFrom servedBy
  rw [if_pos (show HasSOA redirectEntries by decide +kernel)]
  rfl

/-- The records of the file are as C89 wants them. -/
example : Redirects (allRecords redirectListing [redirectEntries]) ∧ FreeLabel (allRecords redirectListing [redirectEntries]) ∧
    ∀ u ∈ [redirectUJob 0], Short (stringToLabels (toLower u.domain)) ∧ octets (stringToLabels (toLower u.domain)) < 253 ∧ Testable u := by
  refine ⟨⟨?_, by decide +kernel, by decide +kernel, by decide +kernel⟩, ⟨'q', by decide +kernel⟩, ?_⟩
  · have h : ∀ r ∈ allRecords redirectListing [redirectEntries], r.type = .DNAME → ∀ r' ∈ allRecords redirectListing [redirectEntries], r'.type = .DNAME →
        AtOrBelow r'.name (stringToLabels r.rdata) → r'.name = stringToLabels r.rdata := by decide +kernel
    rintro n t n' t' ⟨r, h1, h2, rfl, rfl⟩ ⟨r', h3, h4, rfl, rfl⟩ hb
    exact h r h1 h2 r' h3 h4 hb
  · intro u hu
    rw [List.mem_singleton.mp hu]
    refine ⟨by decide +kernel, by decide +kernel, ?_⟩
    exact ⟨⟨_, List.mem_singleton.mpr rfl, .inr ⟨_, rfl, _, List.mem_singleton.mpr rfl, .A, by unfold Names; decide +kernel, by decide⟩⟩, by decide +kernel⟩

/-- The hypotheses of `C89_found` are met by the job that allows no rewriting, and the name `u.d.x`, which is no name of the file. -/
example : InScope (redirectJob 0) ["x".toList, "d".toList, "u".toList] ∧
    Fits (worldOf ["NS.x.".toList] redirectListing [redirectEntries]) ⟨["x".toList, "d".toList, "u".toList], (redirectJob 0).types, false⟩ ∧
    (∃ p ∈ (redirectUJob 0).properties, Asks p (.path (.rewrites 0))) ∧
    ∃ p, Trouble (worldOf ["NS.x.".toList] redirectListing [redirectEntries]) (allRecords redirectListing [redirectEntries]) (redirectJob 0)
      ["x".toList, "d".toList, "u".toList] (.path (.rewrites 0)) (fun v => ∃ q k, StandsFor (allRecords redirectListing [redirectEntries]) q
        ["x".toList, "d".toList, "u".toList] ∧ rewritesOf (worldOf ["NS.x.".toList] redirectListing [redirectEntries]) p ≤ k ∧
        v = .rewrites (showQuery q) k 0) := by
  rw [redirect_world]
  have hw : WellFormed redirectWorld := wellFormed_of _ (by decide +kernel) (by decide +kernel) (by decide +kernel)
  have hr : Represents (contextOf redirectWorld) redirectWorld := represents_of (thr := 500) rfl rfl rfl
  refine ⟨?_, fits_of_check hr hw (by decide +kernel) (by decide +kernel), ⟨_, List.mem_singleton.mpr rfl, .rewrites 0 rfl rfl⟩, ?_⟩
  · unfold InScope
    rw [if_pos (show (redirectJob 0).subdomains = true from rfl)]
    exact ⟨by decide +kernel, by decide +kernel⟩
  have he : Encloser (redirectWorld.log 1) ["x".toList, "d".toList, "u".toList] ["x".toList, "d".toList] := by
    have h := encloser_self (log := redirectWorld.log 1) (n := ["x".toList, "d".toList]) (by decide +kernel) (by decide +kernel)
    exact ⟨⟨["u".toList], rfl⟩, h.2.1, h.2.2.1, .inl (by decide +kernel)⟩
  obtain ⟨ts, hts⟩ : ∃ ts, TypesAt (redirectWorld.log 1) ["x".toList, "d".toList] ts := by
    refine ⟨TypeSet.single .DNAME, fun t => ?_⟩
    cases t <;> first | (unfold Member; decide +kernel) | skip
  obtain ⟨r, hr1, hr2, hr3⟩ : ∃ r ∈ redirectWorld.log 1, r.name = ["x".toList, "d".toList] ∧ r.type = .DNAME := by decide +kernel
  have hsays : Says redirectWorld "ns.x.".toList ⟨["x".toList, "d".toList, "u".toList], (redirectJob 0).types, false⟩ [⟨.REWRITE, ts, [r]⟩] :=
    .zone 1 _ (by decide +kernel) ⟨[], [], by decide +kernel, by decide +kernel, by simp, by simp⟩
      (.dname _ ts r he (by decide +kernel) (by unfold ExactFor; rintro ⟨h, -⟩; revert h; decide +kernel) hr1 hr2 hr3 hts)
  have hk : Kind redirectWorld "ns.x.".toList ⟨["x".toList, "d".toList, "u".toList], (redirectJob 0).types, false⟩ .REWRITE := ⟨_, _, hsays, rfl⟩
  refine ⟨[("ns.x.".toList, ⟨["x".toList, "d".toList, "u".toList], (redirectJob 0).types, false⟩, none)],
    .rewrites 0 _ (.step _ _ _ _ _ _ (.top _ _ (by simp [redirectWorld])) (.done _ _)) ?_⟩
  unfold rewritesOf
  rw [List.filter_cons_of_pos (by simpa using hk)]
  simp

/-! ### Rewriting twice with the same record -/

private def rr (n : String) (t : RRType) (d : String) : RR :=
  { name := stringToLabels n.toList, type := t, cls := 1, ttl := 300, rdata := d.toList }

private def nm (s : String) : Name := stringToLabels s.toList

/-- `u.d.com` is rewritten to `u.t.com`, this is an alias of `v.d.com`, which is rewritten to `v.t.com`, where there is an address. -/
def hairpinWorld : World where
  zones := [(1, [rr "com." .SOA "x", rr "d.com." .DNAME "t.com.", rr "u.t.com." .CNAME "v.d.com.", rr "v.t.com." .A "1.1.1.1"])]
  nsZones := [("s.".toList, [1])]
  top := ["s.".toList]

def hairpinJob : Job where
  domain := "d.com.".toList
  subdomains := true
  types := TypeSet.single .A
  pathFns := [.infiniteDname]

theorem hairpin_setting : Redirecting (contextOf hairpinWorld) hairpinWorld (recordsOf hairpinWorld) hairpinJob :=
  redirecting_of _ _ (wellFormed_of _ (by decide +kernel) (by decide +kernel) (by decide +kernel)) (by decide +kernel) (by decide +kernel)
    ⟨.A, by decide, by show Member hairpinJob.types .A; unfold Member; decide⟩
    (fun f hf => by rw [List.mem_singleton.mp hf]; trivial) rfl

/-- `u.d.com` is in the scope of the job, no name on the way to its address is too long, and the record at `d.com` is used twice, for names of three
labels: the hypotheses of `C89_infinite_any`. -/
theorem hairpin_route : InScope hairpinJob (nm "u.d.com.") ∧ Fits hairpinWorld ⟨nm "u.d.com.", hairpinJob.types, false⟩ ∧
    ∃ p, Route hairpinWorld [] ⟨nm "u.d.com.", hairpinJob.types, false⟩ p ∧ Revisits hairpinWorld p := by
  have hw : WellFormed hairpinWorld := wellFormed_of _ (by decide +kernel) (by decide +kernel) (by decide +kernel)
  have hr : Represents (contextOf hairpinWorld) hairpinWorld := represents_of (thr := 500) rfl rfl rfl
  refine ⟨?_, fits_of_check hr hw (by decide +kernel) (by decide +kernel), ?_⟩
  · unfold InScope
    rw [if_pos (show hairpinJob.subdomains = true from rfl)]
    exact ⟨by decide +kernel, by decide +kernel⟩
  obtain ⟨ts, hts⟩ : ∃ ts, TypesAt (hairpinWorld.log 1) (nm "d.com.") ts := by
    refine ⟨TypeSet.single .DNAME, fun t => ?_⟩
    cases t <;> first | (unfold Member; decide +kernel) | skip
  obtain ⟨ts', hts'⟩ : ∃ ts, TypesAt (hairpinWorld.log 1) (nm "u.t.com.") ts := by
    refine ⟨TypeSet.single .CNAME, fun t => ?_⟩
    cases t <;> first | (unfold Member; decide +kernel) | skip
  have hD : ∀ l : Str, nm "d.com." ++ [l] ∈ [nm "u.d.com.", nm "v.d.com."] →
      Says hairpinWorld "s.".toList ⟨nm "d.com." ++ [l], hairpinJob.types, false⟩ [⟨.REWRITE, ts, [rr "d.com." .DNAME "t.com."]⟩] := by
    intro l hl
    have he : Encloser (hairpinWorld.log 1) (nm "d.com." ++ [l]) (nm "d.com.") := by
      have h := encloser_self (log := hairpinWorld.log 1) (n := nm "d.com.") (by decide +kernel) (by decide +kernel)
      exact ⟨⟨[l], rfl⟩, h.2.1, h.2.2.1, .inl (by decide +kernel)⟩
    have hne : nm "d.com." ≠ nm "d.com." ++ [l] := by simp
    have hS : Short (nm "d.com." ++ [l]) := by
      generalize nm "d.com." ++ [l] = n at hl ⊢
      revert n; decide +kernel
    refine .zone 1 _ hS ⟨[], [], by decide +kernel, ?_, by simp, by simp⟩
      (.dname _ ts _ he (by decide +kernel) (by rintro ⟨h, -⟩; exact hne h.symm) (by decide +kernel) (by decide +kernel) (by decide +kernel) hts)
    dsimp only
    generalize nm "d.com." ++ [l] = n at hl ⊢
    revert n; decide +kernel
  have hC : Says hairpinWorld "s.".toList ⟨nm "u.t.com.", hairpinJob.types, false⟩ [⟨.REWRITE, ts', [rr "u.t.com." .CNAME "v.d.com."]⟩] :=
    .zone 1 _ (by decide +kernel) ⟨[], [], by decide +kernel, by decide +kernel, by simp, by simp⟩
      (.cname _ (nm "u.t.com.") true ts' (rr "u.t.com." .CNAME "v.d.com.") .REWRITE (encloser_self (by decide +kernel) (by decide +kernel))
        ⟨by decide +kernel, .inl ⟨rfl, ⟨rfl, rfl⟩, rfl⟩⟩ (by decide +kernel)
        (by decide +kernel) rfl hts' (.inr ⟨fun h => absurd ((h .A).mp (by show Member hairpinJob.types .A; unfold Member; decide)) (by decide), rfl⟩))
  have hu := hD "u".toList (by decide +kernel)
  have hv := hD "v".toList (by decide +kernel)
  refine ⟨[("s.".toList, ⟨nm "u.d.com.", hairpinJob.types, false⟩, none), ("s.".toList, ⟨nm "u.t.com.", hairpinJob.types, false⟩, none),
      ("s.".toList, ⟨nm "v.d.com.", hairpinJob.types, false⟩, none)],
    .step _ _ _ _ _ _ (.top _ _ (by simp [hairpinWorld])) (.step _ _ _ _ _ _ (.rewriteHere _ _ _ _ (rr "d.com." .DNAME "t.com.") _ (by simp) hu
      List.mem_cons_self rfl List.mem_cons_self (.dname ["u".toList] rfl (by decide +kernel) (by decide +kernel) rfl rfl) (.inr (by decide +kernel)))
      (.step _ _ _ _ _ _ (.rewriteHere _ _ _ _ (rr "u.t.com." .CNAME "v.d.com.") _ (by simp) hC
        List.mem_cons_self rfl List.mem_cons_self (.cname rfl (by decide +kernel) ?_ rfl) (.inr (by decide +kernel))) (.done _ _))),
    ⟨[], _, [_], _, [], _, _, rfl, ⟨_, _, hu, rfl, List.mem_cons_self⟩, ⟨_, _, hv, rfl, List.mem_cons_self⟩, rfl, by decide +kernel⟩⟩
  intro t
  cases t <;> first | (unfold Member; decide +kernel) | skip

/-- **C89** (disagreement) A rewriting that goes on for ever should be reported, and this one ends, at the address of `v.t.com`: the resolution does not go
in circles.  It is reported, since the same record is used twice. -/
theorem C89_disagreement_finite : ¬ Circular hairpinWorld ⟨nm "u.d.com.", hairpinJob.types, false⟩ ∧
    ∃ g ts, runSequential 300 500 (contextOf hairpinWorld) (labelGraph 500 (recordsOf hairpinWorld)) hairpinJob = .ok (g, ts,
      [.infiniteDname "u.d.com.".toList "v.d.com.".toList ["d.com.   DNAME   t.com.".toList, "u.t.com.   CNAME   v.d.com.".toList]]) := by
  have hrun : ∃ g ts, runSequential 300 500 (contextOf hairpinWorld) (labelGraph 500 (recordsOf hairpinWorld)) hairpinJob = .ok (g, ts,
      [.infiniteDname "u.d.com.".toList "v.d.com.".toList ["d.com.   DNAME   t.com.".toList, "u.t.com.   CNAME   v.d.com.".toList]]) := by
    have h : (match runSequential 300 500 (contextOf hairpinWorld) (labelGraph 500 (recordsOf hairpinWorld)) hairpinJob with
      | .ok (_, _, vs) => decide (vs =
        [.infiniteDname "u.d.com.".toList "v.d.com.".toList ["d.com.   DNAME   t.com.".toList, "u.t.com.   CNAME   v.d.com.".toList]])
      | _ => false) = true := by decide +kernel
    cases hr : runSequential 300 500 (contextOf hairpinWorld) (labelGraph 500 (recordsOf hairpinWorld)) hairpinJob with
    | ok x =>
      obtain ⟨g, ts, vs⟩ := x
      rw [hr] at h
      exact ⟨g, ts, by rw [of_decide_eq_true h]⟩
    | _ => rw [hr] at h; cases h
  refine ⟨fun hc => ?_, hrun⟩
  obtain ⟨g, ts, h⟩ := hrun
  obtain ⟨ns, hn⟩ := C84_loops_complete hairpin_setting h hairpin_route.1 hairpin_route.2.1 hc
  exact absurd (List.mem_singleton.mp hn) (by simp)
end Groot
