import Verif.Lemmas.Dname
import Verif.Props.Watched

/-!
# C84: verdicts in the presence of DNAMEs

`Redirecting ctx w xs job`: zones `w`, possibly with DNAMEs of which none leads strictly beneath another, loaded as `ctx`, all their records `xs` in the label
graph, and a configured job.  `StandsFor`: the names a class stands for, DNAMEs followed.  `Fits`: no rewriting of the name is too long.
-/

namespace Groot
open Spec

section
variable {ctx : Context} {w : World} {xs : List (RR × Nat × Nat)} {job : Job}

/-- **C84** Without DNAMEs these are the names a class stands for. -/
theorem C84_plain (rs : List RR) (hd : ∀ r ∈ rs, r.type ≠ .DNAME) (q : EC) (m : Name) : StandsFor rs q m ↔ Stands rs q m := by
  unfold StandsFor Stands
  cases q.excluded with
  | none => exact Iff.rfl
  | some _ =>
    constructor
    · rintro ⟨l, rest, rfl, h⟩
      exact ⟨l, rest, rfl, fun hk => h ⟨q.name ++ [l], (matches_plain hd).mpr ⟨by simp, ⟨rest, by simp⟩, hk⟩⟩⟩
    · rintro ⟨l, rest, rfl, h⟩
      refine ⟨l, rest, rfl, ?_⟩
      rintro ⟨k, hk⟩
      obtain ⟨h1, ⟨r, h2⟩, h3⟩ := (matches_plain hd).mp hk
      apply h
      have : k = q.name ++ [l] := by
        have h4 : (q.name ++ l :: rest).take (q.name.length + 1) = q.name ++ [l] := by
          rw [List.take_append, List.take_of_length_le (by omega)]; simp
        rw [h2, h1, List.take_left] at h4
        exact h4
      rwa [this] at h3

/-- **C84** Every name the job is about stands in a class of the job. -/
theorem C84_covered (S : Redirecting ctx w xs job) {thr thr' fuel : Nat} {g' : LGraph} {ts : List Task} {vs : List Violation}
    (hrun : Driver.runSequential fuel thr ctx (labelGraph thr' xs) job = .ok (g', ts, vs)) {m : Name} (hm : InScope job m) :
    ∃ q ∈ classes ts, StandsFor (xs.map (·.1)) q m := S.covered hrun m hm

/-- **C84** If some name the job is about needs more hops than allowed, the run reports it, for the class the name stands in. -/
theorem C84_hops_complete (S : Redirecting ctx w xs job)
    {thr thr' fuel : Nat} {g' : LGraph} {ts : List Task} {vs : List Violation}
    (hrun : Driver.runSequential fuel thr ctx (labelGraph thr' xs) job = .ok (g', ts, vs))
    {n : Int} (hf : PathFn.hops n ∈ job.pathFns) (h0 : 0 ≤ n) {m : Name} (hm : InScope job m) (hs : Fits w ⟨m, job.types, false⟩)
    {p : Trail} (hp : Complete w ⟨m, job.types, false⟩ p) (hn : n < hopsOf p) :
    ∃ q ∈ classes ts, StandsFor (xs.map (·.1)) q m ∧ .hops (showQuery q) (hopsOf p) n ∈ vs := by
  obtain ⟨q, hq, hst⟩ := S.covered hrun m hm
  obtain ⟨hqt, cs, g, l, s, hP, hsub, hB⟩ := S.class_run hrun q hq
  obtain ⟨p2, hc2, hmir⟩ := (hB m hst hs).complete p hp
  rw [hmir.hops] at hn ⊢
  exact ⟨q, hq, hst, hsub _ (hP.hops S.wellFormed hf hc2 h0 hn)⟩

/-- **C84** A report of too many hops is true of every name the reported class stands for. -/
theorem C84_hops_sound (S : Redirecting ctx w xs job)
    {thr thr' fuel : Nat} {g' : LGraph} {ts : List Task} {vs : List Violation}
    (hrun : Driver.runSequential fuel thr ctx (labelGraph thr' xs) job = .ok (g', ts, vs))
    {nm : Str} {k : Nat} {n : Int} (hv : .hops nm k n ∈ vs) :
    PathFn.hops n ∈ job.pathFns ∧ 0 ≤ n ∧ n < k ∧ ∃ q ∈ classes ts, nm = showQuery q ∧
      ∀ m, StandsFor (xs.map (·.1)) q m → Fits w ⟨m, job.types, false⟩ → ∃ p, Route w [] ⟨m, job.types, false⟩ p ∧ hopsOf p = k := by
  obtain ⟨q, hq, cs, g, l, s, hP, hB, hv⟩ := S.source hrun hv (fun _ _ e => nomatch e)
  obtain ⟨h1, h2, h3, h4, p2, h5, h6⟩ := hP.hops_sound S.wellFormed hv
  refine ⟨h1, h3, h4, q, hq, h2, fun m hm hs => ?_⟩
  obtain ⟨p, h7, h8⟩ := (hB m hm hs).route p2 h5
  exact ⟨p, h7, h8.hops.trans h6⟩

/-- **C84** If some name the job is about is rewritten more often than allowed, the run reports it, for the class the name stands in. -/
theorem C84_rewrites_complete (S : Redirecting ctx w xs job)
    {thr thr' fuel : Nat} {g' : LGraph} {ts : List Task} {vs : List Violation}
    (hrun : Driver.runSequential fuel thr ctx (labelGraph thr' xs) job = .ok (g', ts, vs))
    {n : Int} (hf : PathFn.rewrites n ∈ job.pathFns) {m : Name} (hm : InScope job m) (hs : Fits w ⟨m, job.types, false⟩)
    {p : Trail} (hp : Complete w ⟨m, job.types, false⟩ p) (hn : n < rewritesOf w p) :
    ∃ q ∈ classes ts, StandsFor (xs.map (·.1)) q m ∧ .rewrites (showQuery q) (rewritesOf w p) n ∈ vs := by
  obtain ⟨q, hq, hst⟩ := S.covered hrun m hm
  obtain ⟨hqt, cs, g, l, s, hP, hsub, hB⟩ := S.class_run hrun q hq
  obtain ⟨p2, hc2, hmir⟩ := (hB m hst hs).complete p hp
  rw [hmir.rewrites] at hn ⊢
  exact ⟨q, hq, hst, hsub _ (hP.rewrites S.wellFormed hf hc2 hn)⟩

/-- **C84** A report of too many rewrites is true of every name the reported class stands for. -/
theorem C84_rewrites_sound (S : Redirecting ctx w xs job)
    {thr thr' fuel : Nat} {g' : LGraph} {ts : List Task} {vs : List Violation}
    (hrun : Driver.runSequential fuel thr ctx (labelGraph thr' xs) job = .ok (g', ts, vs))
    {nm : Str} {k : Nat} {n : Int} (hv : .rewrites nm k n ∈ vs) :
    PathFn.rewrites n ∈ job.pathFns ∧ n < k ∧ ∃ q ∈ classes ts, nm = showQuery q ∧
      ∀ m, StandsFor (xs.map (·.1)) q m → Fits w ⟨m, job.types, false⟩ → ∃ p, Route w [] ⟨m, job.types, false⟩ p ∧ rewritesOf w p = k := by
  obtain ⟨q, hq, cs, g, l, s, hP, hB, hv⟩ := S.source hrun hv (fun _ _ e => nomatch e)
  obtain ⟨h1, h2, h4, p2, h5, h6⟩ := hP.rewrites_sound S.wellFormed hv
  refine ⟨h1, h4, q, hq, h2, fun m hm hs => ?_⟩
  obtain ⟨p, h7, h8⟩ := (hB m hm hs).route p2 h5
  exact ⟨p, h7, h8.rewrites.trans h6⟩

/-! ### C84 -/

/-- **C84** If resolving some name the job is about can go in circles, the run reports a loop. -/
theorem C84_loops_complete (S : Redirecting ctx w xs job)
    {thr thr' fuel : Nat} {g' : LGraph} {ts : List Task} {vs : List Violation}
    (hrun : Driver.runSequential fuel thr ctx (labelGraph thr' xs) job = .ok (g', ts, vs))
    {m : Name} (hm : InScope job m) (hs : Fits w ⟨m, job.types, false⟩) (hc : Circular w ⟨m, job.types, false⟩) : ∃ ns, .loop ns ∈ vs := by
  obtain ⟨q, hq, hst⟩ := S.covered hrun m hm
  obtain ⟨hqt, cs, g, l, s, hP, hsub, hB⟩ := S.class_run hrun q hq
  obtain ⟨ns, h⟩ := hP.loop_iff.mpr ((hB m hst hs).circular.mp hc)
  exact ⟨ns, hsub _ h⟩

/-- **C84** If the run reports a loop, resolving any name of some class of the job can go in circles. -/
theorem C84_loops_sound (S : Redirecting ctx w xs job)
    {thr thr' fuel : Nat} {g' : LGraph} {ts : List Task} {vs : List Violation}
    (hrun : Driver.runSequential fuel thr ctx (labelGraph thr' xs) job = .ok (g', ts, vs))
    {ns : List LoopNode} (hv : .loop ns ∈ vs) :
    ∃ q ∈ classes ts, ∀ m, StandsFor (xs.map (·.1)) q m → Fits w ⟨m, job.types, false⟩ → Circular w ⟨m, job.types, false⟩ := by
  obtain ⟨q, hq, cs, g, l, s, hP, hB, hv⟩ := S.source hrun hv (fun _ _ e => nomatch e)
  exact ⟨q, hq, fun m hm hs => (hB m hm hs).circular.mpr (hP.loop_iff.mp ⟨ns, hv⟩)⟩

/-! ### C84 -/

/-- **C84** If some name the job is about is rewritten and then denied, the run reports it, with the server that denies. -/
theorem C84_blackhole_complete (S : Redirecting ctx w xs job)
    {thr thr' fuel : Nat} {g' : LGraph} {ts : List Task} {vs : List Violation}
    (hrun : Driver.runSequential fuel thr ctx (labelGraph thr' xs) job = .ok (g', ts, vs))
    (hf : PathFn.blackholing ∈ job.pathFns) {m : Name} (hm : InScope job m) (hs : Fits w ⟨m, job.types, false⟩)
    {p : Trail} (hp : Complete w ⟨m, job.types, false⟩ p) {sv : Str} (hb : Blackholed w p sv) : ∃ a b, .blackhole a b sv ∈ vs := by
  obtain ⟨q, hq, hst⟩ := S.covered hrun m hm
  obtain ⟨hqt, cs, g, l, s, hP, hsub, hB⟩ := S.class_run hrun q hq
  obtain ⟨p2, hc2, hmir⟩ := (hB m hst hs).complete p hp
  obtain ⟨a, b, h⟩ := hP.blackhole S.wellFormed hf hc2 ((hmir.blackholed sv).mp hb)
  exact ⟨a, b, hsub _ h⟩

/-- **C84** A report of rewrite blackholing is true of every name of some class of the job. -/
theorem C84_blackhole_sound (S : Redirecting ctx w xs job)
    {thr thr' fuel : Nat} {g' : LGraph} {ts : List Task} {vs : List Violation}
    (hrun : Driver.runSequential fuel thr ctx (labelGraph thr' xs) job = .ok (g', ts, vs))
    {a b sv : Str} (hv : .blackhole a b sv ∈ vs) :
    PathFn.blackholing ∈ job.pathFns ∧ ∃ q ∈ classes ts,
      ∀ m, StandsFor (xs.map (·.1)) q m → Fits w ⟨m, job.types, false⟩ → ∃ p, Route w [] ⟨m, job.types, false⟩ p ∧ Blackholed w p sv := by
  obtain ⟨q, hq, cs, g, l, s, hP, hB, hv⟩ := S.source hrun hv (fun _ _ e => nomatch e)
  obtain ⟨h1, p2, h5, h6⟩ := hP.blackhole_sound S.wellFormed hv
  refine ⟨h1, q, hq, fun m hm hs => ?_⟩
  obtain ⟨p, h7, h8⟩ := (hB m hm hs).route p2 h5
  exact ⟨p, h7, (h8.blackholed sv).mpr h6⟩

/-- **C84** If resolving some name the job is about contacts a server outside the allowed domains, the run reports that server. -/
theorem C84_contact_complete (S : Redirecting ctx w xs job)
    {thr thr' fuel : Nat} {g' : LGraph} {ts : List Task} {vs : List Violation}
    (hrun : Driver.runSequential fuel thr ctx (labelGraph thr' xs) job = .ok (g', ts, vs))
    {d : List Name} (hf : PathFn.nsContact d ∈ job.pathFns) {m : Name} (hm : InScope job m) (hs : Fits w ⟨m, job.types, false⟩)
    {p : Trail} (hp : Complete w ⟨m, job.types, false⟩ p) {sv : Str} (hb : ContactedAway d p sv) :
    ∃ a, .nsContact a sv (printList d) ∈ vs := by
  obtain ⟨q, hq, hst⟩ := S.covered hrun m hm
  obtain ⟨hqt, cs, g, l, s, hP, hsub, hB⟩ := S.class_run hrun q hq
  obtain ⟨p2, hc2, hmir⟩ := (hB m hst hs).complete p hp
  obtain ⟨a, h⟩ := hP.contact S.wellFormed (S.pathFns _ hf) hf hc2 ((hmir.contact d sv).mp hb)
  exact ⟨a, hsub _ h⟩

/-- **C84** A report of a server outside the allowed domains is true of every name of some class of the job. -/
theorem C84_contact_sound (S : Redirecting ctx w xs job)
    {thr thr' fuel : Nat} {g' : LGraph} {ts : List Task} {vs : List Violation}
    (hrun : Driver.runSequential fuel thr ctx (labelGraph thr' xs) job = .ok (g', ts, vs))
    {a sv al : Str} (hv : .nsContact a sv al ∈ vs) :
    ∃ d, PathFn.nsContact d ∈ job.pathFns ∧ al = printList d ∧ ∃ q ∈ classes ts,
      ∀ m, StandsFor (xs.map (·.1)) q m → Fits w ⟨m, job.types, false⟩ → ∃ p, Route w [] ⟨m, job.types, false⟩ p ∧ ContactedAway d p sv := by
  obtain ⟨q, hq, cs, g, l, s, hP, hB, hv⟩ := S.source hrun hv (fun _ _ e => nomatch e)
  obtain ⟨d, h1, h2, p2, h5, h6⟩ := hP.contact_sound S.pathFns hv
  refine ⟨d, h1, h2, q, hq, fun m hm hs => ?_⟩
  obtain ⟨p, h7, h8⟩ := (hB m hm hs).route p2 h5
  exact ⟨p, h7, (h8.contact d sv).mpr h6⟩

/-- **C84** If some name the job is about is rewritten to a name outside the allowed domains, the run reports the server that did it. -/
theorem C84_rewrite_complete (S : Redirecting ctx w xs job) {thr thr' fuel : Nat} {g' : LGraph} {ts : List Task} {vs : List Violation}
    (hrun : Driver.runSequential fuel thr ctx (labelGraph thr' xs) job = .ok (g', ts, vs))
    {d : List Name} (hf : PathFn.queryRewrite d ∈ job.pathFns) {m : Name} (hm : InScope job m) (hs : Fits w ⟨m, job.types, false⟩)
    {p : Trail} (hp : Complete w ⟨m, job.types, false⟩ p) {sv : Str} (hb : RewrittenAway w d p sv) :
    ∃ a b, .queryRewrite a b sv (printList d) ∈ vs := by
  obtain ⟨q, hq, hst⟩ := S.covered hrun m hm
  obtain ⟨hqt, cs, g, l, s, hP, hsub, hB⟩ := S.class_run hrun q hq
  obtain ⟨p2, hc2, hmir⟩ := (hB m hst hs).complete p hp
  have : RewrittenAway w d p2 sv := by
    obtain ⟨pre, x, y, post, rfl, e, hk, ho⟩ := hb
    obtain ⟨p1, p3, rfl, h1, h2⟩ := forall₂_split' hmir
    cases h2 with
    | @cons _ x' _ _ hx h3 =>
    cases h3 with
    | @cons _ y' _ post' hy h4 =>
    refine ⟨p1, x', y', post', rfl, hx.1 ▸ e, (hx.2.1 _).mp hk, fun z hz hin => ho z hz ?_⟩
    obtain ⟨c1, e1⟩ := hin
    obtain ⟨c2, e2⟩ := hy.2.2.2.1
    exact ⟨c1 ++ c2, by rw [e2, e1]; simp⟩
  obtain ⟨a, b, h⟩ := hP.away S.wellFormed (S.pathFns _ hf) hf hc2 this
  exact ⟨a, b, hsub _ h⟩

/-- **C84** A report of a rewrite out of the allowed domains, if these are known names, is true of every name of some class of the job. -/
theorem C84_rewrite_sound (S : Redirecting ctx w xs job) {thr thr' fuel : Nat} {g' : LGraph} {ts : List Task} {vs : List Violation}
    (hrun : Driver.runSequential fuel thr ctx (labelGraph thr' xs) job = .ok (g', ts, vs))
    {a b sv al : Str} (hv : .queryRewrite a b sv al ∈ vs) :
    ∃ d, PathFn.queryRewrite d ∈ job.pathFns ∧ al = printList d ∧ ((∀ n ∈ d, Known (xs.map (·.1)) n) → ∃ q ∈ classes ts,
      ∀ m, StandsFor (xs.map (·.1)) q m → Fits w ⟨m, job.types, false⟩ → ∃ p, Route w [] ⟨m, job.types, false⟩ p ∧ RewrittenAway w d p sv) := by
  obtain ⟨q, hq, cs, g, l, s, hP, hB, hv⟩ := S.source hrun hv (fun _ _ e => nomatch e)
  obtain ⟨d, h1, h2, p2, h5, h6⟩ := hP.away_sound S.wellFormed S.pathFns hv
  refine ⟨d, h1, h2, fun hknown => ⟨q, hq, fun m hm hs => ?_⟩⟩
  have ht := ((S.tasks (Redirecting.generated hrun)).2.1 q hq).2
  have hqo : AsksOther q.types := by
    rcases ht with e | e <;> rw [e]
    · exact S.types
    · exact all_other
  obtain ⟨lb, rest, e, hf, hnk⟩ := member_of_standsFor S.wellFormed S.all S.flat hm (fits_retype S.types hqo hs)
  have hreach := reached_route .start h5
  have hr1 := C28_class_to_member w (ask q) lb rest hf p2 h5
  rw [e] at hr1
  have hmir := mirrors_narrow hf hreach
  obtain ⟨p, hr2, hal⟩ := route_retype hqo S.types hr1 (b := ⟨m, job.types, false⟩) ⟨rfl, rfl, .inl ⟨rfl, rfl⟩⟩
  refine ⟨p, hr2, ?_⟩
  obtain ⟨pre, x, y, post, rfl, e1, hk, ho⟩ := h6
  simp only [List.map_append, List.map_cons] at hal
  obtain ⟨pre1, r1, rfl, -, ha1⟩ := forall₂_split' hal
  cases ha1 with
  | @cons _ x1 _ r2 hx1 ha2 =>
  cases ha2 with
  | @cons _ y1 _ post1 hy1 ha3 =>
  have hkm : Kind w x.1 (x.2.1.member lb rest) .REWRITE := (kind_member hf (hreach x (by simp)) _).mp hk
  refine ⟨pre1, x1, y1, post1, rfl, hx1.1.symm.trans e1, ?_, ?_⟩
  · rw [← hx1.1]
    exact hkm.retype hx1.2.1 hx1.2.2.1 (hx1.2.left hqo) (hx1.2.symm.left S.types)
  · intro z hz hin
    rw [← hy1.2.1] at hin
    dsimp only at hin
    cases hb : y.2.1.below with
    | false => rw [member_exact hb] at hin; exact ho z hz hin
    | true =>
      rw [member_below hb] at hin
      obtain ⟨c, hc⟩ := hin
      dsimp only at hc
      rcases List.append_eq_append_iff.mp hc with ⟨u, h7, h8⟩ | ⟨u, h7, h8⟩
      · cases u with
        | nil => exact ho z hz ⟨[], by simpa using h7.symm⟩
        | cons l' u =>
          rw [List.cons_append] at h8
          injection h8 with h8 _
          subst h8
          exact hnk _ _ (hreach y (by simp)) hb (known_prefix (hknown z hz) ⟨u, by rw [h7]; simp⟩)
      · exact ho z hz ⟨u, h7⟩

/-- Resolution for the types of the job goes on to an end, or a loop is reported. -/
theorem Spec.Redirecting.completes (S : Redirecting ctx w xs job) {thr thr' fuel : Nat} {g' : LGraph} {ts : List Task} {vs : List Violation}
    (hrun : Driver.runSequential fuel thr ctx (labelGraph thr' xs) job = .ok (g', ts, vs)) {m : Name} (hm : InScope job m) (hs : Fits w ⟨m, job.types, false⟩)
    {p : Trail} (hp : Route w [] ⟨m, job.types, false⟩ p) :
    (∃ ns, .loop ns ∈ vs) ∨ ∃ p', Complete w ⟨m, job.types, false⟩ (p ++ p') := by
  by_cases hc : Circular w ⟨m, job.types, false⟩
  · exact .inl (C84_loops_complete S hrun hm hs hc)
  · exact .inr (route_completes S.represents S.wellFormed (hs _ .refl) (other_ne S.types) hc hp)

/-! ### Any sequence of steps that shows a problem is enough -/

/-- **C84** If, while a name of the job is resolved, more servers are contacted than allowed — at whatever point — this is reported, or a loop is. -/
theorem C84_hops_any (S : Redirecting ctx w xs job) {thr thr' fuel : Nat} {g' : LGraph} {ts : List Task} {vs : List Violation}
    (hrun : Driver.runSequential fuel thr ctx (labelGraph thr' xs) job = .ok (g', ts, vs))
    {n : Int} (hf : PathFn.hops n ∈ job.pathFns) (h0 : 0 ≤ n) {m : Name} (hm : InScope job m) (hs : Fits w ⟨m, job.types, false⟩)
    {p : Trail} (hp : Route w [] ⟨m, job.types, false⟩ p) (hn : n < hopsOf p) :
    (∃ ns, .loop ns ∈ vs) ∨ ∃ q ∈ classes ts, StandsFor (xs.map (·.1)) q m ∧ ∃ k, hopsOf p ≤ k ∧ .hops (showQuery q) k n ∈ vs := by
  rcases S.completes hrun hm hs hp with h | ⟨p', h⟩
  · exact .inl h
  · right
    have hle := hopsOf_le p p'
    obtain ⟨q, hq, hst, hv⟩ := C84_hops_complete S hrun hf h0 hm hs h (by omega)
    exact ⟨q, hq, hst, _, hle, hv⟩

/-- **C84** The same for the number of times a question is rewritten. -/
theorem C84_rewrites_any (S : Redirecting ctx w xs job) {thr thr' fuel : Nat} {g' : LGraph} {ts : List Task} {vs : List Violation}
    (hrun : Driver.runSequential fuel thr ctx (labelGraph thr' xs) job = .ok (g', ts, vs))
    {n : Int} (hf : PathFn.rewrites n ∈ job.pathFns) {m : Name} (hm : InScope job m) (hs : Fits w ⟨m, job.types, false⟩)
    {p : Trail} (hp : Route w [] ⟨m, job.types, false⟩ p) (hn : n < rewritesOf w p) :
    (∃ ns, .loop ns ∈ vs) ∨ ∃ q ∈ classes ts, StandsFor (xs.map (·.1)) q m ∧ ∃ k, rewritesOf w p ≤ k ∧ .rewrites (showQuery q) k n ∈ vs := by
  rcases S.completes hrun hm hs hp with h | ⟨p', h⟩
  · exact .inl h
  · right
    have hle := rewritesOf_le w p p'
    obtain ⟨q, hq, hst, hv⟩ := C84_rewrites_complete S hrun hf hm hs h (by omega)
    exact ⟨q, hq, hst, _, hle, hv⟩

/-- **C84** The same for rewriting to a name outside the allowed domains. -/
theorem C84_rewrite_any (S : Redirecting ctx w xs job) {thr thr' fuel : Nat} {g' : LGraph} {ts : List Task} {vs : List Violation}
    (hrun : Driver.runSequential fuel thr ctx (labelGraph thr' xs) job = .ok (g', ts, vs))
    {d : List Name} (hf : PathFn.queryRewrite d ∈ job.pathFns) {m : Name} (hm : InScope job m) (hs : Fits w ⟨m, job.types, false⟩)
    {p : Trail} (hp : Route w [] ⟨m, job.types, false⟩ p) {sv : Str} (hb : RewrittenAway w d p sv) :
    (∃ ns, .loop ns ∈ vs) ∨ ∃ a b, .queryRewrite a b sv (printList d) ∈ vs := by
  rcases S.completes hrun hm hs hp with h | ⟨p', h⟩
  · exact .inl h
  · exact .inr (C84_rewrite_complete S hrun hf hm hs h (hb.append p'))

/-- **C84** The same for rewriting followed by a denial. -/
theorem C84_blackhole_any (S : Redirecting ctx w xs job) {thr thr' fuel : Nat} {g' : LGraph} {ts : List Task} {vs : List Violation}
    (hrun : Driver.runSequential fuel thr ctx (labelGraph thr' xs) job = .ok (g', ts, vs))
    (hf : PathFn.blackholing ∈ job.pathFns) {m : Name} (hm : InScope job m) (hs : Fits w ⟨m, job.types, false⟩)
    {p : Trail} (hp : Route w [] ⟨m, job.types, false⟩ p) {sv : Str} (hb : Blackholed w p sv) :
    (∃ ns, .loop ns ∈ vs) ∨ ∃ a b, .blackhole a b sv ∈ vs := by
  rcases S.completes hrun hm hs hp with h | ⟨p', h⟩
  · exact .inl h
  · rw [blackholed_stops S.wellFormed h.route hb, List.append_nil] at h
    exact .inr (C84_blackhole_complete S hrun hf hm hs h hb)

/-- **C84** The same for contacting a server outside the allowed domains. -/
theorem C84_contact_any (S : Redirecting ctx w xs job) {thr thr' fuel : Nat} {g' : LGraph} {ts : List Task} {vs : List Violation}
    (hrun : Driver.runSequential fuel thr ctx (labelGraph thr' xs) job = .ok (g', ts, vs))
    {d : List Name} (hf : PathFn.nsContact d ∈ job.pathFns) {m : Name} (hm : InScope job m) (hs : Fits w ⟨m, job.types, false⟩)
    {p : Trail} (hp : Route w [] ⟨m, job.types, false⟩ p) {sv : Str} (hb : ContactedAway d p sv) :
    (∃ ns, .loop ns ∈ vs) ∨ ∃ a, .nsContact a sv (printList d) ∈ vs := by
  rcases S.completes hrun hm hs hp with h | ⟨p', h⟩
  · exact .inl h
  · exact .inr (C84_contact_complete S hrun hf hm hs h (hb.append p'))

end

/-! ### A sample run -/

private def rr (n : String) (t : RRType) (d : String) : RR :=
  { name := stringToLabels n.toList, type := t, cls := 1, ttl := 300, rdata := d.toList }

private def nm (s : String) : Name := stringToLabels s.toList

/-- Everything below `a.com` is redirected to `b.com`. -/
def dnameWorld : World where
  zones := [(1, [rr "com." .SOA "x", rr "a.com." .DNAME "b.com.", rr "x.b.com." .A "1.1.1.1"])]
  nsZones := [("s.".toList, [1])]
  top := ["s.".toList]

def dnameJob : Job where
  domain := "a.com.".toList
  subdomains := true
  types := TypeSet.single .A
  pathFns := [.hops 0, .rewrites 0, .blackholing, .queryRewrite [nm "a.com."], .nsContact [nm "com."]]

/-- The conditions of `Redirecting`, checked record by record. -/
theorem redirecting_of (w : World) (job : Job) (hw : WellFormed w)
    (hl : ∀ r ∈ (recordsOf w).map (·.1), (∀ l ∈ r.name, l ≠ ['.'] ∧ l.length ≤ 63) ∧ (r.type = .DNAME → r.name ≠ [] ∧
      (∀ l ∈ stringToLabels r.rdata, l ≠ ['.'] ∧ l.length ≤ 63) ∧
      ∀ d ∈ (recordsOf w).map (·.1), d.type = .DNAME → AtOrBelow d.name (stringToLabels r.rdata) → d.name = stringToLabels r.rdata))
    (hd : Short (stringToLabels job.domain)) (ht : AsksOther job.types) (hp : ∀ f ∈ job.pathFns, f.Configured) (hn : job.nodeFns = []) :
    Redirecting (contextOf w) w (recordsOf w) job := by
  refine ⟨represents_of (thr := 500) rfl rfl rfl, hw, ?_, ?_, ?_, ?_, hd, ht, hp, ?_⟩
  · intro id r hr
    unfold World.log at hr
    cases hl : w.zones.lookup id with
    | none => rw [hl] at hr; simp [stored] at hr
    | some rs =>
      rw [hl] at hr
      have hr := stored_subset rs r hr
      exact List.mem_map.mpr ⟨(r, id, 0), List.mem_flatMap.mpr ⟨(id, rs), mem_of_lookup hl, List.mem_map.mpr ⟨r, hr, rfl⟩⟩, rfl⟩
  · rintro n t n' t' ⟨r, hr, h1, rfl, rfl⟩ ⟨d, hd, h2, rfl, rfl⟩ h
    exact ((hl r hr).2 h1).2.2 d hd h2 h
  · rintro t ⟨r, hr, h1, h2, _⟩
    exact ((hl r hr).2 h1).1 h2
  · rintro n (rfl | ⟨r, hr, _, ⟨rest, e⟩ | ⟨h, rest, e⟩⟩) l hm
    · cases hm
    · exact (hl r hr).1 l (by rw [e]; exact List.mem_append_left _ hm)
    · exact ((hl r hr).2 h).2.1 l (by rw [e]; exact List.mem_append_left _ hm)
  · rw [hn]; intro f hf; cases hf

theorem dname_setting : Redirecting (contextOf dnameWorld) dnameWorld (recordsOf dnameWorld) dnameJob :=
  redirecting_of _ _ (wellFormed_of _ (by decide +kernel) (by decide +kernel) (by decide +kernel)) (by decide +kernel) (by decide +kernel)
    ⟨.A, by decide, by show Member dnameJob.types .A; unfold Member; decide⟩
    (fun f hf => by
      simp only [dnameJob, List.mem_cons, List.not_mem_nil, or_false] at hf
      rcases hf with rfl | rfl | rfl | rfl | rfl <;> first | trivial | (show _ ≠ []; simp)) rfl

/-- No rewriting is too long if none is in the graph built for the name. -/
theorem fits_of_check {w : World} (hr : Represents (contextOf w) w) (hw : WellFormed w) {m : Name} {ts : TypeSet} (hm : Short m)
    (h : (match buildIG 100 500 (contextOf w) (exactClass m ts) with
      | .ok g => decide (∀ v ∈ g.verts, Short v.query.name)
      | _ => false) = true) : Fits w ⟨m, ts, false⟩ := by
  cases hb : buildIG 100 500 (contextOf w) (exactClass m ts) with
  | ok g =>
    rw [hb] at h
    have h := of_decide_eq_true h
    intro x hx
    have hre : Reached w ⟨m, ts, false⟩ x.1 x.2 := by
      induction hx with
      | refl => exact .start
      | @tail y z _ hyz ih =>
        obtain ⟨sd, hst⟩ := hyz
        exact .step _ _ _ _ sd ih hst
    obtain ⟨v, h1, h2, h3⟩ := (C33_nodes _ w hr hw 500 100 (exactClass m ts) hm g hb x.1 x.2).mpr hre
    have h4 := h (g.vtx v) (by unfold IG.vtx; rw [List.getD_eq_getElem?_getD, List.getElem?_eq_getElem h1]; exact List.getElem_mem _)
    rw [← h3]; exact h4
  | _ => rw [hb] at h; cases h

/-- What the sample run reports about the names without a class of their own. -/
example : ∃ g ts vs, Driver.runSequential 300 500 (contextOf dnameWorld) (labelGraph 500 (recordsOf dnameWorld)) dnameJob = .ok (g, ts, vs) ∧
    (∀ v ∈ [Violation.hops "~{ }.a.com.".toList 1 0, .rewrites "~{ }.a.com.".toList 1 0, .rewrites "x.a.com.".toList 1 0,
      .blackhole "~{ }.a.com.".toList "~{ }.b.com.".toList "s.".toList,
      .queryRewrite "~{ }.a.com.".toList "~{ }.b.com.".toList "s.".toList "[a.com.]".toList], v ∈ vs) ∧
    ∀ v ∈ [Violation.rewrites "a.com.".toList 1 0, .blackhole "x.a.com.".toList "x.b.com.".toList "s.".toList], v ∉ vs := run_of_check (by decide +kernel)

/-- The name `u.v.a.com`, unknown even by way of the DNAME, meets the hypotheses. -/
example : InScope dnameJob (nm "u.v.a.com.") ∧ Fits dnameWorld ⟨nm "u.v.a.com.", dnameJob.types, false⟩ ∧
    StandsFor ((recordsOf dnameWorld).map (·.1)) { name := nm "a.com.", types := ~~~0, excluded := some [], nonExistent := true } (nm "u.v.a.com.") := by
  refine ⟨?_, fits_of_check dname_setting.represents dname_setting.wellFormed (by decide +kernel) (by decide +kernel), "v".toList, ["u".toList], by decide +kernel, ?_⟩
  · unfold InScope
    rw [if_pos (show dnameJob.subdomains = true from rfl)]
    exact ⟨by decide +kernel, by decide +kernel⟩
  · rintro ⟨k, hk⟩
    obtain ⟨N, es, i, h1, h2, h3, -, h5⟩ := C22_search 500 (recordsOf dnameWorld) (nm "u.v.a.com.")
    have hc : (match LGraph.closestEnclosers 100 (labelGraph 500 (recordsOf dnameWorld)) (nm "u.v.a.com.") with
      | .ok (_, es) => decide (∀ x ∈ es, x.2 = 2)
      | _ => false) = true := by decide +kernel
    cases hs : LGraph.closestEnclosers 100 (labelGraph 500 (recordsOf dnameWorld)) (nm "u.v.a.com.") with
    | ok r =>
      rw [hs] at hc
      have hc := of_decide_eq_true hc
      have he := mono_agree (f := fun n => LGraph.closestEnclosers n (labelGraph 500 (recordsOf dnameWorld)) (nm "u.v.a.com."))
        (fun n r => searchNode_mono n _ _ _ _ r) hs (h1 N (Nat.le_refl _))
      subst he
      obtain ⟨x, hx⟩ := List.exists_mem_of_ne_nil _ h2
      have e1 := h3 x hx
      have e2 := hc x hx
      have e3 : (nm "a.com.").length + 1 ≤ i := h5 _ _ hk
      have e4 : (nm "a.com.").length + 1 = 3 := by decide +kernel
      omega
    | _ => rw [hs] at hc; cases hc

end Groot
