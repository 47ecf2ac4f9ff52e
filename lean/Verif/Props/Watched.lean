import Verif.Lemmas.Recurs
import Verif.Lemmas.Watched
import Verif.Props.Delegation

/-!
# C83: verdicts about resolutions, for every sequence of steps; and aliases

C66 and C68 speak of complete resolutions.  Here: any sequence of steps that shows a problem is enough for a report (of the problem, or of a loop), and a
report is true of a whole resolution, without repetitions, of every name it is about (unless the resolution of that name goes in circles).
-/

namespace Groot
open Spec

section
variable {ctx : Context} {w : World} {xs : List (RR × Nat × Nat)} {job : Job}

/-- Which check makes which report. -/
def About : Violation → PathFn → Prop
  | .hops .., .hops _ => True
  | .rewrites .., .rewrites _ => True
  | .delegation .., .delegation => True
  | .infiniteDname .., .infiniteDname => True
  | .lame .., .lame => True
  | .queryRewrite .., .queryRewrite _ => True
  | .nsContact .., .nsContact _ => True
  | .blackhole .., .blackholing => True
  | .alias .., .allAliases _ => True
  | .dnameLength .., .dnameLength => True
  | _, _ => False

theorem reports_about {a0 : Ask} {tr : List Visit} {v : Violation} {f : PathFn} (h : Reports a0 tr v f) : About v f := by
  cases f <;> simp only [Reports] at h
  case hops => rw [h.2.2]; trivial
  case rewrites => obtain ⟨_, _, _, rfl⟩ := h; trivial
  case delegation => obtain ⟨_, _, _, _, _, _, _, _, ⟨_, rfl⟩ | ⟨_, rfl⟩⟩ := h <;> trivial
  case infiniteDname => obtain ⟨_, _, _, _, _, _, _, _, _, rfl⟩ := h; trivial
  case lame => obtain ⟨_, _, _, _, _, _, _, _, rfl⟩ := h; trivial
  case queryRewrite => obtain ⟨_, _, _, _, _, _, _, rfl⟩ := h; trivial
  case nsContact => obtain ⟨_, _, _, rfl⟩ := h; trivial
  case blackholing => obtain ⟨_, _, _, _, _, _, _, _, rfl⟩ := h; trivial
  case allAliases => obtain ⟨_, _, _, _, _, _, _, _, _, rfl⟩ := h; trivial
  case dnameLength => obtain ⟨_, _, _, _, rfl⟩ := h; trivial

/-- A class's resolution, seen from one of its names. -/
theorem Setting.watched (S : Setting ctx w xs job) {thr thr' fuel : Nat} {g' : LGraph} {ts : List Task} {vs : List Violation}
    (hrun : Driver.runSequential fuel thr ctx (labelGraph thr' xs) job = .ok (g', ts, vs)) {q : EC} (hq : q ∈ Spec.classes ts)
    {said : Str → Ask → List Answer} (ha : Answering w (ask q) said) {p : Trail} (hp : Examined w said (ask q) p)
    {m : Name} (hm : Stands (xs.map (·.1)) q m) (hs : Short m) :
    Circular w (question job (xs.map (·.1)) m) ∨ ∃ p', Watched w (question job (xs.map (·.1)) m) p' ∧ Mirrors w p' p ∧
      List.Forall₂ (fun x y => SameAsk q (question job (xs.map (·.1)) m) y.2.1 x.2.1) p' p := by
  obtain ⟨lb, rest, e, hf⟩ := member_of_stands S.wellFormed S.all S.noDname' hm hs
  have hqn : question job (xs.map (·.1)) m = (ask q).member lb rest := (S.asked hrun hq hm).1.trans e.symm
  rw [hqn]
  have hroute : Route w [] (ask q) p := hp.elim (·.route) (·.route)
  have hr := reached_route .start hroute
  have hroute' : Route w [] ((ask q).member lb rest) (narrow lb rest p) := C28_class_to_member w (ask q) lb rest hf p hroute
  by_cases hn : (visited ((ask q).member lb rest) (narrow lb rest p)).Nodup
  · right
    refine ⟨narrow lb rest p, ?_, mirrors_narrow hf hr, ?_⟩
    · rcases hp with hp | hp
      · refine .inl ⟨hroute', hn, ?_⟩
        rw [visited_narrow]
        intro x hx
        rw [List.getLast?_map] at hx
        cases hl : (visited (ask q) p).getLast? with
        | none => rw [hl] at hx; cases hx
        | some y =>
          rw [hl] at hx
          simp at hx
          subst hx
          intro s' a' sd hst
          have hre : Reached w (ask q) y.1 y.2 := by
            have hy := List.mem_of_getLast? hl
            unfold visited at hy
            rcases List.mem_cons.mp hy with rfl | hy
            · exact .start
            · obtain ⟨z, hz, rfl⟩ := List.mem_map.mp hy
              exact hr z hz
          obtain ⟨b, _, h2⟩ := step_of_member (hf.good hre) (hf.good' hre) hst
          exact hp.ended y hl _ _ _ h2
      · refine .inr ⟨hroute', (List.dropLast_sublist _).nodup hn, ?_⟩
        obtain ⟨x, h1, h2⟩ := hp.ended
        unfold transcript at h1
        obtain ⟨pre, ⟨s, a, sd⟩, rfl, rfl⟩ := getLast?_map_some h1
        have hre := hr (s, a, sd) (by simp)
        have hs0 := route_server S.wellFormed hroute (s, a, sd) (by simp)
        refine ⟨s, a.member lb rest, sd, said s a, by simp [narrow], (says_member (hf.good hre) _ _).mp (ha s a hre hs0), h2.1, h2.2.1, ?_⟩
        have : (a.member lb rest).types = a.types := by unfold Ask.member; split <;> rfl
        show Member (a.member lb rest).types .CNAME
        rw [this]; exact h2.2.2
    · unfold narrow
      have : ∀ (l : Trail), (∀ x ∈ l, Reached w (ask q) x.1 x.2.1) →
          List.Forall₂ (fun x y => SameAsk q ((ask q).member lb rest) y.2.1 x.2.1) (l.map (fun x => (x.1, x.2.1.member lb rest, x.2.2))) l := by
        intro l
        induction l with
        | nil => exact fun _ => .nil
        | cons x l ih =>
          intro hl
          refine .cons ?_ (ih (fun y hy => hl y (List.mem_cons_of_mem _ hy)))
          have hx := hl x List.mem_cons_self
          dsimp only
          cases hb : x.2.1.below with
          | false => left; rw [member_exact hb]
          | true =>
            right
            have := below_same S.noDnameW hx hb
            exact ⟨this, by rw [this]⟩
      exact this p hr
  · exact .inl (circular_of_repeat hroute' hn)

/-- Where a report about a resolution comes from. -/
theorem Setting.watched_source (S : Setting ctx w xs job) {thr thr' fuel : Nat} {g' : LGraph} {ts : List Task} {vs : List Violation}
    (hrun : Driver.runSequential fuel thr ctx (labelGraph thr' xs) job = .ok (g', ts, vs)) {v : Violation} (hv : v ∈ vs) (hab : AboutPath v) :
    ∃ f ∈ job.pathFns, ∃ q ∈ classes ts, ∃ said p, (∀ x ∈ p, Says w x.1 x.2.1 (said x.1 x.2.1)) ∧ Route w [] (ask q) p ∧
      Reports (ask q) (transcript said p) v f ∧ ∀ m, Stands (xs.map (·.1)) q m → Short m →
        Circular w (question job (xs.map (·.1)) m) ∨ ∃ p', Watched w (question job (xs.map (·.1)) m) p' ∧ Mirrors w p' p ∧
          List.Forall₂ (fun x y => SameAsk q (question job (xs.map (·.1)) m) y.2.1 x.2.1) p' p := by
  obtain ⟨q, hq, cs, g, l, st, hP, _, hv⟩ := S.source hrun hv (by rintro _ _ rfl; exact hab)
  obtain ⟨f, hf, p, hp, hrep⟩ := (hP.pathOutcome S.wellFormed S.pathFns).sound _ hv hab
  have hA := answering_saidBy hP.inv
  have hroute : Route w [] (ask q) p := hp.elim (·.route) (·.route)
  refine ⟨f, hf, q, hq, saidBy g, p, ?_, hroute, hrep, fun m hm hs => S.watched hrun hq hA hp hm hs⟩
  exact fun x hx => hA _ _ (reached_route .start hroute x hx) (route_server S.wellFormed hroute x hx)

/-- Resolution for the types of the job goes on to an end, or a loop is reported. -/
theorem Setting.completes (S : Setting ctx w xs job) {thr thr' fuel : Nat} {g' : LGraph} {ts : List Task} {vs : List Violation}
    (hrun : Driver.runSequential fuel thr ctx (labelGraph thr' xs) job = .ok (g', ts, vs)) {m : Name} (hm : InScope job m) (hs : Short m)
    {p : Trail} (hp : Route w [] ⟨m, job.types, false⟩ p) :
    (∃ ns, .loop ns ∈ vs) ∨ ∃ p', Complete w ⟨m, job.types, false⟩ (p ++ p') := by
  by_cases hc : Circular w ⟨m, job.types, false⟩
  · exact .inl (C67_loops_complete S hrun hm hs hc)
  · exact .inr (route_completes S.represents S.wellFormed hs (other_ne S.types) hc hp)

/-! ### Any sequence of steps that shows a problem is enough -/

/-- **C83** If, while a name of the job is resolved, more servers are contacted than allowed — at whatever point — this is reported, or a loop is. -/
theorem C83_hops_any (S : Setting ctx w xs job) {thr thr' fuel : Nat} {g' : LGraph} {ts : List Task} {vs : List Violation}
    (hrun : Driver.runSequential fuel thr ctx (labelGraph thr' xs) job = .ok (g', ts, vs))
    {n : Int} (hf : PathFn.hops n ∈ job.pathFns) (h0 : 0 ≤ n) {m : Name} (hm : InScope job m) (hs : Short m)
    {p : Trail} (hp : Route w [] ⟨m, job.types, false⟩ p) (hn : n < hopsOf p) :
    (∃ ns, .loop ns ∈ vs) ∨ ∃ q ∈ classes ts, Stands (xs.map (·.1)) q m ∧ ∃ k, hopsOf p ≤ k ∧ .hops (showQuery q) k n ∈ vs := by
  rcases S.completes hrun hm hs hp with h | ⟨p', h⟩
  · exact .inl h
  · right
    have hle := hopsOf_le p p'
    obtain ⟨q, hq, hst, hv⟩ := C66_hops_complete S hrun hf h0 hm hs h (by omega)
    exact ⟨q, hq, hst, _, hle, hv⟩

/-- **C83** The same for the number of times a question is rewritten. -/
theorem C83_rewrites_any (S : Setting ctx w xs job) {thr thr' fuel : Nat} {g' : LGraph} {ts : List Task} {vs : List Violation}
    (hrun : Driver.runSequential fuel thr ctx (labelGraph thr' xs) job = .ok (g', ts, vs))
    {n : Int} (hf : PathFn.rewrites n ∈ job.pathFns) {m : Name} (hm : InScope job m) (hs : Short m)
    {p : Trail} (hp : Route w [] ⟨m, job.types, false⟩ p) (hn : n < rewritesOf w p) :
    (∃ ns, .loop ns ∈ vs) ∨ ∃ q ∈ classes ts, Stands (xs.map (·.1)) q m ∧ ∃ k, rewritesOf w p ≤ k ∧ .rewrites (showQuery q) k n ∈ vs := by
  rcases S.completes hrun hm hs hp with h | ⟨p', h⟩
  · exact .inl h
  · right
    have hle := rewritesOf_le w p p'
    obtain ⟨q, hq, hst, hv⟩ := C66_rewrites_complete S hrun hf hm hs h (by omega)
    exact ⟨q, hq, hst, _, hle, hv⟩

/-- **C83** The same for rewriting to a name outside the allowed domains. -/
theorem C83_rewrite_any (S : Setting ctx w xs job) {thr thr' fuel : Nat} {g' : LGraph} {ts : List Task} {vs : List Violation}
    (hrun : Driver.runSequential fuel thr ctx (labelGraph thr' xs) job = .ok (g', ts, vs))
    {d : List Name} (hf : PathFn.queryRewrite d ∈ job.pathFns) {m : Name} (hm : InScope job m) (hs : Short m)
    {p : Trail} (hp : Route w [] ⟨m, job.types, false⟩ p) {sv : Str} (hb : RewrittenAway w d p sv) :
    (∃ ns, .loop ns ∈ vs) ∨ ∃ a b, .queryRewrite a b sv (printList d) ∈ vs := by
  rcases S.completes hrun hm hs hp with h | ⟨p', h⟩
  · exact .inl h
  · exact .inr (C68_rewrite_complete S hrun hf hm hs h (hb.append p'))

/-- A denial is the only answer of a server. -/
theorem denial_alone {w : World} {s : Str} {a : Ask} {x : Answer} {as : List Answer} (h : Says w s a (x :: as)) (ht : x.tag = .NX) : as = [] := by
  generalize e : x :: as = l at h
  cases h with
  | tooLong => injection e
  | refused => injection e
  | unknown => injection e
  | zone id as' _ _ hR =>
    cases hR with
    | referral => injection e
    | dname => injection e
    | cname => injection e
    | nx => injection e
    | data =>
      exfalso
      have hx : x ∈ x :: as := List.mem_cons_self
      rw [e] at hx
      unfold dataAnswers at hx
      rcases List.mem_append.mp hx with hx | hx
      · split at hx
        · cases hx
        · rw [List.mem_singleton.mp hx] at ht; cases ht
      · split at hx
        · cases hx
        · rw [List.mem_singleton.mp hx] at ht; cases ht

/-- Nothing follows a denial. -/
theorem denial_stops {w : World} {s : Str} {a : Ask} (hs : s ≠ []) (hk : Kind w s a .NX) {s' : Str} {a' : Ask} {sd : Option Ask} : ¬ Step w s a s' a' sd := by
  obtain ⟨x, as, hsays, ht⟩ := hk
  have hd : ∀ {as'}, Says w s a as' → as' = [x] := by
    intro as' h'
    rw [← says_determined hsays h' (by simp [ht]) (by simp [ht]), denial_alone hsays ht]
  intro h
  cases h with
  | top => exact hs rfl
  | rewriteHere _ _ as' y r _ _ h1 h2 h3 =>
    rw [hd h1] at h2
    rw [List.mem_singleton.mp h2, ht] at h3
    cases h3
  | rewriteTop _ _ as' y r _ _ _ h1 h2 h3 =>
    rw [hd h1] at h2
    rw [List.mem_singleton.mp h2, ht] at h3
    cases h3
  | referral _ _ as' y r _ _ h1 h2 h3 =>
    rw [hd h1] at h2
    rw [List.mem_singleton.mp h2, ht] at h3
    cases h3

/-- A route that ends in a denial cannot be continued. -/
theorem blackholed_stops {w : World} (hw : WellFormed w) {a : Ask} {p p' : Trail} (h : Route w [] a (p ++ p')) {s : Str} (hb : Blackholed w p s) : p' = [] := by
  obtain ⟨pre, y, rfl, -, hk, -⟩ := hb
  rw [List.append_assoc, List.singleton_append] at h
  have hy := route_server hw h y (by simp)
  have h1 := route_append h
  cases h1 with
  | done => rfl
  | step _ _ s' a' sd q hs hr => exact absurd hs (denial_stops hy hk)

/-- **C83** The same for rewriting followed by a denial. -/
theorem C83_blackhole_any (S : Setting ctx w xs job) {thr thr' fuel : Nat} {g' : LGraph} {ts : List Task} {vs : List Violation}
    (hrun : Driver.runSequential fuel thr ctx (labelGraph thr' xs) job = .ok (g', ts, vs))
    (hf : PathFn.blackholing ∈ job.pathFns) {m : Name} (hm : InScope job m) (hs : Short m)
    {p : Trail} (hp : Route w [] ⟨m, job.types, false⟩ p) {sv : Str} (hb : Blackholed w p sv) :
    (∃ ns, .loop ns ∈ vs) ∨ ∃ a b, .blackhole a b sv ∈ vs := by
  rcases S.completes hrun hm hs hp with h | ⟨p', h⟩
  · exact .inl h
  · rw [blackholed_stops S.wellFormed h.route hb, List.append_nil] at h
    exact .inr (C68_blackhole_complete S hrun hf hm hs h hb)

/-- **C83** The same for contacting a server outside the allowed domains. -/
theorem C83_contact_any (S : Setting ctx w xs job) {thr thr' fuel : Nat} {g' : LGraph} {ts : List Task} {vs : List Violation}
    (hrun : Driver.runSequential fuel thr ctx (labelGraph thr' xs) job = .ok (g', ts, vs))
    {d : List Name} (hf : PathFn.nsContact d ∈ job.pathFns) {m : Name} (hm : InScope job m) (hs : Short m)
    {p : Trail} (hp : Route w [] ⟨m, job.types, false⟩ p) {sv : Str} (hb : ContactedAway d p sv) :
    (∃ ns, .loop ns ∈ vs) ∨ ∃ a, .nsContact a sv (printList d) ∈ vs := by
  rcases S.completes hrun hm hs hp with h | ⟨p', h⟩
  · exact .inl h
  · exact .inr (C68_contact_complete S hrun hf hm hs h (hb.append p'))

theorem Spec.Revisits.append {w : World} {p p' : Trail} (h : Revisits w p) : Revisits w (p ++ p') := by
  obtain ⟨pre, x, mid, y, post, r, r', rfl, h⟩ := h
  exact ⟨pre, x, mid, y, post ++ p', r, r', by simp, h⟩

theorem infinite_complete {w : World} {job : Job} (hw : WellFormed w) (hty : AsksOther job.types) (hpf : ∀ f ∈ job.pathFns, f.Configured)
    (hf : PathFn.infiniteDname ∈ job.pathFns) {q : EC} (hq : q.types = job.types ∨ q.types = ~~~0) {m : Name}
    {lb : Label} {rest : Name} (e : (ask q).member lb rest = ⟨m, q.types, false⟩) (hfr : Fresh w (ask q) lb rest) {p : Trail}
    (hc : Complete w ⟨m, job.types, false⟩ p) (hr : Revisits w p) {vs vs' : List Violation} {g : IG} {l : Option Violation} {st : IG.Enum}
    (hP : Processed w job.pathFns job.nodeFns q vs' g l st) (hsub : ∀ v ∈ vs', v ∈ vs) : ∃ a b used, .infiniteDname a b used ∈ vs := by
  obtain ⟨p2, hc2, hm2⟩ := complete_of_fresh hty hq e hfr hc
  obtain ⟨pre, x, mid, y, post, r, r', hp, hx, hy, hk, hl⟩ := hr
  obtain ⟨pre2, x2, mid2, y2, post2, hp2, hx2, hy2, hl2⟩ := pair_of_member hc2.route hm2 hp hx hy hl
  have hA := answering_saidBy hP.inv
  obtain ⟨a, b, used, hrep⟩ := reports_of_pair (said := saidBy g) (fun x hx => hA _ _ (reached_route .start hc2.route x hx) (route_server hw hc2.route x hx))
    (ask q) hp2 hx2 hy2 hk hl2
  obtain ⟨v', hv', hal⟩ := (hP.pathOutcome hw hpf).complete _ hf _ (.inl hc2) _ hrep
  rcases hal with rfl | ⟨n, m', us, us', -, rfl, -⟩
  · exact ⟨_, _, _, hsub _ hv'⟩
  · exact ⟨_, _, _, hsub _ hv'⟩

theorem yx_long {w : World} {s : Str} {a : Ask} (h : Kind w s a .YX) : ¬ Short a.name := by
  obtain ⟨x, as, h, ht⟩ := h
  cases h with
  | tooLong h => exact h
  | refused => cases ht
  | unknown => cases ht
  | zone id _ _ _ hR => exact absurd ht (reply_not_yx hR _ List.mem_cons_self)

theorem long_stops {w : World} {s : Str} {a : Ask} (hs : s ≠ []) (hl : ¬ Short a.name) {s' : Str} {a' : Ask} {sd : Option Ask} : ¬ Step w s a s' a' sd := by
  have hd : ∀ {as' : List Answer}, Says w s a as' → ∀ x ∈ as', x.tag = .YX := by
    intro as' h' x hx
    cases h' with
    | tooLong => rw [List.mem_singleton.mp hx]
    | refused h => exact absurd h hl
    | unknown h => exact absurd h hl
    | zone id _ h => exact absurd h hl
  intro h
  cases h with
  | top => exact hs rfl
  | rewriteHere _ _ as' y r _ _ h1 h2 h3 => rw [hd h1 _ h2] at h3; cases h3
  | rewriteTop _ _ as' y r _ _ _ h1 h2 h3 => rw [hd h1 _ h2] at h3; cases h3
  | referral _ _ as' y r _ _ h1 h2 h3 => rw [hd h1 _ h2] at h3; cases h3

/-- **C83** If resolving some name of the job ends with the error that a name is too long, this is reported — or a loop is. -/
theorem C83_too_long_any (S : Setting ctx w xs job) {thr thr' fuel : Nat} {g' : LGraph} {ts : List Task} {vs : List Violation}
    (hrun : Driver.runSequential fuel thr ctx (labelGraph thr' xs) job = .ok (g', ts, vs))
    (hf : PathFn.dnameLength ∈ job.pathFns) {m : Name} (hm : InScope job m) (hs : Short m)
    {p : Trail} {y : Str × Ask × Option Ask} (hp : Route w [] ⟨m, job.types, false⟩ (p ++ [y])) (hk : Kind w y.1 y.2.1 .YX) :
    (∃ ns, .loop ns ∈ vs) ∨ ∃ a b, .dnameLength a b y.1 ∈ vs := by
  rcases S.completes hrun hm hs hp with h | ⟨p', hcomp⟩
  · exact .inl h
  right
  have hroute := hcomp.route
  rw [List.append_assoc, List.singleton_append] at hroute
  have hy := route_server S.wellFormed hroute y (by simp)
  have : p' = [] := by
    cases route_append hroute with
    | done => rfl
    | step _ _ s' a' sd q hs hr => exact absurd hs (long_stops hy (yx_long hk))
  rw [this, List.append_nil] at hcomp
  obtain ⟨q, hq, hst⟩ := S.covered hrun m hm
  obtain ⟨hqt, vs', g, l, st, hP, hsub, hB⟩ := S.class_run hrun q hq
  obtain ⟨p2, hc2, hmir⟩ := (hB m hst hs).complete _ hcomp
  obtain ⟨pre2, r2, rfl, -, hm2⟩ := forall₂_split' hmir
  cases hm2 with
  | @cons _ y2 _ r3 hy2 hm3 =>
  cases hm3
  have hA := answering_saidBy hP.inv
  have hsy := hA _ _ (reached_route .start hc2.route y2 (by simp)) (route_server S.wellFormed hc2.route y2 (by simp))
  obtain ⟨v', hv', hal'⟩ := (hP.pathOutcome S.wellFormed S.pathFns).complete _ hf _ (.inl hc2) (.dnameLength (showAsk (ask q)) (showAsk y2.2.1) y2.1)
    ⟨transcript (saidBy g) pre2, ⟨y2.1, y2.2.1, saidBy g y2.1 y2.2.1⟩, by simp [transcript],
      (tells_iff hsy (by simp) (by simp)).mpr ((hy2.2.1 _).mp hk), rfl⟩
  rw [alike_plain hal' (fun _ _ _ e => nomatch e), ← hy2.1] at hv'
  exact ⟨_, _, hsub _ hv'⟩

/-- **C83** If while some name of the job is resolved two questions are rewritten with the same record, the second name at least as long, this is
reported — or a loop is. -/
theorem C83_infinite_any (S : Setting ctx w xs job) {thr thr' fuel : Nat} {g' : LGraph} {ts : List Task} {vs : List Violation}
    (hrun : Driver.runSequential fuel thr ctx (labelGraph thr' xs) job = .ok (g', ts, vs))
    (hf : PathFn.infiniteDname ∈ job.pathFns) {m : Name} (hm : InScope job m) (hs : Short m)
    {p : Trail} (hp : Route w [] ⟨m, job.types, false⟩ p) (hr : Revisits w p) :
    (∃ ns, .loop ns ∈ vs) ∨ ∃ a b used, .infiniteDname a b used ∈ vs := by
  rcases S.completes hrun hm hs hp with h | ⟨p', hcomp⟩
  · exact .inl h
  right
  obtain ⟨q, hq, hst⟩ := S.covered hrun m hm
  obtain ⟨hqt, vs', g, l, st, hP, hsub, -⟩ := S.class_run hrun q hq
  obtain ⟨lb, rest, e, hfr⟩ := member_of_stands S.wellFormed S.all S.noDname' hst hs
  exact infinite_complete S.wellFormed S.types S.pathFns hf hqt e hfr hcomp hr.append hP hsub

/-! ### Reports are true of whole resolutions -/

/-- **C83** A report of too many hops is true of every name the class stands for: its resolution takes that many, without repeating itself (or goes in
circles). -/
theorem C83_hops_true (S : Setting ctx w xs job) {thr thr' fuel : Nat} {g' : LGraph} {ts : List Task} {vs : List Violation}
    (hrun : Driver.runSequential fuel thr ctx (labelGraph thr' xs) job = .ok (g', ts, vs)) {nm : Str} {k : Nat} {n : Int} (hv : .hops nm k n ∈ vs) :
    ∃ q ∈ classes ts, nm = showQuery q ∧ ∀ m, Stands (xs.map (·.1)) q m → Short m → Circular w (question job (xs.map (·.1)) m) ∨
      ∃ p, Watched w (question job (xs.map (·.1)) m) p ∧ hopsOf p = k := by
  obtain ⟨f, hf, q, hq, said, p, hsay, hroute, hrep, hall⟩ := S.watched_source hrun hv trivial
  cases f with
  | hops n' =>
    obtain ⟨_, _, e⟩ := hrep
    injection e with e1 e2 e3
    refine ⟨q, hq, e1.trans (toStr_of_ask (ask_ec _)), fun m hm hs => (hall m hm hs).imp id ?_⟩
    rintro ⟨p', h1, h2, _⟩
    exact ⟨p', h1, by rw [h2.hops, e2, hops_transcript]⟩
  | _ => exact (reports_about hrep).elim

/-- **C83** Likewise for rewritings. -/
theorem C83_rewrites_true (S : Setting ctx w xs job) {thr thr' fuel : Nat} {g' : LGraph} {ts : List Task} {vs : List Violation}
    (hrun : Driver.runSequential fuel thr ctx (labelGraph thr' xs) job = .ok (g', ts, vs)) {nm : Str} {k : Nat} {n : Int} (hv : .rewrites nm k n ∈ vs) :
    ∃ q ∈ classes ts, nm = showQuery q ∧ ∀ m, Stands (xs.map (·.1)) q m → Short m → Circular w (question job (xs.map (·.1)) m) ∨
      ∃ p, Watched w (question job (xs.map (·.1)) m) p ∧ rewritesOf w p = k := by
  obtain ⟨f, hf, q, hq, said, p, hsay, hroute, hrep, hall⟩ := S.watched_source hrun hv trivial
  cases f with
  | rewrites n' =>
    obtain ⟨k', hk', _, e⟩ := hrep
    injection e with e1 e2 e3
    refine ⟨q, hq, e1.trans (toStr_of_ask (ask_ec _)), fun m hm hs => (hall m hm hs).imp id ?_⟩
    rintro ⟨p', h1, h2, _⟩
    exact ⟨p', h1, by rw [h2.rewrites, e2, hk', rewrites_transcript hsay]⟩
  | _ => exact (reports_about hrep).elim

/-- **C83** Likewise for rewriting followed by a denial. -/
theorem C83_blackhole_true (S : Setting ctx w xs job) {thr thr' fuel : Nat} {g' : LGraph} {ts : List Task} {vs : List Violation}
    (hrun : Driver.runSequential fuel thr ctx (labelGraph thr' xs) job = .ok (g', ts, vs)) {a b sv : Str} (hv : .blackhole a b sv ∈ vs) :
    ∃ q ∈ classes ts, ∀ m, Stands (xs.map (·.1)) q m → Short m → Circular w (question job (xs.map (·.1)) m) ∨
      ∃ p, Watched w (question job (xs.map (·.1)) m) p ∧ Blackholed w p sv := by
  obtain ⟨f, hf, q, hq, said, p, hsay, hroute, hrep, hall⟩ := S.watched_source hrun hv trivial
  cases f with
  | blackholing =>
    obtain ⟨pre, x, mid, y, htr, hx, _, hy, e⟩ := hrep
    injection e with _ _ e3
    refine ⟨q, hq, fun m hm hs => (hall m hm hs).imp id ?_⟩
    rintro ⟨p', h1, h2, _⟩
    refine ⟨p', h1, (h2.blackholed sv).mpr ?_⟩
    unfold transcript at htr
    obtain ⟨l1, l2, rfl, e1, e2⟩ := List.map_eq_append_iff.mp htr
    obtain ⟨y', rfl⟩ : ∃ y', l2 = [y'] := by
      cases l2 with
      | nil => simp at e2
      | cons y' l2 =>
        cases l2 with
        | nil => exact ⟨y', rfl⟩
        | cons z l2 => simp at e2
    obtain ⟨l3, l4, rfl, e3', e4⟩ := List.map_eq_append_iff.mp e1
    obtain ⟨x', l5, rfl, e5, e6⟩ := List.map_eq_cons_iff.mp e4
    simp at e2
    subst e5 e2
    exact ⟨l3 ++ x' :: l5, y', rfl, ⟨x', by simp, (tells_iff (hsay x' (by simp)) (by simp) (by simp)).mp hx⟩,
      (tells_iff (hsay y' (by simp)) (by simp) (by simp)).mp hy, e3.symm⟩
  | _ => exact (reports_about hrep).elim

/-- **C83** Likewise for rewriting to a name outside the allowed domains. -/
theorem C83_rewrite_true (S : Setting ctx w xs job) {thr thr' fuel : Nat} {g' : LGraph} {ts : List Task} {vs : List Violation}
    (hrun : Driver.runSequential fuel thr ctx (labelGraph thr' xs) job = .ok (g', ts, vs)) {a b sv al : Str} (hv : .queryRewrite a b sv al ∈ vs) :
    ∃ d, PathFn.queryRewrite d ∈ job.pathFns ∧ al = printList d ∧ ∃ q ∈ classes ts, ∀ m, Stands (xs.map (·.1)) q m → Short m →
      Circular w (question job (xs.map (·.1)) m) ∨ ∃ p, Watched w (question job (xs.map (·.1)) m) p ∧ RewrittenAway w d p sv := by
  obtain ⟨f, hf, q, hq, said, p, hsay, hroute, hrep, hall⟩ := S.watched_source hrun hv trivial
  cases f with
  | queryRewrite d =>
    obtain ⟨pre, x, y, post, htr, hx, ho, e⟩ := hrep
    injection e with _ _ e3 e4
    refine ⟨d, hf, e4, q, hq, fun m hm hs => (hall m hm hs).imp id ?_⟩
    rintro ⟨p', h1, h2, _⟩
    refine ⟨p', h1, (h2.away S.wellFormed S.noDnameW hroute d sv).mpr ?_⟩
    obtain ⟨p1, sd, sd', p2, rfl, e5, e6⟩ := transcript_pair htr
    have h3 := hsay (x.server, x.ask, sd) (by simp)
    refine ⟨p1, _, _, p2, rfl, e3.symm, ?_, ho⟩
    rw [← e5] at h3
    exact (tells_iff h3 (by simp) (by simp)).mp hx
  | _ => exact (reports_about hrep).elim

/-- **C83** Likewise for contacting a server outside the allowed domains. -/
theorem C83_contact_true (S : Setting ctx w xs job) {thr thr' fuel : Nat} {g' : LGraph} {ts : List Task} {vs : List Violation}
    (hrun : Driver.runSequential fuel thr ctx (labelGraph thr' xs) job = .ok (g', ts, vs)) {a sv al : Str} (hv : .nsContact a sv al ∈ vs) :
    ∃ d, PathFn.nsContact d ∈ job.pathFns ∧ al = printList d ∧ ∃ q ∈ classes ts, ∀ m, Stands (xs.map (·.1)) q m → Short m →
      Circular w (question job (xs.map (·.1)) m) ∨ ∃ p, Watched w (question job (xs.map (·.1)) m) p ∧ ContactedAway d p sv := by
  obtain ⟨f, hf, q, hq, said, p, hsay, hroute, hrep, hall⟩ := S.watched_source hrun hv trivial
  cases f with
  | nsContact d =>
    obtain ⟨x, hx, ho, e⟩ := hrep
    injection e with _ e3 e4
    refine ⟨d, hf, e4, q, hq, fun m hm hs => (hall m hm hs).imp id ?_⟩
    rintro ⟨p', h1, h2, _⟩
    refine ⟨p', h1, (h2.contact d sv).mpr ?_⟩
    unfold transcript at hx
    obtain ⟨y, hy, rfl⟩ := List.mem_map.mp hx
    exact ⟨y, hy, e3.symm, e3 ▸ ho⟩
  | _ => exact (reports_about hrep).elim

/-! ### Aliases -/

/-- Steps do not lead from a single name to a class of names. -/
theorem step_exact (hd : ∀ id, ∀ r ∈ w.log id, r.type ≠ .DNAME) {s s' : Str} {a a' : Ask} {sd : Option Ask} (h : Step w s a s' a' sd)
    (hb : a.below = false) : a'.below = false := by
  cases h with
  | top => exact hb
  | referral => exact hb
  | rewriteHere _ _ as x r _ _ h1 h2 h3 h4 h5 =>
    obtain ⟨id, hid⟩ := says_records h1 h2 h3 h4
    cases hb : a'.below with
    | false => rfl
    | true => exact absurd (below_rewritten h5 hb) (hd id r hid)
  | rewriteTop _ _ as x r _ _ _ h1 h2 h3 h4 h5 =>
    obtain ⟨id, hid⟩ := says_records h1 h2 h3 h4
    cases hb : a'.below with
    | false => rfl
    | true => exact absurd (below_rewritten h5 hb) (hd id r hid)

theorem route_exact (hd : ∀ id, ∀ r ∈ w.log id, r.type ≠ .DNAME) {s : Str} {a : Ask} {p : Trail} (h : Route w s a p) (hb : a.below = false) :
    ∀ x ∈ p, x.2.1.below = false := by
  induction h with
  | done => intro x hx; cases hx
  | step s a s' a' sd p h1 _ ih =>
    have := step_exact hd h1 hb
    intro x hx
    rcases List.mem_cons.mp hx with rfl | hx
    · exact this
    · exact ih this x hx

/-- After a rewriting all questions are for single names. -/
theorem exact_after (hw : WellFormed w) (hd : ∀ id, ∀ r ∈ w.log id, r.type ≠ .DNAME) {a : Ask} {pre : Trail} {x : Str × Ask × Option Ask} {post : Trail}
    (h : Route w [] a (pre ++ x :: post)) (hk : Kind w x.1 x.2.1 .REWRITE) : ∀ y ∈ post, y.2.1.below = false := by
  have hx := route_server hw h x (by simp)
  have h1 := route_append h
  cases h1 with
  | done => intro y hy; cases hy
  | step _ _ s' a' sd p hs hr =>
    have hb := after_rewrite hd hx hk hs
    intro y hy
    rcases List.mem_cons.mp hy with rfl | hy
    · exact hb
    · exact route_exact hd hr hb y hy

theorem kind_of_mem {s : Str} {a : Ask} {as : List Answer} (h : Says w s a as) {x : Answer} (hx : x ∈ as) (ht : x.tag = .REWRITE) :
    Kind w s a .REWRITE := by
  rw [rewrite_alone h hx ht] at h
  exact ⟨x, [], h, ht⟩

/-- Before the first rewriting the question is the initial one. -/
theorem same_before (hw : WellFormed w) {s : Str} {a : Ask} {pre : Trail} {x : Str × Ask × Option Ask} {post : Trail} (h : Route w s a (pre ++ x :: post))
    (hs : s = [] ∨ ¬ Kind w s a .REWRITE) (hpre : ∀ y ∈ pre, ¬ Kind w y.1 y.2.1 .REWRITE) : x.2.1 = a := by
  have one : ∀ {s s' : Str} {a a' : Ask} {sd : Option Ask}, (s = [] ∨ ¬ Kind w s a .REWRITE) → Step w s a s' a' sd → a' = a := by
    intro s s' a a' sd hs h
    cases h with
    | top => rfl
    | referral => rfl
    | rewriteHere _ _ as x r _ h0 h1 h2 h3 h4 h5 =>
      rcases hs with hs | hs
      · exact absurd hs h0
      · exact absurd (kind_of_mem h1 h2 h3) hs
    | rewriteTop _ _ as x r _ _ h0 h1 h2 h3 h4 h5 =>
      rcases hs with hs | hs
      · exact absurd hs h0
      · exact absurd (kind_of_mem h1 h2 h3) hs
  induction pre generalizing s a with
  | nil => cases h with | step _ _ _ _ _ _ h1 _ => exact one hs h1
  | cons y pre ih =>
    cases h with
    | step _ _ s' a' sd _ h1 h2 =>
      have := ih h2 (.inr (hpre _ List.mem_cons_self)) (fun z hz => hpre z (List.mem_cons_of_mem _ hz))
      rw [this]; exact one hs h1

/-- **C83** If, while a name of the job is resolved, a question for a name `k` is rewritten and later one for a listed name `n` is asked, the run lists `k`
(or, if `k` is the name itself, its class) as an alias of `n` — or reports a loop. -/
theorem C83_alias_complete (S : Setting ctx w xs job) {thr thr' fuel : Nat} {g' : LGraph} {ts : List Task} {vs : List Violation}
    (hrun : Driver.runSequential fuel thr ctx (labelGraph thr' xs) job = .ok (g', ts, vs))
    {cs : List Name} (hf : PathFn.allAliases cs ∈ job.pathFns) {m : Name} (hm : InScope job m) (hs : Short m)
    {p : Trail} (hp : Route w [] ⟨m, job.types, false⟩ p) {k n : Name} (hal : Aliased w k n p) (hn : n ∈ cs) :
    (∃ ns, .loop ns ∈ vs) ∨ ∃ q ∈ classes ts, Stands (xs.map (·.1)) q m ∧ ∃ al, .alias al (present n) ∈ vs ∧
      (al = present k ∨ k = m ∧ al = showQuery q) := by
  rcases S.completes hrun hm hs hp with h | ⟨p', hcomp⟩
  · exact .inl h
  right
  obtain ⟨q, hq, hst⟩ := S.covered hrun m hm
  obtain ⟨hqt, vs', g, l, st, hP, hsub, hB⟩ := S.class_run hrun q hq
  obtain ⟨p2, hc2, hmir⟩ := (hB m hst hs).complete _ hcomp
  obtain ⟨pre, x, mid, y, post, e, hk, hxk, hyn⟩ := hal.append p'
  rw [e] at hmir hcomp
  rw [List.append_assoc] at hmir
  obtain ⟨pre2, r2, rfl, hm1, hm2⟩ := forall₂_split' hmir
  cases hm2 with
  | @cons _ x2 _ r3 hx hm3 =>
  obtain ⟨mid2, r4, rfl, hm4, hm5⟩ := forall₂_split' hm3
  cases hm5 with
  | @cons _ y2 _ post2 hy hm6 =>
  have hk2 := (hx.2.1 _).mp hk
  have hyb := exact_after S.wellFormed S.noDnameW hc2.route hk2 y2 (by simp)
  have hA := answering_saidBy hP.inv
  have hsx := hA _ _ (reached_route .start hc2.route x2 (by simp)) (route_server S.wellFormed hc2.route x2 (by simp))
  have hname := hy.2.2.1 hyb
  have hexact : ∀ (a : Ask), a.below = false → showAsk a = present a.name := by
    intro a ha; unfold showAsk showQuery Ask.ec; rw [ha]; rfl
  obtain ⟨v', hv', hal'⟩ := (hP.pathOutcome S.wellFormed S.pathFns).complete _ hf _ (.inl hc2) (.alias (showAsk x2.2.1) (showAsk y2.2.1))
    ⟨transcript (saidBy g) pre2, ⟨x2.1, x2.2.1, saidBy g x2.1 x2.2.1⟩, transcript (saidBy g) mid2, ⟨y2.1, y2.2.1, saidBy g y2.1 y2.2.1⟩,
      transcript (saidBy g) post2, by simp [transcript], (tells_iff hsx (by simp) (by simp)).mpr hk2, by rw [← hname, hyn]; exact hn, hyb, rfl⟩
  rw [alike_plain hal' (fun _ _ _ e => nomatch e), hexact _ hyb, ← hname, hyn] at hv'
  refine ⟨q, hq, hst, _, hsub _ hv', ?_⟩
  cases hxb : x2.2.1.below with
  | false =>
    left
    rw [hexact _ hxb, ← hx.2.2.1 hxb, hxk]
  | true =>
    right
    have hsame := below_same S.noDnameW (reached_route .start hc2.route x2 (by simp)) hxb
    refine ⟨?_, by rw [hsame]; exact toStr_of_ask (ask_ec _)⟩
    have hnone : ∀ z ∈ pre, ¬ Kind w z.1 z.2.1 .REWRITE := by
      intro z hz hkz
      obtain ⟨z2, hz2, hr⟩ := forall₂_mem' hm1 hz
      obtain ⟨u, v, rfl⟩ := List.append_of_mem hz2
      have hroute : Route w [] (ask q) (u ++ z2 :: (v ++ x2 :: (mid2 ++ y2 :: post2))) := by simpa using hc2.route
      have := exact_after S.wellFormed S.noDnameW hroute ((hr.2.1 _).mp hkz) x2 (by simp)
      rw [hxb] at this; cases this
    have := same_before S.wellFormed (pre := pre) (x := x) (post := mid ++ y :: post) (by simpa using hcomp.route) (.inl rfl) hnone
    rw [← hxk, this]

/-- **C83** A listed alias is one: while any name of its class is resolved, a question for the alias (or, for a class, that name itself) is rewritten, and
later one for the listed name is asked (or resolution goes in circles). -/
theorem C83_alias_sound (S : Setting ctx w xs job) {thr thr' fuel : Nat} {g' : LGraph} {ts : List Task} {vs : List Violation}
    (hrun : Driver.runSequential fuel thr ctx (labelGraph thr' xs) job = .ok (g', ts, vs)) {al cn : Str} (hv : .alias al cn ∈ vs) :
    ∃ cs n, PathFn.allAliases cs ∈ job.pathFns ∧ n ∈ cs ∧ cn = present n ∧ ∃ q ∈ classes ts, ∀ m, Stands (xs.map (·.1)) q m → Short m →
      Circular w (question job (xs.map (·.1)) m) ∨ ∃ p k, Watched w (question job (xs.map (·.1)) m) p ∧ Aliased w k n p ∧
        (al = present k ∨ k = m ∧ al = showQuery q) := by
  obtain ⟨f, hf, q, hq, said, p, hsay, hroute, hrep, hall⟩ := S.watched_source hrun hv trivial
  cases f with
  | allAliases cs =>
    obtain ⟨pre, x, mid, y, post, htr, hx, hy, hyb, e⟩ := hrep
    injection e with e1 e2
    have hexact : ∀ (a : Ask), a.below = false → showAsk a = present a.name := by
      intro a ha; unfold showAsk showQuery Ask.ec; rw [ha]; rfl
    refine ⟨cs, y.ask.name, hf, hy, e2.trans (hexact _ hyb), q, hq, fun m hm hs => (hall m hm hs).imp id ?_⟩
    rintro ⟨p', h1, h2, h3⟩
    rw [List.append_assoc] at htr
    unfold transcript at htr
    obtain ⟨l1, l2, rfl, _, e3⟩ := List.map_eq_append_iff.mp htr
    obtain ⟨x', l3, rfl, rfl, e4⟩ := List.map_eq_cons_iff.mp e3
    obtain ⟨l4, l5, rfl, _, e5⟩ := List.map_eq_append_iff.mp e4
    obtain ⟨y', l6, rfl, rfl, _⟩ := List.map_eq_cons_iff.mp e5
    have hmk : List.Forall₂ (fun x y => (x.1 = y.1 ∧ (∀ t, Kind w x.1 x.2.1 t ↔ Kind w y.1 y.2.1 t)) ∧
        SameAsk q (question job (xs.map (·.1)) m) y.2.1 x.2.1) p' (l1 ++ x' :: (l4 ++ y' :: l6)) := by
      have h2' : List.Forall₂ (fun x y => x.1 = y.1 ∧ ∀ t, Kind w x.1 x.2.1 t ↔ Kind w y.1 y.2.1 t) p' (l1 ++ x' :: (l4 ++ y' :: l6)) :=
        List.Forall₂.imp (fun _ _ h => ⟨h.1, h.2.1⟩) h2
      clear hall h1 h2 htr e3 e4 e5 hroute hsay hx
      generalize (l1 ++ x' :: (l4 ++ y' :: l6)) = r at h2' h3
      induction h2' with
      | nil => exact .nil
      | cons h _ ih => cases h3 with | cons h' h3 => exact .cons ⟨h, h'⟩ (ih h3)
    obtain ⟨pre2, r2, rfl, _, hm2⟩ := forall₂_split hmk
    cases hm2 with
    | @cons x2 _ r3 _ hx2 hm3 =>
    obtain ⟨mid2, r4, rfl, _, hm5⟩ := forall₂_split hm3
    cases hm5 with
    | @cons y2 _ post2 _ hy2 hm6 =>
    have hkx : Kind w x'.1 x'.2.1 .REWRITE := (tells_iff (hsay x' (by simp)) (by simp) (by simp)).mp hx
    refine ⟨_, x2.2.1.name, h1, ⟨pre2, x2, mid2, y2, post2, by simp, (hx2.1.2 _).mpr hkx, rfl, ?_⟩, ?_⟩
    · rcases hy2.2 with h | ⟨h, h'⟩
      · rw [h]
      · dsimp only at hyb
        have hq0 : q.excluded = none := by
          have : (ask q).below = false := by rw [← h]; exact hyb
          unfold ask at this
          cases he : q.excluded with
          | none => rfl
          | some _ => rw [he] at this; cases this
        have hmq : m = q.name := by unfold Stands at hm; rw [hq0] at hm; exact hm
        rw [h', (S.asked hrun hq hm).1]
        dsimp only
        rw [h, hmq]; rfl
    · rcases hx2.2 with h | ⟨h, h'⟩
      · cases hb : x'.2.1.below with
        | false =>
          left
          rw [h, e1]
          exact hexact _ hb
        | true =>
          exfalso
          have hr := h1.elim (·.route) (·.1)
          have := route_exact S.noDnameW hr (by rw [(S.asked hrun hq hm).1]) x2 (by simp)
          rw [h, hb] at this; cases this
      · right
        refine ⟨by rw [h', (S.asked hrun hq hm).1], ?_⟩
        rw [e1]
        dsimp only
        rw [h]
        exact toStr_of_ask (ask_ec _)
  | _ => exact (reports_about hrep).elim

end

/-! ### A sample run -/

private def rr (n : String) (t : RRType) (d : String) : RR :=
  { name := stringToLabels n.toList, type := t, cls := 1, ttl := 300, rdata := d.toList }

private def nm (s : String) : Name := stringToLabels s.toList

/-- `a.com` and everything below `w.com` are aliases of `b.com`. -/
def aliasWorld : World where
  zones := [(1, [rr "com." .SOA "x", rr "a.com." .CNAME "b.com.", rr "*.w.com." .CNAME "b.com.", rr "b.com." .A "1.1.1.1"])]
  nsZones := [("s.".toList, [1])]
  top := ["s.".toList]

def aliasJob : Job where
  domain := "com.".toList
  subdomains := true
  types := TypeSet.single .A
  pathFns := [.allAliases [nm "b.com."], .hops 0, .rewrites 0, .queryRewrite [nm "w.com."], .nsContact [nm "com."]]

theorem alias_setting : Setting (contextOf aliasWorld) aliasWorld (recordsOf aliasWorld) aliasJob :=
  setting_of _ _ (wellFormed_of _ (by decide +kernel) (by decide +kernel) (by decide +kernel)) (by decide +kernel) (by decide +kernel)
    ⟨.A, by decide, by show Member aliasJob.types .A; unfold Member; decide⟩
    (fun f hf => by
      simp only [aliasJob, List.mem_cons, List.not_mem_nil, or_false] at hf
      rcases hf with rfl | rfl | rfl | rfl | rfl <;> first | trivial | (show _ ≠ []; simp)) rfl

/-- What the sample run reports. -/
example : ∃ g ts vs, Driver.runSequential 300 500 (contextOf aliasWorld) (labelGraph 500 (recordsOf aliasWorld)) aliasJob = .ok (g, ts, vs) ∧
    (∀ v ∈ [Violation.alias "a.com.".toList "b.com.".toList, .hops "a.com.".toList 1 0, .rewrites "a.com.".toList 1 0], v ∈ vs) ∧
    ∀ v ∈ [Violation.alias "b.com.".toList "b.com.".toList], v ∉ vs := run_of_check (by decide +kernel)

/-- The resolution of `a.com` meets the hypotheses of the theorems: a question for `a.com` is rewritten, and one for `b.com` asked; a server is contacted
and it lies outside the allowed domains. -/
example : ∃ p, InScope aliasJob (nm "a.com.") ∧ Short (nm "a.com.") ∧ Route aliasWorld [] ⟨nm "a.com.", aliasJob.types, false⟩ p ∧
    Aliased aliasWorld (nm "a.com.") (nm "b.com.") p ∧ (0 : Int) < hopsOf p ∧ (0 : Int) < rewritesOf aliasWorld p ∧
    RewrittenAway aliasWorld [nm "w.com."] p "s.".toList ∧ ContactedAway [nm "com."] p "s.".toList := by
  have he : Encloser (aliasWorld.log 1) (nm "a.com.") (nm "a.com.") := encloser_self (by decide +kernel) (by decide +kernel)
  obtain ⟨ts, hts⟩ : ∃ ts, TypesAt (aliasWorld.log 1) (nm "a.com.") ts := by
    refine ⟨TypeSet.single .CNAME, fun t => ?_⟩
    cases t <;> first | (unfold Member; decide +kernel) | skip
  have hsays : Says aliasWorld "s.".toList ⟨nm "a.com.", aliasJob.types, false⟩ [⟨.REWRITE, ts, [rr "a.com." .CNAME "b.com."]⟩] :=
    .zone 1 _ (by decide +kernel) ⟨[], [], by decide +kernel, by decide +kernel, by simp, by simp⟩
      (.cname _ (nm "a.com.") true ts (rr "a.com." .CNAME "b.com.") .REWRITE he ⟨by decide +kernel, .inl ⟨rfl, ⟨rfl, rfl⟩, rfl⟩⟩ (by decide +kernel)
        (by decide +kernel) rfl hts (.inr ⟨fun h => absurd ((h .A).mp (by show Member aliasJob.types .A; unfold Member; decide)) (by decide), rfl⟩))
  have hk : Kind aliasWorld "s.".toList ⟨nm "a.com.", aliasJob.types, false⟩ .REWRITE := ⟨_, _, hsays, rfl⟩
  refine ⟨[("s.".toList, ⟨nm "a.com.", aliasJob.types, false⟩, none), ("s.".toList, ⟨nm "b.com.", aliasJob.types, false⟩, none)], ?_, by decide +kernel,
    .step _ _ _ _ _ _ (.top _ _ (by simp [aliasWorld])) (.step _ _ _ _ _ _ (.rewriteHere _ _ _ _ (rr "a.com." .CNAME "b.com.") _ (by simp) hsays
      List.mem_cons_self rfl List.mem_cons_self (.cname rfl (by decide +kernel) ?_ rfl) (.inr (by decide +kernel))) (.done _ _)),
    ⟨[], _, [], _, [], rfl, hk, rfl, rfl⟩, by unfold hopsOf; decide +kernel, ?_, ⟨[], _, _, [], rfl, rfl, hk, by decide +kernel⟩,
    ⟨_, List.mem_cons_self, rfl, by decide +kernel⟩⟩
  · unfold InScope
    rw [if_pos (show aliasJob.subdomains = true from rfl)]
    exact ⟨by decide +kernel, by decide +kernel⟩
  · intro t
    cases t <;> first | (unfold Member; decide +kernel) | skip
  · unfold rewritesOf
    rw [List.filter_cons_of_pos (by simpa using hk)]
    simp

/-- `a.com` is an alias of `b.com`, and `b.com` one of `c.com`, which is an alias of itself. -/
def knotWorld : World where
  zones := [(1, [rr "com." .SOA "x", rr "a.com." .CNAME "b.com.", rr "b.com." .CNAME "c.com.", rr "c.com." .CNAME "c.com."])]
  nsZones := [("s.".toList, [1])]
  top := ["s.".toList]

/-- **C83** (disagreement) An alias whose resolution ends in a loop is not listed as an alias: only the loop is reported. -/
theorem C83_disagreement_alias_in_loop : rr "a.com." .CNAME "b.com." ∈ knotWorld.log 1 ∧ PathFn.allAliases [nm "b.com."] ∈ aliasJob.pathFns ∧
    ∃ g ts vs, Driver.runSequential 300 500 (contextOf knotWorld) (labelGraph 500 (recordsOf knotWorld)) aliasJob = .ok (g, ts, vs) ∧
      .alias "a.com.".toList "b.com.".toList ∉ vs := by
  obtain ⟨g, ts, vs, h1, _, h2⟩ := run_of_check (w := knotWorld) (job := aliasJob) (good := []) (bad := [.alias "a.com.".toList "b.com.".toList])
    (by decide +kernel)
  exact ⟨by decide +kernel, by simp [aliasJob], g, ts, vs, h1, h2 _ (by simp)⟩

end Groot
