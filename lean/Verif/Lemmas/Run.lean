import Verif.Spec.Run
import Verif.Lemmas.Total
import Verif.Props.Outcome

/-! # The reports of a whole run -/

namespace Groot
open Spec

variable {ctx : Context} {w : World} {xs : List (RR × Nat × Nat)} {job : Job}

theorem concatM_split {α β : Type} {f : α → Res (List β)} : ∀ {l : List α} {r : List β}, concatM f l = .ok r →
    ∃ rs, List.Forall₂ (fun x y => f x = .ok y) l rs ∧ r = rs.flatten := by
  intro l
  induction l with
  | nil => intro r h; cases h; exact ⟨[], .nil, rfl⟩
  | cons x l ih =>
    intro r h
    unfold concatM at h
    obtain ⟨a, h1, h⟩ := bind_ok_iff.mp h
    obtain ⟨b, h2, h⟩ := bind_ok_iff.mp h
    cases h
    obtain ⟨rs, h3, rfl⟩ := ih h2
    exact ⟨a :: rs, .cons h1 h3, rfl⟩

theorem tested {ctx : Context} {w : World} (hr : Represents ctx w) (hw : WellFormed w) {thr fuel : Nat} {pf : List PathFn} {nf : List NodeFn}
    (hpf : ∀ f ∈ pf, f.Configured) (hnf : ∀ f ∈ nf, f.Configured w) {q : EC} (hq : Short q.name) (ht : q.types ≠ 0)
    {r : List Violation × Nat × Nat} (h : processEC fuel thr ctx pf nf q = .ok r) :
    ∃ said, TestOutcome w said (ask q) (q.nonExistent = false) pf nf r.1 := by
  obtain ⟨N, hN⟩ := class_outcome hr hw thr hpf hnf hq ht
  obtain ⟨r', said, h1, h2, h3, h4, h5, h6, h7⟩ := hN N (Nat.le_refl _)
  have := mono_agree (f := fun n => processEC n thr ctx pf nf q) (fun n r => processEC_mono thr ctx _ _ q n r) h1 h
  subst this
  exact ⟨said, h2, h3, h4, h5, h6, h7⟩

theorem RunSetting.generated {thr thr' fuel : Nat} {g' : LGraph} {ts : List Task} {vs : List Violation}
    (hrun : Driver.runSequential fuel thr ctx (labelGraph thr' xs) job = .ok (g', ts, vs)) :
    g' = labelGraph thr' xs ∧ LGraph.generateECs fuel (labelGraph thr' xs) (Driver.req job) = .ok (labelGraph thr' xs, ts) ∧
      concatM (Driver.process fuel thr ctx (labelGraph thr' xs) job) ts = .ok vs := by
  unfold Driver.runSequential at hrun
  obtain ⟨⟨g1, ts1⟩, h1, hrun⟩ := bind_ok_iff.mp hrun
  obtain ⟨vs1, h2, hrun⟩ := bind_ok_iff.mp hrun
  cases hrun
  have := C23_generation_no_trace _ _ _ _ _ _ h1
  subst this
  exact ⟨rfl, h1, h2⟩

theorem RunSetting.outcomes (S : RunSetting ctx w xs job) {thr thr' fuel : Nat} {g' : LGraph} {ts : List Task} {vs : List Violation}
    (hrun : Driver.runSequential fuel thr ctx (labelGraph thr' xs) job = .ok (g', ts, vs)) :
    ∃ rs, List.Forall₂ (TaskOutcome w (labelGraph thr' xs) xs (fun id => (ctx.zoneNs.lookup id).getD []) job) ts rs ∧ vs = rs.flatten := by
  obtain ⟨-, h1, h2⟩ := RunSetting.generated hrun
  have hshape := tasks_shape thr' xs S.regular (Driver.req job) h1
  have hleg := C25_legal thr' xs S.labels (Driver.req job) fuel _ ts h1
  obtain ⟨rs, h3, h4⟩ := concatM_split h2
  refine ⟨rs, ?_, h4⟩
  have key : ∀ t ∈ ts, ∀ r, Driver.process fuel thr ctx (labelGraph thr' xs) job t = .ok r →
      TaskOutcome w (labelGraph thr' xs) xs (fun id => (ctx.zoneNs.lookup id).getD []) job t r := by
    intro t ht r hr
    rcases hshape t ht with ⟨q, rfl, hq⟩ | ⟨hs, n, v, d, rfl, hk, hn⟩
    · unfold Driver.process at hr
      obtain ⟨x, h5, h6⟩ := bind_ok_iff.mp hr
      cases h6
      have hne : q.types ≠ 0 := by
        rcases hq with e | e <;> rw [e]
        · exact S.types
        · exact other_ne all_other
      obtain ⟨said, h7⟩ := tested S.represents S.wellFormed S.pathFns S.nodeFns (hleg q ((mem_classes q ts).mpr ht)).1 hne h5
      exact .test q said _ h7
    · obtain ⟨hx, hz⟩ := S.structural hs
      have := C53_structural ctx w S.represents xs hx thr thr' n v hn d (hz n)
      unfold Driver.process at hr
      dsimp only at hr
      rw [this] at hr
      cases hr
      exact .structural v d n hk hn
  clear h4 h2 hshape hleg h1 hrun
  induction h3 with
  | nil => exact .nil
  | cons h _ ih => exact .cons (key _ List.mem_cons_self _ h) (ih (fun t ht => key t (List.mem_cons_of_mem _ ht)))

/-- A known domain is found. -/
theorem matches_self {rs : List RR} {d : Name} (h : Known rs d) : Matches rs d d d.length := by
  have key : ∀ (p r : Name), p ++ r = d → Matches rs d p p.length := by
    intro p
    induction p using List.reverseRecOn with
    | nil => intro _ _; exact .root
    | append_singleton p l ih =>
      intro r e
      rw [List.append_assoc] at e
      have := Matches.down p p.length l (ih _ e) (by rw [← e]; simp) (known_prefix h ⟨r, by rw [← e]; simp⟩)
      simpa using this
  exact key d [] (by simp)

theorem saying_eq {w : World} {a0 : Ask} {said said' : Str → Ask → List Answer} (htop : ∀ s ∈ w.top, w.Listed s) (h : Answering w a0 said)
    (h' : Answering w a0 said') {s : Str} {a : Ask} (hr : Reached w a0 s a) (hs : s ≠ []) : said s a = said' s a :=
  C71_answers_determined w htop s a _ _ (h s a hr hs) (h' s a hr hs)

theorem transcript_said_eq {w : World} (hw : WellFormed w) {a0 : Ask} {said said' : Str → Ask → List Answer} (htop : ∀ s ∈ w.top, w.Listed s)
    (h : Answering w a0 said) (h' : Answering w a0 said') {p : Trail} (hp : Route w [] a0 p) : transcript said p = transcript said' p := by
  unfold transcript
  refine List.map_congr_left (fun x hx => ?_)
  rw [saying_eq htop h h' (reached_route .start hp x hx) (route_server hw hp x hx)]

theorem examined_of {w : World} (hw : WellFormed w) {a0 : Ask} {said said' : Str → Ask → List Answer} (htop : ∀ s ∈ w.top, w.Listed s)
    (h : Answering w a0 said) (h' : Answering w a0 said') {p : Trail} (hp : Examined w said a0 p) :
    Examined w said' a0 p ∧ transcript said p = transcript said' p := by
  rcases hp with hp | hp
  · exact ⟨.inl hp, transcript_said_eq hw htop h h' hp.route⟩
  · have e := transcript_said_eq hw htop h h' hp.route
    refine ⟨.inr ⟨hp.route, hp.simple, ?_⟩, e⟩
    rw [← e]; exact hp.ended

theorem examined_iff {w : World} (hw : WellFormed w) {a0 : Ask} {said said' : Str → Ask → List Answer} (htop : ∀ s ∈ w.top, w.Listed s)
    (h : Answering w a0 said) (h' : Answering w a0 said') (p : Trail) : Examined w said a0 p ↔ Examined w said' a0 p :=
  ⟨fun hp => (examined_of hw htop h h' hp).1, fun hp => (examined_of hw htop h' h hp).1⟩

theorem endsAt_eq {w : World} (hw : WellFormed w) {a0 : Ask} {said said' : Str → Ask → List Answer} (htop : ∀ s ∈ w.top, w.Listed s)
    (h : Answering w a0 said) (h' : Answering w a0 said') : EndsAt w said a0 = EndsAt w said' a0 := by
  have key : ∀ {said said' : Str → Ask → List Answer}, Answering w a0 said → Answering w a0 said' → ∀ {x}, EndsAt w said a0 x → EndsAt w said' a0 x := by
    rintro said said' h h' x ⟨p, hp, hx⟩
    obtain ⟨h1, h2⟩ := examined_of hw htop h h' hp
    exact ⟨p, h1, h2 ▸ hx⟩
  funext x
  exact propext ⟨key h h', key h' h⟩

theorem needs_chain_reached {w : World} {a0 : Ask} : ∀ {l : List (Str × Ask)} {x : Str × Ask}, Reached w a0 x.1 x.2 → List.IsChain (Needs w) (x :: l) →
    ∀ y ∈ x :: l, Reached w a0 y.1 y.2 := by
  intro l
  induction l with
  | nil => intro x hx _ y hy; rw [List.mem_singleton.mp hy]; exact hx
  | cons z l ih =>
    intro x hx hc y hy
    rw [List.isChain_cons_cons] at hc
    rcases List.mem_cons.mp hy with rfl | hy
    · exact hx
    · exact ih (needs_reached hx hc.1) hc.2 y hy

/-- If the answers are determined, it does not matter by which rule they are described. -/
theorem Spec.TestOutcome.transfer {w : World} (hw : WellFormed w) (htop : ∀ s ∈ w.top, w.Listed s) {said said' : Str → Ask → List Answer} {a0 : Ask}
    {strict : Prop} {pf : List PathFn} {nf : List NodeFn} {vs : List Violation} (h : TestOutcome w said a0 strict pf nf vs)
    (h' : Answering w a0 said') : TestOutcome w said' a0 strict pf nf vs := by
  have hE := endsAt_eq hw htop h.answers h'
  refine ⟨h', ⟨?_, ?_⟩, ?_, ⟨h.loops.found, h.loops.one, ?_⟩, h.kinds, ?_⟩
  · intro v hv ha
    obtain ⟨f, hf, p, hp, hr⟩ := h.paths.sound v hv ha
    obtain ⟨h1, h2⟩ := examined_of hw htop h.answers h' hp
    exact ⟨f, hf, p, h1, h2 ▸ hr⟩
  · intro f hf p hp v hr
    obtain ⟨h1, h2⟩ := examined_of hw htop h' h.answers hp
    exact h.paths.complete f hf p h1 v (h2 ▸ hr)
  · obtain ⟨h1, h2, h3, h4, h5, h6, h7⟩ := h.ends
    rw [hE] at h1 h2 h3 h4 h5 h6 h7
    exact ⟨h1, h2, h3, h4, h5, h6, h7⟩
  · intro ns hns
    obtain ⟨x, c, h1, h2, h3, h4⟩ := h.loops.shows ns hns
    refine ⟨x, c, h1, h2, h3, ?_⟩
    rw [h4]
    have hx : Reached w a0 x.1 x.2 := by
      clear h1 h3 h4
      induction h2 with
      | refl => exact .start
      | tail _ hs ih => exact needs_reached ih hs
    refine List.map_congr_left (fun y hy => ?_)
    have hy := needs_chain_reached hx h3 y (List.mem_append_left _ hy)
    unfold shownAsk
    by_cases e : y.1 = []
    · simp [e]
    · rw [saying_eq htop h.answers h' hy e]
  · intro hs ts hts x hx
    rw [← hE] at hx
    exact h.missing hs ts hts x hx

end Groot
