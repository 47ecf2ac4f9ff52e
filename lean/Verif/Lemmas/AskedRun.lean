import Verif.Lemmas.Asked
import Verif.Lemmas.Total
import Verif.Spec.Main

/-!
# Only what was asked for is reported, whatever the threads do
-/

namespace Groot

open Spec Driver

section
variable {N : Nat} {T V A : Type} {P : T → Prop} {Q : V → Prop}

/-- The tasks and violations found anywhere in the state. -/
structure Holding (P : T → Prop) (Q : V → Prop) (s : Conc.State N T V A) : Prop where
  ecq : ∀ t ∈ s.ecq, P t
  jsonq : ∀ v ∈ s.jsonq, Q v
  collected : ∀ v ∈ s.collected, Q v
  work : ∀ i p saw, s.cons i = .work p saw → ∀ v, .inl v ∈ p → Q v

theorem Holding.update {s : Conc.State N T V A} (h : Holding P Q s) (i : Fin N) (pc : Conc.Pc V A)
    (hp : ∀ p saw, pc = .work p saw → ∀ v, .inl v ∈ p → Q v) :
    ∀ j p saw, Function.update s.cons i pc j = .work p saw → ∀ v, .inl v ∈ p → Q v := by
  intro j p saw e
  by_cases hj : j = i
  · subst hj
    rw [Function.update_self] at e
    exact hp p saw e
  · rw [Function.update_of_ne hj] at e
    exact h.work j p saw e

theorem Holding.step {emit : T → List (V ⊕ A)} (he : ∀ t, P t → ∀ v, .inl v ∈ emit t → Q v) {th : Conc.Thread N} {s s' : Conc.State N T V A}
    (hs : Conc.Step emit th s s') (h : Holding P Q s) (ht : ∀ l ∈ s.todo, ∀ t ∈ l, P t) : Holding P Q s' ∧ ∀ l ∈ s'.todo, ∀ t ∈ l, P t := by
  cases hs with
  | enqueue a b t ts e =>
    rw [e] at ht
    refine ⟨⟨?_, h.jsonq, h.collected, h.work⟩, ?_⟩
    · intro x hx
      rcases List.mem_append.mp hx with hx | hx
      · exact h.ecq x hx
      · rw [List.mem_singleton.mp hx]
        exact ht (t :: ts) (by simp) t (by simp)
    · intro l hl x hx
      rcases List.mem_append.mp hl with hl | hl
      · exact ht l (by simp [hl]) x hx
      · rcases List.mem_cons.mp hl with hl | hl
        · subst hl; exact ht (t :: l) (by simp) x (by simp [hx])
        · exact ht l (by simp [hl]) x hx
  | finish _ _ => exact ⟨⟨h.ecq, h.jsonq, h.collected, h.work⟩, ht⟩
  | enter i _ => exact ⟨⟨h.ecq, h.jsonq, h.collected, h.update i _ (fun _ _ e => nomatch e)⟩, ht⟩
  | take i left saw _ a b t hq =>
    have h1 := h.ecq
    rw [hq] at h1
    refine ⟨⟨?_, h.jsonq, h.collected, h.update i _ ?_⟩, ht⟩
    · intro x hx
      exact h1 x (by rcases List.mem_append.mp hx with hx | hx <;> simp [hx])
    · rintro p saw e v hv
      injection e with e _
      rw [← e] at hv
      exact he t (h1 t (by simp)) v hv
  | empty i _ _ _ _ => exact ⟨⟨h.ecq, h.jsonq, h.collected, h.update i _ (fun _ _ e => nomatch e)⟩, ht⟩
  | violation i v p saw e =>
    have h1 := h.work i _ _ e
    refine ⟨⟨h.ecq, ?_, h.collected, h.update i _ ?_⟩, ht⟩
    · intro x hx
      rcases List.mem_append.mp hx with hx | hx
      · exact h.jsonq x hx
      · rw [List.mem_singleton.mp hx]; exact h1 v (by simp)
    · rintro p' saw' e' v' hv'
      injection e' with e' _
      rw [← e'] at hv'
      exact h1 v' (by simp [hv'])
  | size i x p saw e =>
    have h1 := h.work i _ _ e
    refine ⟨⟨h.ecq, h.jsonq, h.collected, h.update i _ ?_⟩, ht⟩
    rintro p' saw' e' v' hv'
    injection e' with e' _
    rw [← e'] at hv'
    exact h1 v' (by simp [hv'])
  | processed i _ _ => exact ⟨⟨h.ecq, h.jsonq, h.collected, h.update i _ (fun _ _ e => nomatch e)⟩, ht⟩
  | again i _ => exact ⟨⟨h.ecq, h.jsonq, h.collected, h.update i _ (fun _ _ e => nomatch e)⟩, ht⟩
  | count i _ =>
    refine ⟨⟨h.ecq, h.jsonq, h.collected, h.update i _ ?_⟩, ht⟩
    intro p saw e
    split_ifs at e
  | jEnter _ => exact ⟨⟨h.ecq, h.jsonq, h.collected, h.work⟩, ht⟩
  | jTake _ _ _ a b v hq =>
    have h1 := h.jsonq
    rw [hq] at h1
    refine ⟨⟨h.ecq, ?_, ?_, h.work⟩, ht⟩
    · intro x hx
      exact h1 x (by rcases List.mem_append.mp hx with hx | hx <;> simp [hx])
    · intro x hx
      rcases List.mem_append.mp hx with hx | hx
      · exact h.collected x hx
      · rw [List.mem_singleton.mp hx]; exact h1 v (by simp)
  | jEmpty _ _ _ _ => exact ⟨⟨h.ecq, h.jsonq, h.collected, h.work⟩, ht⟩
  | jEnd _ _ => exact ⟨⟨h.ecq, h.jsonq, h.collected, h.work⟩, ht⟩
  | sEnter _ => exact ⟨⟨h.ecq, h.jsonq, h.collected, h.work⟩, ht⟩
  | sTake _ _ _ _ _ _ _ => exact ⟨⟨h.ecq, h.jsonq, h.collected, h.work⟩, ht⟩
  | sEmpty _ _ _ _ => exact ⟨⟨h.ecq, h.jsonq, h.collected, h.work⟩, ht⟩
  | sEnd _ _ => exact ⟨⟨h.ecq, h.jsonq, h.collected, h.work⟩, ht⟩

theorem Holding.reachable {emit : T → List (V ⊕ A)} (he : ∀ t, P t → ∀ v, .inl v ∈ emit t → Q v) {producers : List (List T)}
    (hp : ∀ l ∈ producers, ∀ t ∈ l, P t) {s : Conc.State N T V A} (hs : Conc.Reachable emit producers s) :
    Holding P Q s ∧ ∀ l ∈ s.todo, ∀ t ∈ l, P t := by
  induction hs with
  | start =>
    exact ⟨⟨by simp [Conc.start], by simp [Conc.start], by simp [Conc.start], fun i p saw e => by simp [Conc.start] at e⟩, hp⟩
  | step _ h ih => exact ih.1.step he h ih.2

end

/-- A frame whose structural flag is on only if the check is. -/
def FrameFor (st : Bool) : Prod.Frame → Prop
  | .entry c | .save c | .write c _ | .announce c _ | .loop c _ _ _ | .node c _ | .last c _ => c.structural = true → st = true

theorem callee_structural (g : LGraph) (c : Prod.Call) (e : EdgeType × Nat) (h : (Prod.callee g c e).structural = true) : c.structural = true := by
  unfold Prod.callee at h
  split_ifs at h
  exact h

theorem frames_step (types : TypeSet) (st : Bool) (g g' : LGraph) (fs fs' : List Prod.Frame) (o : Option Task) (hf : ∀ f ∈ fs, FrameFor st f)
    (h : Prod.step types g fs = some (g', fs', o)) : (∀ f ∈ fs', FrameFor st f) ∧ ∀ t, o = some t → TaskFor st t := by
  cases fs with
  | nil => cases h
  | cons f k =>
    have h0 : FrameFor st f := hf f (by simp)
    have hk : ∀ f ∈ k, FrameFor st f := fun f h => hf f (by simp [h])
    have two : ∀ f' : Prod.Frame, FrameFor st f' → ∀ f ∈ f' :: k, FrameFor st f := by
      intro f' h' f hf
      rcases List.mem_cons.mp hf with e | e
      · rw [e]; exact h'
      · exact hk f e
    cases f with
    | entry c =>
      unfold Prod.step at h
      dsimp only at h
      split_ifs at h <;> (injection h with h; injection h with h1 h; injection h with h2 h3; subst h2 h3)
      · exact ⟨hk, fun t e => nomatch e⟩
      · exact ⟨two _ h0, fun t e => nomatch e⟩
    | save c =>
      unfold Prod.step at h
      dsimp only at h
      split_ifs at h <;> (injection h with h; injection h with h1 h; injection h with h2 h3; subst h2 h3)
      · exact ⟨hk, fun t e => nomatch e⟩
      · exact ⟨two _ h0, fun t e => nomatch e⟩
    | write c b =>
      unfold Prod.step at h
      injection h with h; injection h with h1 h; injection h with h2 h3; subst h2 h3
      exact ⟨two _ h0, fun t e => nomatch e⟩
    | announce c b =>
      unfold Prod.step at h
      injection h with h; injection h with h1 h; injection h with h2 h3; subst h2 h3
      refine ⟨two _ h0, fun t e => ?_⟩
      split_ifs at e with hc
      injection e with e
      rw [← e]
      exact h0 hc
    | loop c b rest wild =>
      cases rest with
      | nil =>
        unfold Prod.step at h
        injection h with h; injection h with h1 h; injection h with h2 h3; subst h2 h3
        exact ⟨two _ h0, fun t e => nomatch e⟩
      | cons e rest =>
        unfold Prod.step at h
        injection h with h; injection h with h1 h; injection h with h2 h3; subst h2 h3
        refine ⟨?_, fun t e => nomatch e⟩
        intro f hf
        rcases List.mem_cons.mp hf with e' | e'
        · rw [e']
          exact fun hc => h0 (callee_structural _ _ _ hc)
        · exact two (.loop c b rest _) h0 f e'
    | node c w =>
      unfold Prod.step at h
      injection h with h; injection h with h1 h; injection h with h2 h3; subst h2 h3
      refine ⟨two _ h0, fun t e => ?_⟩
      split_ifs at e
      injection e with e
      rw [← e]; trivial
    | last c w =>
      unfold Prod.step at h
      injection h with h; injection h with h1 h; injection h with h2 h3; subst h2 h3
      refine ⟨hk, fun t e => ?_⟩
      injection e with e
      rw [← e]; trivial

theorem full_holding {types : TypeSet} {emit : Task → List (Violation ⊕ (Nat × Nat))} {st : Bool} {Q : Violation → Prop}
    (he : ∀ t, TaskFor st t → ∀ v, .inl v ∈ emit t → Q v) {pool : Prod.Pool} (hp : ∀ fs ∈ pool.threads, ∀ f ∈ fs, FrameFor st f) {N : Nat} {s : Full.State N}
    (hs : Full.Reachable types emit pool s) :
    Holding (TaskFor st) Q s.rest ∧ s.rest.todo = [] ∧ ∀ fs ∈ s.pool.threads, ∀ f ∈ fs, FrameFor st f := by
  induction hs with
  | start =>
    exact ⟨⟨by simp [Full.start], by simp [Full.start], by simp [Full.start], fun i p saw e => by simp [Full.start] at e⟩, rfl, hp⟩
  | step _ h ih =>
    obtain ⟨h1, h2, h3⟩ := ih
    cases h with
    | produce i o p hstep =>
      cases hstep with | mk a b fs fs' _ e _ hf => ?_
      rw [e] at h3
      obtain ⟨g1, g2⟩ := frames_step types st _ _ _ _ _ (h3 fs (by simp)) hf
      refine ⟨⟨?_, h1.jsonq, h1.collected, h1.work⟩, h2, ?_⟩
      · intro t ht
        rcases List.mem_append.mp ht with ht | ht
        · exact h1.ecq t ht
        · exact g2 t (by simpa using ht)
      · intro x hx
        rcases List.mem_append.mp hx with hx | hx
        · exact h3 x (by simp [hx])
        · rcases List.mem_cons.mp hx with hx | hx
          · rw [hx]; exact g1
          · exact h3 x (by simp [hx])
    | finish _ _ => exact ⟨⟨h1.ecq, h1.jsonq, h1.collected, h1.work⟩, h2, h3⟩
    | other th t r _ hstep =>
      obtain ⟨g1, g2⟩ := h1.step he hstep (by rw [h2]; simp)
      refine ⟨g1, ?_, h3⟩
      cases hstep <;> first | exact h2 | (rename_i e; rw [h2] at e; simp at e)

/-- What processing a task emits is what the job can report. -/
theorem outputs_ans (fuel thr : Nat) (ctx : Context) (lg : LGraph) (job : Job) (hp : ∀ f ∈ job.pathFns, f.Stored) (t : Task) (ht : TaskFor job.structural t) :
    Yields (fun l => ∀ v, .inl v ∈ l → JobAns job.pathFns job.nodeFns job.structural v) (outputs fuel thr ctx lg job t) := by
  cases t with
  | ec q =>
    intro l hl v hv
    unfold outputs at hl
    obtain ⟨g, h1, hl⟩ := bind_ok_iff.mp hl
    obtain ⟨lp, h2, hl⟩ := bind_ok_iff.mp hl
    obtain ⟨vs, h3, hl⟩ := bind_ok_iff.mp hl
    injection hl with hl
    have := processEC_ans fuel thr ctx job.pathFns job.nodeFns job.structural q hp (lp.toList ++ vs, g.verts.length, g.edges.length)
      (by unfold processEC; rw [h1, Res.ok_bind, h2, Res.ok_bind, h3, Res.ok_bind])
    refine this v ?_
    rw [← hl] at hv
    simpa using hv
  | structural node domain =>
    unfold outputs
    refine .bind (structural_ans thr lg ctx domain node) (fun v hv => .ok ?_)
    intro x hx
    obtain ⟨y, hy, e⟩ := List.mem_map.mp hx
    injection e with e
    exact .inr (.inr (.inr ⟨ht, hv x (e ▸ hy)⟩))

end Groot
