import Verif.Lemmas.Producers4

/-! # Some continuation returns -/

namespace Groot.Full
open Spec

variable {N : Nat} {types : TypeSet} {emit : Task → List (Violation ⊕ (Nat × Nat))}

theorem Leads.trans {a b c : State N} (h : Leads types emit a b) (h' : Leads types emit b c) : Leads types emit a c := by
  induction h' with
  | refl => exact h
  | step _ hs ih => exact .step ih hs

theorem Reachable.leads {pool : Prod.Pool} {a b : State N} (h : Reachable types emit pool a) (h' : Leads types emit a b) : Reachable types emit pool b := by
  induction h' with
  | refl => exact h
  | step _ hs ih => exact .step ih hs

/-- The producers can be run to the end. -/
theorem producers_end {g0 : LGraph} : ∀ (k : Nat) (s : State N) (γs : List Prod.Ghost), Prod.PoolInv types g0 s.pool γs → (γs.map (·.n)).sum ≤ k →
    ∃ s', Leads types emit s s' ∧ s'.pool.Done := by
  intro k
  induction k with
  | zero =>
    intro s γs h hk
    refine ⟨s, .refl _, ?_⟩
    intro st hst
    by_contra hne
    obtain ⟨⟨g, st', o⟩, hx⟩ := Prod.step_enabled types s.pool.graph hne
    obtain ⟨i, hi⟩ := List.mem_iff_getElem?.mp hst
    obtain ⟨_, _, _, _, _, h5⟩ := step_proj h (.produce (emit := emit) i o _ (Prod.sched_step hi hx))
    have := h5 i rfl
    omega
  | succ k ih =>
    intro s γs h hk
    by_cases hd : s.pool.Done
    · exact ⟨s, .refl _, hd⟩
    · unfold Prod.Pool.Done at hd
      push Not at hd
      obtain ⟨st, hst, hne⟩ := hd
      obtain ⟨⟨g, st', o⟩, hx⟩ := Prod.step_enabled types s.pool.graph hne
      obtain ⟨i, hi⟩ := List.mem_iff_getElem?.mp hst
      have hstep := Step.produce (emit := emit) i o _ (Prod.sched_step hi hx)
      obtain ⟨γs', h1, _, _, _, h5⟩ := step_proj h hstep
      have h6 := h5 i rfl
      obtain ⟨s', h7, h8⟩ := ih _ γs' h1 (by omega)
      exact ⟨s', (Leads.step (.refl _) hstep).trans h7, h8⟩

/-- Once the producers have ended, what the other threads can do they can do here. -/
theorem lift_leads {s : State N} (hd : s.pool.Done) (x : List (List Task)) (hx : ∀ l ∈ x, l = []) {a c : Conc.State N Task Violation (Nat × Nat)}
    (h : Conc.Leads emit a c) (ha : a = { s.rest with todo := x }) :
    c.todo = x ∧ ∃ s', Leads types emit s s' ∧ s'.pool = s.pool ∧ { s'.rest with todo := x } = c := by
  induction h with
  | refl =>
    subst ha
    exact ⟨rfl, s, .refl _, rfl, rfl⟩
  | @step c1 c2 th _ hs ih =>
    obtain ⟨e, s', h1, h2, h3⟩ := ih
    have other : ∀ (t : Thread N) (u : Conc.Thread N), t.conc = some u → u ≠ .gen → Conc.Step emit u c1 c2 → c2.todo = c1.todo →
        c2.todo = x ∧ ∃ s', Leads types emit s s' ∧ s'.pool = s.pool ∧ { s'.rest with todo := x } = c2 := by
      intro t u ht hu hs' hto
      refine ⟨hto.trans e, ⟨s'.pool, { c2 with todo := s'.rest.todo }⟩, .step h1 (.other t u _ ht ?_), h2, ?_⟩
      · have := conc_todo hu hs' s'.rest.todo
        rw [← h3] at this
        exact this
      · have := hto.trans e
        rw [← this]
    cases hs with
    | enqueue a b t ts ht =>
      rw [e] at ht
      exact absurd (hx (t :: ts) (by rw [ht]; simp)) (by simp)
    | finish hl hf =>
      refine ⟨e, ⟨s'.pool, { s'.rest with finished := true }⟩, .step h1 (.finish (h2 ▸ hd) ?_), h2, ?_⟩
      · rw [← h3] at hf; exact hf
      · rw [← h3]
    | enter i h => exact other (.cons i) (.cons i) rfl (by simp) (.enter i h) rfl
    | take i left saw h a b t hq => exact other (.cons i) (.cons i) rfl (by simp) (.take i left saw h a b t hq) rfl
    | empty i left saw h hq => exact other (.cons i) (.cons i) rfl (by simp) (.empty i left saw h hq) rfl
    | violation i v p saw h => exact other (.cons i) (.cons i) rfl (by simp) (.violation i v p saw h) rfl
    | size i v p saw h => exact other (.cons i) (.cons i) rfl (by simp) (.size i v p saw h) rfl
    | processed i saw h => exact other (.cons i) (.cons i) rfl (by simp) (.processed i saw h) rfl
    | again i h => exact other (.cons i) (.cons i) rfl (by simp) (.again i h) rfl
    | count i h => exact other (.cons i) (.cons i) rfl (by simp) (.count i h) rfl
    | jEnter h => exact other .json .json rfl (by simp) (.jEnter h) rfl
    | jTake left saw h a b v hq => exact other .json .json rfl (by simp) (.jTake left saw h a b v hq) rfl
    | jEmpty left saw h hq => exact other .json .json rfl (by simp) (.jEmpty left saw h hq) rfl
    | jEnd left h => exact other .json .json rfl (by simp) (.jEnd left h) rfl
    | sEnter h => exact other .stats .stats rfl (by simp) (.sEnter h) rfl
    | sTake left saw h a b v hq => exact other .stats .stats rfl (by simp) (.sTake left saw h a b v hq) rfl
    | sEmpty left saw h hq => exact other .stats .stats rfl (by simp) (.sEmpty left saw h hq) rfl
    | sEnd left h => exact other .stats .stats rfl (by simp) (.sEnd left h) rfl

/-- From every state the run can get into, some continuation returns. -/
theorem can_return {g0 : LGraph} {pool : Prod.Pool} {γ0 : List Prod.Ghost} (h0 : Prod.PoolInv types g0 pool γ0) (hN : 0 < N) {s : State N}
    (h : Reachable types emit pool s) : ∃ s', Leads types emit s s' ∧ Returned s' := by
  obtain ⟨γs, h1, _⟩ := reachable_proj h0 h
  obtain ⟨s1, h2, h3⟩ := producers_end (emit := emit) _ s γs h1 (Nat.le_refl _)
  obtain ⟨γs1, h4, h5⟩ := reachable_proj h0 (h.leads h2)
  obtain ⟨c, h6, h7⟩ := C54_can_return hN emit _ _ h5
  obtain ⟨_, s2, h8, h9, h10⟩ := lift_leads (types := types) h3 (γs1.map (·.ts)) (by
    intro l hl
    obtain ⟨γ, hγ, rfl⟩ := List.mem_map.mp hl
    exact (h4.done h3).2 γ hγ) h6 rfl
  refine ⟨s2, h2.trans h8, ?_⟩
  rw [← h10] at h7
  intro th
  cases th with
  | prod i =>
    intro st hst
    rw [h9] at hst
    exact h3 st (List.mem_of_getElem? hst)
  | gen => exact h7 .gen
  | cons i => exact h7 (.cons i)
  | json => exact h7 .json
  | stats => exact h7 .stats

theorem leads_run {s s' : State N} (h : Leads types emit s s') :
    ∃ (σ : Nat → State N) (k : Nat), σ 0 = s ∧ (∀ n, k ≤ n → σ n = s') ∧ ∀ n, σ (n + 1) = σ n ∨ ∃ th, Step types emit th (σ n) (σ (n + 1)) := by
  induction h with
  | refl => exact ⟨fun _ => s, 0, rfl, fun _ _ => rfl, fun _ => .inl rfl⟩
  | @step s1 s2 th _ hs ih =>
    obtain ⟨σ, k, h0, hk, hn⟩ := ih
    refine ⟨fun n => if n ≤ k then σ n else s2, k + 1, by simp [h0], fun n hn => if_neg (by omega), ?_⟩
    intro n
    by_cases h1 : n + 1 ≤ k
    · simp only [h1, if_true, show n ≤ k by omega]
      exact hn n
    · by_cases h2 : n ≤ k
      · simp only [h1, if_false, h2, if_true]
        rw [hk n (by omega)]
        exact .inr ⟨th, hs⟩
      · simp only [h1, if_false, h2]
        exact .inl trivial

theorem fair_exists {g0 : LGraph} {pool : Prod.Pool} {γ0 : List Prod.Ghost} (h0 : Prod.PoolInv types g0 pool γ0) (hN : 0 < N) :
    ∃ σ : Nat → State N, Execution types emit pool σ ∧ Fair types emit σ := by
  obtain ⟨s', h1, h2⟩ := can_return (emit := emit) h0 hN .start
  obtain ⟨σ, k, h3, h4, h5⟩ := leads_run h1
  refine ⟨σ, ⟨h3, h5⟩, ?_⟩
  intro th n
  refine ⟨max n k, le_max_left _ _, .inl ?_⟩
  rw [h4 _ (le_max_right _ _)]
  exact h2 th

end Groot.Full
