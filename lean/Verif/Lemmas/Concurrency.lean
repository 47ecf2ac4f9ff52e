import Verif.Spec.Concurrency
import Mathlib.Data.Fintype.Card
import Mathlib.Algebra.BigOperators.Group.Finset.Basic
import Mathlib.Algebra.BigOperators.Group.Finset.Piecewise
import Mathlib.Algebra.Order.BigOperators.Group.Finset
import Mathlib.Data.Multiset.AddSub
import Mathlib.Algebra.Order.Group.Multiset
import Mathlib.Tactic.Abel

/-! # Invariants and measures of the thread system -/

namespace Groot.Conc

open Finset

variable {N : Nat} {T V A : Type} {emit : T → List (V ⊕ A)} {producers : List (List T)}

theorem sum_update {M : Type} [AddCommMonoid M] (g : Pc V A → M) (c : Fin N → Pc V A) (i : Fin N) (x : Pc V A) :
    (∑ j, g (Function.update c i x j)) + g (c i) = (∑ j, g (c j)) + g x := by
  rw [← Finset.add_sum_erase _ (fun j => g (Function.update c i x j)) (Finset.mem_univ i), ← Finset.add_sum_erase _ (fun j => g (c j)) (Finset.mem_univ i)]
  have : ∑ j ∈ Finset.univ.erase i, g (Function.update c i x j) = ∑ j ∈ Finset.univ.erase i, g (c j) := by
    apply Finset.sum_congr rfl
    intro j hj
    rw [Function.update_of_ne (Finset.ne_of_mem_erase hj)]
  simp only [this, Function.update_self]
  abel

/-- 1 for a consumer that has ended. -/
def Pc.ended : Pc V A → Nat
  | .stopped => 1
  | _ => 0

def stoppedCount (c : Fin N → Pc V A) : Nat := ∑ j, (c j).ended

theorem stoppedCount_le (c : Fin N → Pc V A) : stoppedCount c ≤ N := by
  unfold stoppedCount
  calc ∑ j, (c j).ended ≤ ∑ _j : Fin N, 1 := Finset.sum_le_sum (fun j _ => by cases c j <;> simp [Pc.ended])
    _ = N := by simp

theorem Pc.ended_eq_one {p : Pc V A} : p.ended = 1 ↔ p = .stopped := by cases p <;> simp [Pc.ended]
theorem Pc.ended_of_ne {p : Pc V A} (h : p ≠ .stopped) : p.ended = 0 := by cases p <;> simp_all [Pc.ended]
theorem Pc.ended_le (p : Pc V A) : p.ended ≤ 1 := by cases p <;> simp [Pc.ended]

theorem stoppedCount_eq_sub_one {c : Fin N → Pc V A} {i : Fin N} (hi : c i ≠ .stopped) (h : stoppedCount c + 1 = N) :
    othersStopped c i := by
  intro j hj
  by_contra hc
  have e : stoppedCount c ≤ ∑ k : Fin N, (if k = i ∨ k = j then 0 else 1) := by
    apply Finset.sum_le_sum
    intro k _
    split
    · rename_i hk
      rcases hk with rfl | rfl
      · rw [Pc.ended_of_ne hi]
      · rw [Pc.ended_of_ne hc]
    · exact Pc.ended_le _
  have e2 : (∑ k : Fin N, (if k = i ∨ k = j then 0 else 1)) + 2 = N := by
    have : ∀ k : Fin N, (if k = i ∨ k = j then 0 else 1) + ((if k = i then 1 else 0) + (if k = j then 1 else 0)) = 1 := by
      intro k
      by_cases h1 : k = i
      · subst h1
        simp [Ne.symm hj]
      · simp [h1]
        split <;> rfl
    have h3 : ∑ k : Fin N, ((if k = i ∨ k = j then 0 else 1) + ((if k = i then 1 else 0) + (if k = j then 1 else 0))) = N := by
      rw [Finset.sum_congr rfl (fun k _ => this k)]; simp
    rw [Finset.sum_add_distrib, Finset.sum_add_distrib] at h3
    simpa using h3
  omega

/-- The last consumer's pass. -/
def LastOk (s : State N T V A) : Pc V A → Prop
  | .top => True
  | .scan _ saw => saw = true
  | .work _ saw => saw = true
  | .check _ => s.ecq = []
  | .stopped => False

/-- Which part of the protocol the system is in. -/
inductive Phase (s : State N T V A) : Prop where
  | counting (h : s.done = stoppedCount s.cons) (hlt : s.done < N ∨ N = 0) : Phase s
  | last (h : s.done = N) (i : Fin N) (hf : s.finished = true) (ho : othersStopped s.cons i) (hi : LastOk s (s.cons i)) : Phase s
  | over (h : s.done = N + 1) (hf : s.finished = true) (ha : ∀ j, s.cons j = .stopped) (hq : s.ecq = []) : Phase s

/-- What a consumer's local variables tell. -/
def PcOk (finished : Bool) : Pc V A → Prop
  | .scan left saw => (left = false → saw = true) ∧ (saw = true → finished = true)
  | .work _ saw => saw = true → finished = true
  | .check left => left = false → finished = true
  | .stopped => finished = true
  | .top => True

theorem PcOk.mono {p : Pc V A} {b : Bool} (h : PcOk b p) : PcOk true p := by
  cases p <;> simp_all [PcOk]

/-- What a collector's local variables tell. -/
def DOk (N done : Nat) (empty : Prop) : DPc → Prop
  | .top => True
  | .scan left saw => (left = false → saw = true) ∧ (saw = true → N < done)
  | .check left => left = false → N < done ∧ empty
  | .stopped => N < done ∧ empty

theorem DOk.mono {done done' : Nat} {e e' : Prop} {p : DPc} (h : DOk N done e p) (hd : done ≤ done') (he : N < done → e → e') :
    DOk N done' e' p := by
  cases p with
  | top => trivial
  | scan left saw => exact ⟨h.1, fun hs => lt_of_lt_of_le (h.2 hs) hd⟩
  | check left => exact fun hl => ⟨lt_of_lt_of_le (h hl).1 hd, he (h hl).1 (h hl).2⟩
  | stopped => exact ⟨lt_of_lt_of_le h.1 hd, he h.1 h.2⟩

def Pc.pending : Pc V A → List (V ⊕ A)
  | .work p _ => p
  | _ => []

/-- The violations a consumer is about to enqueue. -/
def Pc.pendV (p : Pc V A) : Multiset V := violationsOf p.pending
def Pc.pendA (p : Pc V A) : Multiset A := sizesOf p.pending

/-- The inductive invariant. -/
structure Inv (emit : T → List (V ⊕ A)) (producers : List (List T)) (s : State N T V A) : Prop where
  flag : s.finished = true → ∀ l ∈ s.todo, l = []
  local_ : ∀ i, PcOk s.finished (s.cons i)
  phase : Phase s
  json : DOk N s.done (s.jsonq = []) s.jpc
  stats : DOk N s.done (s.attrq = []) s.spc
  tasks : (s.todo.flatten : Multiset T) + s.ecq + s.taken = (producers.flatten : Multiset T)
  viol : (s.collected : Multiset V) + s.jsonq + ∑ i, (s.cons i).pendV = (s.taken.flatMap (fun t => violationsOf (emit t)) : List V)
  sizes : (s.stats : Multiset A) + s.attrq + ∑ i, (s.cons i).pendA = (s.taken.flatMap (fun t => sizesOf (emit t)) : List A)

theorem inv_start : Inv emit producers (start (N := N) producers) where
  flag := by simp [start]
  local_ := by simp [start, PcOk]
  phase := by
    refine .counting ?_ ?_
    · simp [start, stoppedCount, Pc.ended]
    · simp only [start]; omega
  json := trivial
  stats := trivial
  tasks := by simp [start]
  viol := by simp [start, Pc.pendV, Pc.pending, violationsOf]
  sizes := by simp [start, Pc.pendA, Pc.pending, sizesOf]

theorem Phase.done_le {s : State N T V A} (h : Phase s) (i : Fin N) (hi : s.cons i ≠ .stopped) : s.done ≤ N := by
  cases h with
  | counting h hlt => have := i.pos; omega
  | last h => omega
  | over h hf ha hq => exact absurd (ha i) hi

theorem Phase.of_done_gt {s : State N T V A} (h : Phase s) (hd : N < s.done) (hN : 0 < N) :
    s.finished = true ∧ (∀ j, s.cons j = .stopped) ∧ s.ecq = [] := by
  cases h with
  | counting h hlt => omega
  | last h => omega
  | over h hf ha hq => exact ⟨hf, ha, hq⟩

/-- A step of consumer `i` that changes its program counter to a running one, and not `done`. -/
theorem Phase.move {s : State N T V A} (h : Phase s) (i : Fin N) (x : Pc V A) (q : List T) (hi : s.cons i ≠ .stopped)
    (hx : x ≠ .stopped) (s' : State N T V A) (hs : s'.cons = Function.update s.cons i x) (hd : s'.done = s.done)
    (hf : s'.finished = s.finished) (hq : s'.ecq = q) (hl : othersStopped s.cons i → s.finished = true → LastOk s (s.cons i) → LastOk s' x) :
    Phase s' := by
  cases h with
  | counting h hlt =>
    refine .counting ?_ (by rwa [hd])
    rw [hd, h, hs]
    have e := sum_update Pc.ended s.cons i x
    rw [Pc.ended_of_ne hi, Pc.ended_of_ne hx] at e
    exact e.symm
  | last h j hfj ho hlo =>
    by_cases hij : j = i
    · subst hij
      refine .last (by rw [hd, h]) j (by rw [hf, hfj]) ?_ ?_
      · intro k hk
        rw [hs, Function.update_of_ne hk]; exact ho k hk
      · rw [hs, Function.update_self]
        exact hl ho hfj hlo
    · exact absurd (ho i (fun e => hij e.symm)) hi
  | over h hf ha hq => exact absurd (ha i) hi

theorem local_update {f f' : Bool} {c : Fin N → Pc V A} (h : ∀ i, PcOk f (c i)) (hf : f = true → f' = true) (i : Fin N) (x : Pc V A)
    (hx : PcOk f' x) (j : Fin N) : PcOk f' (Function.update c i x j) := by
  by_cases hj : j = i
  · subst hj; rw [Function.update_self]; exact hx
  · rw [Function.update_of_ne hj]
    cases f with
    | true => rw [hf rfl]; exact h j
    | false =>
      cases f' with
      | true => exact (h j).mono
      | false => exact h j

/-- Changing the program counter of one consumer. -/
theorem pend_update {M : Type} [AddCancelCommMonoid M] (g : Pc V A → M) (c : Fin N → Pc V A) (i : Fin N) (x : Pc V A) (a b d : M)
    (h : a + ∑ j, g (c j) = b) (hx : g x = g (c i) + d) : a + ∑ j, g (Function.update c i x j) = b + d := by
  have e := sum_update g c i x
  have : (∑ j, g (Function.update c i x j)) = (∑ j, g (c j)) + d := by
    apply add_right_cancel (b := g (c i))
    rw [e, hx]; abel
  rw [this, ← h]; abel

theorem pend_same {M : Type} [AddCancelCommMonoid M] (g : Pc V A → M) (c : Fin N → Pc V A) (i : Fin N) (x : Pc V A)
    (hx : g x = g (c i)) : ∑ j, g (Function.update c i x j) = ∑ j, g (c j) := by
  have e := sum_update g c i x
  rw [hx] at e
  exact add_right_cancel e

theorem inv_step {s s' : State N T V A} {th : Thread N} (h : Inv emit producers s) (hs : Step emit th s s') (hN : 0 < N) :
    Inv emit producers s' := by
  cases hs with
  | enqueue a b t ts ht =>
    have hf : s.finished = false := by
      cases hc : s.finished with
      | false => rfl
      | true =>
        have := h.flag hc (t :: ts) (by rw [ht]; simp)
        simp at this
    refine ⟨?_, h.local_, ?_, h.json, h.stats, ?_, h.viol, h.sizes⟩
    · intro hc; simp [hf] at hc
    · cases h.phase with
      | counting h1 h2 => exact .counting h1 h2
      | last h1 i hf1 => rw [hf] at hf1; cases hf1
      | over h1 hf1 => rw [hf] at hf1; cases hf1
    · have := h.tasks
      rw [ht] at this
      rw [← this]
      simp only [List.flatten_append, List.flatten_cons, List.append_assoc, List.cons_append, ← Multiset.coe_add, ← Multiset.cons_coe, ← Multiset.singleton_add, Multiset.coe_nil, add_zero]
      abel
  | finish ht hf =>
    refine ⟨fun _ => ht, fun i => (h.local_ i).mono, ?_, h.json, h.stats, h.tasks, h.viol, h.sizes⟩
    cases h.phase with
    | counting h1 h2 => exact .counting h1 h2
    | last h1 i hf1 => rw [hf] at hf1; cases hf1
    | over h1 hf1 => rw [hf] at hf1; cases hf1
  | enter i hi =>
    have hne : s.cons i ≠ .stopped := by rw [hi]; simp
    refine ⟨h.flag, ?_, ?_, h.json, h.stats, h.tasks, ?_, ?_⟩
    · refine local_update h.local_ id i _ ?_
      exact ⟨by cases s.finished <;> simp, id⟩
    · refine h.phase.move i _ s.ecq hne (by simp) _ rfl rfl rfl rfl ?_
      intro _ hf _
      exact hf
    · show _ + ∑ j, Pc.pendV _ = _
      rw [pend_same Pc.pendV _ _ _ (by rw [hi]; rfl)]; exact h.viol
    · show _ + ∑ j, Pc.pendA _ = _
      rw [pend_same Pc.pendA _ _ _ (by rw [hi]; rfl)]; exact h.sizes
  | take i left saw hi a b t hq =>
    have hne : s.cons i ≠ .stopped := by rw [hi]; simp
    have hl := h.local_ i
    rw [hi] at hl
    refine ⟨h.flag, ?_, ?_, h.json, h.stats, ?_, ?_, ?_⟩
    · exact local_update h.local_ id i _ hl.2
    · refine h.phase.move i _ _ hne (by simp) _ rfl rfl rfl rfl ?_
      intro _ hf h3
      rw [hi] at h3
      exact h3
    · have := h.tasks
      rw [hq] at this
      rw [← this]
      simp only [List.flatten_append, List.flatten_cons, List.append_assoc, List.cons_append, ← Multiset.coe_add, ← Multiset.cons_coe, ← Multiset.singleton_add, Multiset.coe_nil, add_zero]
      abel
    · rw [List.flatMap_append, ← Multiset.coe_add]
      refine pend_update Pc.pendV _ _ _ _ _ _ h.viol ?_
      rw [hi]
      simp [Pc.pendV, Pc.pending, violationsOf]
    · rw [List.flatMap_append, ← Multiset.coe_add]
      refine pend_update Pc.pendA _ _ _ _ _ _ h.sizes ?_
      rw [hi]
      simp [Pc.pendA, Pc.pending, sizesOf]
  | empty i left saw hi hq =>
    have hne : s.cons i ≠ .stopped := by rw [hi]; simp
    have hl := h.local_ i
    rw [hi] at hl
    refine ⟨h.flag, ?_, ?_, h.json, h.stats, h.tasks, ?_, ?_⟩
    · exact local_update h.local_ id i _ (fun e => hl.2 (hl.1 e))
    · refine h.phase.move i _ _ hne (by simp) _ rfl rfl rfl rfl ?_
      intro ho hf h3
      rw [hi] at h3
      rcases hq with hq | hq | hq
      · exact hq
      · rw [hq] at h3; cases h3
      · exact absurd ho hq
    · show _ + ∑ j, Pc.pendV _ = _
      rw [pend_same Pc.pendV _ _ _ (by rw [hi]; rfl)]; exact h.viol
    · show _ + ∑ j, Pc.pendA _ = _
      rw [pend_same Pc.pendA _ _ _ (by rw [hi]; rfl)]; exact h.sizes
  | violation i v p saw hi =>
    have hne : s.cons i ≠ .stopped := by rw [hi]; simp
    have hl := h.local_ i
    rw [hi] at hl
    have hle := h.phase.done_le i hne
    refine ⟨h.flag, ?_, ?_, h.json.mono (le_refl _) (fun hc => by omega), h.stats, h.tasks, ?_, ?_⟩
    · exact local_update h.local_ id i _ hl
    · refine h.phase.move i _ _ hne (by simp) _ rfl rfl rfl rfl ?_
      intro _ hf h3
      rw [hi] at h3
      exact h3
    · have e := sum_update Pc.pendV s.cons i (.work p saw)
      have h2 := h.viol
      have h4 : (Pc.work (.inl v :: p) saw : Pc V A).pendV = {v} + (Pc.work p saw : Pc V A).pendV := by
        simp [Pc.pendV, Pc.pending, violationsOf]
      rw [hi, h4] at e
      rw [← h2, ← Multiset.coe_add]
      have h5 : (∑ j, (s.cons j).pendV) = {v} + ∑ j, (Function.update s.cons i (.work p saw) j).pendV := by
        apply add_right_cancel (b := (Pc.work p saw : Pc V A).pendV)
        rw [← e]; abel
      rw [h5, Multiset.coe_singleton]
      abel
    · show _ + ∑ j, Pc.pendA _ = _
      rw [pend_same Pc.pendA _ _ _ (by rw [hi]; rfl)]; exact h.sizes
  | size i x p saw hi =>
    have hne : s.cons i ≠ .stopped := by rw [hi]; simp
    have hl := h.local_ i
    rw [hi] at hl
    have hle := h.phase.done_le i hne
    refine ⟨h.flag, ?_, ?_, h.json, h.stats.mono (le_refl _) (fun hc => by omega), h.tasks, ?_, ?_⟩
    · exact local_update h.local_ id i _ hl
    · refine h.phase.move i _ _ hne (by simp) _ rfl rfl rfl rfl ?_
      intro _ hf h3
      rw [hi] at h3
      exact h3
    · show _ + ∑ j, Pc.pendV _ = _
      rw [pend_same Pc.pendV _ _ _ (by rw [hi]; rfl)]; exact h.viol
    · have e := sum_update Pc.pendA s.cons i (.work p saw)
      have h2 := h.sizes
      have h4 : (Pc.work (.inr x :: p) saw : Pc V A).pendA = {x} + (Pc.work p saw : Pc V A).pendA := by
        simp [Pc.pendA, Pc.pending, sizesOf]
      rw [hi, h4] at e
      rw [← h2, ← Multiset.coe_add]
      have h5 : (∑ j, (s.cons j).pendA) = {x} + ∑ j, (Function.update s.cons i (.work p saw) j).pendA := by
        apply add_right_cancel (b := (Pc.work p saw : Pc V A).pendA)
        rw [← e]; abel
      rw [h5, Multiset.coe_singleton]
      abel
  | processed i saw hi =>
    have hne : s.cons i ≠ .stopped := by rw [hi]; simp
    have hl := h.local_ i
    rw [hi] at hl
    refine ⟨h.flag, ?_, ?_, h.json, h.stats, h.tasks, ?_, ?_⟩
    · exact local_update h.local_ id i _ ⟨by simp, hl⟩
    · refine h.phase.move i _ _ hne (by simp) _ rfl rfl rfl rfl ?_
      intro _ hf h3
      rw [hi] at h3
      exact h3
    · show _ + ∑ j, Pc.pendV _ = _
      rw [pend_same Pc.pendV _ _ _ (by rw [hi]; rfl)]; exact h.viol
    · show _ + ∑ j, Pc.pendA _ = _
      rw [pend_same Pc.pendA _ _ _ (by rw [hi]; rfl)]; exact h.sizes
  | again i hi =>
    have hne : s.cons i ≠ .stopped := by rw [hi]; simp
    refine ⟨h.flag, ?_, ?_, h.json, h.stats, h.tasks, ?_, ?_⟩
    · exact local_update h.local_ id i _ trivial
    · refine h.phase.move i _ _ hne (by simp) _ rfl rfl rfl rfl ?_
      intro _ hf h3
      trivial
    · show _ + ∑ j, Pc.pendV _ = _
      rw [pend_same Pc.pendV _ _ _ (by rw [hi]; rfl)]; exact h.viol
    · show _ + ∑ j, Pc.pendA _ = _
      rw [pend_same Pc.pendA _ _ _ (by rw [hi]; rfl)]; exact h.sizes
  | count i hi =>
    have hne : s.cons i ≠ .stopped := by rw [hi]; simp
    have hl := h.local_ i
    rw [hi] at hl
    have hf : s.finished = true := hl rfl
    have hv : ∀ b : Prop, ∀ _ : Decidable b, ((if b then .top else .stopped : Pc V A)).pending = [] := by
      intro b _; split <;> rfl
    refine ⟨h.flag, ?_, ?_, h.json.mono (Nat.le_succ _) (fun _ => id), h.stats.mono (Nat.le_succ _) (fun _ => id), h.tasks, ?_, ?_⟩
    · refine local_update h.local_ id i _ ?_
      split
      · trivial
      · exact hf
    · cases h.phase with
      | counting h1 h2 =>
        by_cases hd : s.done + 1 = N
        · simp only [hd, if_true]
          refine .last rfl i hf ?_ ?_
          · intro k hk
            show Function.update s.cons i _ k = _
            rw [Function.update_of_ne hk]
            exact stoppedCount_eq_sub_one hne (by rw [← h1]; exact hd) k hk
          · show LastOk _ (Function.update s.cons i _ i)
            rw [Function.update_self]
            trivial
        · simp only [hd, if_false]
          refine .counting ?_ ?_
          · have e := sum_update Pc.ended s.cons i .stopped
            rw [Pc.ended_of_ne hne] at e
            show s.done + 1 = ∑ j, _
            rw [h1]
            exact e.symm
          · show s.done + 1 < N ∨ N = 0
            omega
      | last h1 j hfj ho hlo =>
        have hij : j = i := by
          by_contra hij
          exact hne (ho i (fun e => hij e.symm))
        subst hij
        have hd : ¬ (s.done + 1 = N) := by omega
        simp only [hd, if_false]
        refine .over (by show s.done + 1 = _; omega) hf ?_ ?_
        · intro k
          show Function.update s.cons j _ k = _
          by_cases hk : k = j
          · subst hk; rw [Function.update_self]
          · rw [Function.update_of_ne hk]; exact ho k hk
        · rw [hi] at hlo; exact hlo
      | over h1 hf ha hq => exact absurd (ha i) hne
    · show _ + ∑ j, Pc.pendV _ = _
      rw [pend_same Pc.pendV _ _ _ (by rw [hi]; unfold Pc.pendV; rw [hv]; rfl)]; exact h.viol
    · show _ + ∑ j, Pc.pendA _ = _
      rw [pend_same Pc.pendA _ _ _ (by rw [hi]; unfold Pc.pendA; rw [hv]; rfl)]; exact h.sizes
  | jEnter hj =>
    refine ⟨h.flag, h.local_, ?_, ?_, h.stats, h.tasks, h.viol, h.sizes⟩
    · cases h.phase with
      | counting h1 h2 => exact .counting h1 h2
      | last h1 i hf ho hi => exact .last h1 i hf ho (by revert hi; cases hc : s.cons i <;> simp [LastOk, hc])
      | over h1 hf ha hq => exact .over h1 hf ha hq
    · exact ⟨by simp, by simp⟩
  | jTake left saw hj a b v hq =>
    have hl := h.json
    rw [hj] at hl
    refine ⟨h.flag, h.local_, ?_, ⟨by simp, hl.2⟩, h.stats, h.tasks, ?_, h.sizes⟩
    · cases h.phase with
      | counting h1 h2 => exact .counting h1 h2
      | last h1 i hf ho hi => exact .last h1 i hf ho (by revert hi; cases hc : s.cons i <;> simp [LastOk, hc])
      | over h1 hf ha hq => exact .over h1 hf ha hq
    · have h2 := h.viol
      rw [hq] at h2
      rw [← h2]
      congr 1
      simp only [List.flatten_append, List.flatten_cons, List.append_assoc, List.cons_append, ← Multiset.coe_add, ← Multiset.cons_coe, ← Multiset.singleton_add, Multiset.coe_nil, add_zero]
      abel
  | jEmpty left saw hj hq =>
    have hl := h.json
    rw [hj] at hl
    refine ⟨h.flag, h.local_, ?_, ?_, h.stats, h.tasks, h.viol, h.sizes⟩
    · cases h.phase with
      | counting h1 h2 => exact .counting h1 h2
      | last h1 i hf ho hi => exact .last h1 i hf ho (by revert hi; cases hc : s.cons i <;> simp [LastOk, hc])
      | over h1 hf ha hq => exact .over h1 hf ha hq
    · intro e
      refine ⟨hl.2 (hl.1 e), ?_⟩
      rcases hq with hq | hq
      · exact hq
      · rw [hl.1 e] at hq; cases hq
  | jEnd left hj =>
    have hl := h.json
    rw [hj] at hl
    refine ⟨h.flag, h.local_, ?_, ?_, h.stats, h.tasks, h.viol, h.sizes⟩
    · cases h.phase with
      | counting h1 h2 => exact .counting h1 h2
      | last h1 i hf ho hi => exact .last h1 i hf ho (by revert hi; cases hc : s.cons i <;> simp [LastOk, hc])
      | over h1 hf ha hq => exact .over h1 hf ha hq
    · cases left with
      | true => trivial
      | false => exact hl rfl
  | sEnter hj =>
    refine ⟨h.flag, h.local_, ?_, h.json, ?_, h.tasks, h.viol, h.sizes⟩
    · cases h.phase with
      | counting h1 h2 => exact .counting h1 h2
      | last h1 i hf ho hi => exact .last h1 i hf ho (by revert hi; cases hc : s.cons i <;> simp [LastOk, hc])
      | over h1 hf ha hq => exact .over h1 hf ha hq
    · exact ⟨by simp, by simp⟩
  | sTake left saw hj a b v hq =>
    have hl := h.stats
    rw [hj] at hl
    refine ⟨h.flag, h.local_, ?_, h.json, ⟨by simp, hl.2⟩, h.tasks, h.viol, ?_⟩
    · cases h.phase with
      | counting h1 h2 => exact .counting h1 h2
      | last h1 i hf ho hi => exact .last h1 i hf ho (by revert hi; cases hc : s.cons i <;> simp [LastOk, hc])
      | over h1 hf ha hq => exact .over h1 hf ha hq
    · have h2 := h.sizes
      rw [hq] at h2
      rw [← h2]
      congr 1
      simp only [List.flatten_append, List.flatten_cons, List.append_assoc, List.cons_append, ← Multiset.coe_add, ← Multiset.cons_coe, ← Multiset.singleton_add, Multiset.coe_nil, add_zero]
      abel
  | sEmpty left saw hj hq =>
    have hl := h.stats
    rw [hj] at hl
    refine ⟨h.flag, h.local_, ?_, h.json, ?_, h.tasks, h.viol, h.sizes⟩
    · cases h.phase with
      | counting h1 h2 => exact .counting h1 h2
      | last h1 i hf ho hi => exact .last h1 i hf ho (by revert hi; cases hc : s.cons i <;> simp [LastOk, hc])
      | over h1 hf ha hq => exact .over h1 hf ha hq
    · intro e
      refine ⟨hl.2 (hl.1 e), ?_⟩
      rcases hq with hq | hq
      · exact hq
      · rw [hl.1 e] at hq; cases hq
  | sEnd left hj =>
    have hl := h.stats
    rw [hj] at hl
    refine ⟨h.flag, h.local_, ?_, h.json, ?_, h.tasks, h.viol, h.sizes⟩
    · cases h.phase with
      | counting h1 h2 => exact .counting h1 h2
      | last h1 i hf ho hi => exact .last h1 i hf ho (by revert hi; cases hc : s.cons i <;> simp [LastOk, hc])
      | over h1 hf ha hq => exact .over h1 hf ha hq
    · cases left with
      | true => trivial
      | false => exact hl rfl

theorem Reachable.inv {s : State N T V A} (h : Reachable emit producers s) (hN : 0 < N) : Inv emit producers s := by
  induction h with
  | start => exact inv_start
  | step _ hs ih => exact inv_step ih hs hN

end Groot.Conc
