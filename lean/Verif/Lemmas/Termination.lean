import Verif.Lemmas.Concurrency
import Mathlib.Algebra.Order.BigOperators.Group.Finset
import Mathlib.Data.Finset.Lattice.Fold
import Mathlib.Tactic.Linarith

/-! # The thread system ends -/

namespace Groot.Conc

open Finset

variable {N : Nat} {T V A : Type} {emit : T → List (V ⊕ A)} {producers : List (List T)}

/-- A thread that has ended makes no step and stays ended. -/
theorem Ended.stable {s s' : State N T V A} {th th' : Thread N} (h : Ended s th) (hs : Step emit th' s s') : Ended s' th := by
  cases th with
  | gen => cases hs <;> first | exact h | rfl
  | json => cases hs <;> simp_all [Ended]
  | stats => cases hs <;> simp_all [Ended]
  | cons i =>
    cases hs <;> first
      | exact h
      | (rename_i k hk
         simp only [Ended] at h ⊢
         rw [Function.update_of_ne]
         · exact h
         · rintro rfl; simp [hk] at h)
      | (rename_i k _ hk
         simp only [Ended] at h ⊢
         rw [Function.update_of_ne]
         · exact h
         · rintro rfl; simp [hk] at h)
      | (rename_i k _ _ hk _
         simp only [Ended] at h ⊢
         rw [Function.update_of_ne]
         · exact h
         · rintro rfl; simp [hk] at h)
      | (rename_i k _ _ _ hk
         simp only [Ended] at h ⊢
         rw [Function.update_of_ne]
         · exact h
         · rintro rfl; simp [hk] at h)
      | (rename_i k _ _ _ _ _ hk _
         simp only [Ended] at h ⊢
         rw [Function.update_of_ne]
         · exact h
         · rintro rfl; simp [hk] at h)

/-- No thread is ever blocked. -/
theorem enabled (s : State N T V A) (th : Thread N) (h : ¬ Ended s th) : ∃ s', Step emit th s s' := by
  cases th with
  | gen =>
    by_cases ht : ∀ l ∈ s.todo, l = []
    · exact ⟨_, .finish ht (by simpa [Ended] using h)⟩
    · push Not at ht
      obtain ⟨l, hl, hne⟩ := ht
      obtain ⟨a, b, e⟩ := List.append_of_mem hl
      obtain ⟨t, ts, rfl⟩ := List.exists_cons_of_ne_nil hne
      exact ⟨_, .enqueue a b t ts e⟩
  | cons i =>
    cases hc : s.cons i with
    | top => exact ⟨_, .enter i hc⟩
    | scan left saw =>
      cases hq : s.ecq with
      | nil => exact ⟨_, .empty i left saw hc (.inl hq)⟩
      | cons t q => exact ⟨_, .take i left saw hc [] q t (by simpa using hq)⟩
    | work p saw =>
      rcases p with _ | ⟨v | x, p⟩
      · exact ⟨_, .processed i saw hc⟩
      · exact ⟨_, .violation i v p saw hc⟩
      · exact ⟨_, .size i x p saw hc⟩
    | check left =>
      cases left with
      | true => exact ⟨_, .again i hc⟩
      | false => exact ⟨_, .count i hc⟩
    | stopped => exact absurd hc h
  | json =>
    cases hc : s.jpc with
    | top => exact ⟨_, .jEnter hc⟩
    | scan left saw =>
      cases hq : s.jsonq with
      | nil => exact ⟨_, .jEmpty left saw hc (.inl hq)⟩
      | cons t q => exact ⟨_, .jTake left saw hc [] q t (by simpa using hq)⟩
    | check left => exact ⟨_, .jEnd left hc⟩
    | stopped => exact absurd hc h
  | stats =>
    cases hc : s.spc with
    | top => exact ⟨_, .sEnter hc⟩
    | scan left saw =>
      cases hq : s.attrq with
      | nil => exact ⟨_, .sEmpty left saw hc (.inl hq)⟩
      | cons t q => exact ⟨_, .sTake left saw hc [] q t (by simpa using hq)⟩
    | check left => exact ⟨_, .sEnd left hc⟩
    | stopped => exact absurd hc h

/-! ## Measures -/

def genM (s : State N T V A) : Nat := s.todo.flatten.length + if s.finished then 0 else 1

theorem genM_step {s s' : State N T V A} {th : Thread N} (hs : Step emit th s s') :
    genM s' ≤ genM s ∧ (th = .gen → genM s' < genM s) := by
  cases hs with
  | enqueue a b t ts h =>
    have : genM s = (a ++ (t :: ts) :: b).flatten.length + if s.finished then 0 else 1 := by rw [genM, h]
    rw [this]
    simp only [genM, List.flatten_append, List.flatten_cons, List.length_append, List.length_cons]
    constructor
    · omega
    · intro _; omega
  | finish h hf => simp [genM, hf]
  | _ => exact ⟨le_refl _, by simp⟩

def Pc.weight : Pc V A → Nat
  | .stopped => 0
  | .check false => 1
  | .scan false _ => 2
  | .top => 3
  | .check true => 4
  | .scan true _ => 5
  | .work p _ => 6 + p.length

def consM (emit : T → List (V ⊕ A)) (s : State N T V A) : Nat :=
  (s.ecq.map (fun t => 20 + (emit t).length)).sum + ∑ i, (s.cons i).weight + 20 * (N + 1 - s.done)

theorem consM_step {s s' : State N T V A} {th : Thread N} (h : Inv emit producers s) (hf : s.finished = true)
    (hs : Step emit th s s') : consM emit s' ≤ consM emit s ∧ (∀ i, th = .cons i → consM emit s' < consM emit s) := by
  have key : ∀ {i : Fin N} {x : Pc V A}, (∑ j, (Function.update s.cons i x j).weight) + (s.cons i).weight = (∑ j, (s.cons j).weight) + x.weight :=
    fun {i x} => sum_update Pc.weight s.cons i x
  suffices hlt : (th = .gen ∨ th = .json ∨ th = .stats) ∧ consM emit s' = consM emit s ∨ consM emit s' < consM emit s by
    rcases hlt with ⟨h1 | h1 | h1, h2⟩ | h2
    · subst h1; exact ⟨le_of_eq h2, by simp⟩
    · subst h1; exact ⟨le_of_eq h2, by simp⟩
    · subst h1; exact ⟨le_of_eq h2, by simp⟩
    · exact ⟨le_of_lt h2, fun _ _ => h2⟩
  cases hs with
  | enqueue a b t ts ht =>
    have := h.flag hf (t :: ts) (by rw [ht]; simp)
    simp at this
  | finish ht hf' => rw [hf] at hf'; cases hf'
  | enter i hi =>
    right
    have e := key (i := i) (x := .scan (!s.finished) s.finished)
    simp only [hf] at e
    rw [hi] at e
    simp only [consM, Pc.weight, hf, Bool.not_true] at e ⊢
    omega
  | take i left saw hi a b t hq =>
    right
    have e := key (i := i) (x := .work (emit t) saw)
    have hw : (Pc.scan left saw : Pc V A).weight ≥ 2 := by cases left <;> simp [Pc.weight]
    rw [hi] at e
    rw [consM, consM, hq]
    simp only [Pc.weight, List.map_append, List.map_cons, List.sum_append, List.sum_cons] at e hw ⊢
    omega
  | empty i left saw hi hq =>
    right
    have e := key (i := i) (x := .check left)
    rw [hi] at e
    cases left <;> simp only [consM, Pc.weight] at e ⊢ <;> omega
  | violation i v p saw hi =>
    right
    have e := key (i := i) (x := .work p saw)
    rw [hi] at e
    simp only [consM, Pc.weight, List.length_cons] at e ⊢
    omega
  | size i v p saw hi =>
    right
    have e := key (i := i) (x := .work p saw)
    rw [hi] at e
    simp only [consM, Pc.weight, List.length_cons] at e ⊢
    omega
  | processed i saw hi =>
    right
    have e := key (i := i) (x := .scan true saw)
    rw [hi] at e
    simp only [consM, Pc.weight, List.length_nil] at e ⊢
    omega
  | again i hi =>
    right
    have e := key (i := i) (x := .top)
    rw [hi] at e
    simp only [consM, Pc.weight] at e ⊢
    omega
  | count i hi =>
    right
    have e := key (i := i) (x := if s.done + 1 = N then .top else .stopped)
    have hle := h.phase.done_le i (by rw [hi]; simp)
    have hw : (if s.done + 1 = N then .top else .stopped : Pc V A).weight ≤ 3 := by split <;> simp [Pc.weight]
    rw [hi] at e
    simp only [consM] at e ⊢
    have h1 : (Pc.check false : Pc V A).weight = 1 := rfl
    omega
  | jEnter => left; exact ⟨by simp, rfl⟩
  | jTake => left; exact ⟨by simp, rfl⟩
  | jEmpty => left; exact ⟨by simp, rfl⟩
  | jEnd => left; exact ⟨by simp, rfl⟩
  | sEnter => left; exact ⟨by simp, rfl⟩
  | sTake => left; exact ⟨by simp, rfl⟩
  | sEmpty => left; exact ⟨by simp, rfl⟩
  | sEnd => left; exact ⟨by simp, rfl⟩

def DPc.weight : DPc → Nat
  | .stopped => 0
  | .check false => 1
  | .scan false _ => 2
  | .top => 3
  | .check true => 4
  | .scan true _ => 5

theorem done_of_all_stopped {s : State N T V A} (h : Inv emit producers s) (hN : 0 < N) (ha : ∀ i, s.cons i = .stopped) :
    s.done = N + 1 := by
  cases h.phase with
  | counting h1 h2 =>
    have : stoppedCount s.cons = N := by simp [stoppedCount, ha, Pc.ended]
    omega
  | last h1 i hf ho hi => rw [ha i] at hi; exact absurd hi (by simp [LastOk])
  | over h1 => exact h1

def jsonM (s : State N T V A) : Nat := 4 * s.jsonq.length + s.jpc.weight
def statM (s : State N T V A) : Nat := 4 * s.attrq.length + s.spc.weight

theorem jsonM_step {s s' : State N T V A} {th : Thread N} (hd : N < s.done) (ha : ∀ i, s.cons i = .stopped)
    (hs : Step emit th s s') : jsonM s' ≤ jsonM s ∧ (th = .json → jsonM s' < jsonM s) := by
  cases hs with
  | enqueue => exact ⟨le_refl _, by simp⟩
  | finish => exact ⟨le_refl _, by simp⟩
  | sEnter => exact ⟨le_refl _, by simp⟩
  | sTake => exact ⟨le_refl _, by simp⟩
  | sEmpty => exact ⟨le_refl _, by simp⟩
  | sEnd => exact ⟨le_refl _, by simp⟩
  | jEnter hj =>
    have h1 : decide (s.done ≤ N) = false := by simp; omega
    simp [jsonM, hj, DPc.weight, h1]
  | jTake left saw hj a b v hq =>
    have : jsonM s = 4 * (a ++ v :: b).length + (DPc.scan left saw).weight := by rw [jsonM, hq, hj]
    rw [this]
    cases left <;> simp [jsonM, DPc.weight] <;> omega
  | jEmpty left saw hj hq => cases left <;> simp [jsonM, hj, DPc.weight]
  | jEnd left hj => cases left <;> simp [jsonM, hj, DPc.weight]
  | enter i hi => rw [ha i] at hi; cases hi
  | take i left saw hi => rw [ha i] at hi; cases hi
  | empty i left saw hi => rw [ha i] at hi; cases hi
  | violation i v p saw hi => rw [ha i] at hi; cases hi
  | size i v p saw hi => rw [ha i] at hi; cases hi
  | processed i saw hi => rw [ha i] at hi; cases hi
  | again i hi => rw [ha i] at hi; cases hi
  | count i hi => rw [ha i] at hi; cases hi

theorem statM_step {s s' : State N T V A} {th : Thread N} (hd : N < s.done) (ha : ∀ i, s.cons i = .stopped)
    (hs : Step emit th s s') : statM s' ≤ statM s ∧ (th = .stats → statM s' < statM s) := by
  cases hs with
  | enqueue => exact ⟨le_refl _, by simp⟩
  | finish => exact ⟨le_refl _, by simp⟩
  | jEnter => exact ⟨le_refl _, by simp⟩
  | jTake => exact ⟨le_refl _, by simp⟩
  | jEmpty => exact ⟨le_refl _, by simp⟩
  | jEnd => exact ⟨le_refl _, by simp⟩
  | sEnter hj =>
    have h1 : decide (s.done ≤ N) = false := by simp; omega
    simp [statM, hj, DPc.weight, h1]
  | sTake left saw hj a b v hq =>
    have : statM s = 4 * (a ++ v :: b).length + (DPc.scan left saw).weight := by rw [statM, hq, hj]
    rw [this]
    cases left <;> simp [statM, DPc.weight] <;> omega
  | sEmpty left saw hj hq => cases left <;> simp [statM, hj, DPc.weight]
  | sEnd left hj => cases left <;> simp [statM, hj, DPc.weight]
  | enter i hi => rw [ha i] at hi; cases hi
  | take i left saw hi => rw [ha i] at hi; cases hi
  | empty i left saw hi => rw [ha i] at hi; cases hi
  | violation i v p saw hi => rw [ha i] at hi; cases hi
  | size i v p saw hi => rw [ha i] at hi; cases hi
  | processed i saw hi => rw [ha i] at hi; cases hi
  | again i hi => rw [ha i] at hi; cases hi
  | count i hi => rw [ha i] at hi; cases hi

/-! ## Fair executions -/

theorem eventually (f : Nat → Nat) (goal : Nat → Prop) (n0 : Nat) (hf : ∀ n, n0 ≤ n → f (n + 1) ≤ f n)
    (hg : ∀ n, n0 ≤ n → ∃ m, n ≤ m ∧ (goal m ∨ f (m + 1) < f m)) : ∃ n, n0 ≤ n ∧ goal n := by
  have mono : ∀ n m, n0 ≤ n → n ≤ m → f m ≤ f n := by
    intro n m hn hm
    induction m, hm using Nat.le_induction with
    | base => exact le_refl _
    | succ k hk ih => exact le_trans (hf k (le_trans hn hk)) ih
  have : ∀ k n, n0 ≤ n → f n ≤ k → ∃ n, n0 ≤ n ∧ goal n := by
    intro k
    induction k with
    | zero =>
      intro n hn hk
      obtain ⟨m, hm, h | h⟩ := hg n hn
      · exact ⟨m, le_trans hn hm, h⟩
      · have := mono n m hn hm; omega
    | succ k ih =>
      intro n hn hk
      obtain ⟨m, hm, h | h⟩ := hg n hn
      · exact ⟨m, le_trans hn hm, h⟩
      · have := mono n m hn hm
        exact ih (m + 1) (by omega) (by omega)
  exact this (f n0) n0 (le_refl _) (le_refl _)

variable {σ : Nat → State N T V A}

theorem Execution.inv (h : Execution emit producers σ) (hN : 0 < N) (n : Nat) : Inv emit producers (σ n) := by
  induction n with
  | zero => rw [h.init]; exact inv_start
  | succ n ih =>
    rcases h.next n with e | ⟨th, hs⟩
    · rw [e]; exact ih
    · exact inv_step ih hs hN

theorem Execution.ended_mono (h : Execution emit producers σ) {th : Thread N} {n m : Nat} (hn : n ≤ m) (he : Ended (σ n) th) :
    Ended (σ m) th := by
  induction m, hn using Nat.le_induction with
  | base => exact he
  | succ k _ ih =>
    rcases h.next k with e | ⟨_, hs⟩
    · rw [e]; exact ih
    · exact ih.stable hs

/-- One thread, with a measure that its steps decrease and no step increases. -/
theorem Execution.ends (h : Execution emit producers σ) (hfair : Fair emit σ) (th : Thread N) (f : State N T V A → Nat) (n0 : Nat)
    (hf : ∀ n, n0 ≤ n → ∀ th' s', Step emit th' (σ n) s' → f s' ≤ f (σ n) ∧ (th' = th → f s' < f (σ n))) :
    ∃ n, n0 ≤ n ∧ Ended (σ n) th := by
  refine eventually (fun n => f (σ n)) (fun n => Ended (σ n) th) n0 ?_ ?_
  · intro n hn
    rcases h.next n with e | ⟨th', hs⟩
    · exact le_of_eq (congrArg f e)
    · exact (hf n hn _ _ hs).1
  · intro n hn
    obtain ⟨m, hm, h1 | h1⟩ := hfair th n
    · exact ⟨m, hm, .inl h1⟩
    · exact ⟨m, hm, .inr ((hf m (le_trans hn hm) _ _ h1).2 rfl)⟩

theorem fair_returns (h : Execution emit producers σ) (hfair : Fair emit σ) (hN : 0 < N) : ∃ n, ∀ m, n ≤ m → Returned (σ m) := by
  obtain ⟨n1, _, h1⟩ := h.ends hfair .gen genM 0 (fun n _ th' s' hs => genM_step hs)
  have hc : ∀ i, ∃ n, n1 ≤ n ∧ Ended (σ n) (.cons i) := by
    intro i
    refine h.ends hfair (.cons i) (consM emit) n1 ?_
    intro n hn th' s' hs
    have := consM_step (h.inv hN n) (h.ended_mono hn h1) hs
    exact ⟨this.1, fun e => this.2 i e⟩
  choose m hm1 hm2 using hc
  let n2 := n1 + Finset.univ.sum m
  have h2 : ∀ n, n2 ≤ n → ∀ i, (σ n).cons i = .stopped := by
    intro n hn i
    refine h.ended_mono (le_trans ?_ hn) (hm2 i)
    have : m i ≤ Finset.univ.sum m := Finset.single_le_sum (fun _ _ => Nat.zero_le _) (Finset.mem_univ i)
    omega
  have hd : ∀ n, n2 ≤ n → N < (σ n).done := by
    intro n hn
    have := done_of_all_stopped (h.inv hN n) hN (h2 n hn)
    omega
  obtain ⟨n3, hn3, h3⟩ := h.ends hfair .json jsonM n2 (fun n hn th' s' hs => jsonM_step (hd n hn) (h2 n hn) hs)
  obtain ⟨n4, hn4, h4⟩ := h.ends hfair .stats statM n2 (fun n hn th' s' hs => statM_step (hd n hn) (h2 n hn) hs)
  refine ⟨n3 + n4, ?_⟩
  intro k hk th
  cases th with
  | gen => exact h.ended_mono (n := n1) (by omega) h1
  | cons i => exact h2 k (by omega) i
  | json => exact h.ended_mono (n := n3) (by omega) h3
  | stats => exact h.ended_mono (n := n4) (by omega) h4

/-! ## From every state the end can be reached -/

theorem Leads.trans {a b c : State N T V A} (h1 : Leads emit a b) (h2 : Leads emit b c) : Leads emit a c := by
  induction h2 with
  | refl => exact h1
  | step _ hs ih => exact .step ih hs

theorem stage (P : State N T V A → Prop) (goal : State N T V A → Prop) (f : State N T V A → Nat)
    (hP : ∀ s, P s → ¬ goal s → ∃ th s', Step emit th s s' ∧ f s' < f s ∧ P s') (s : State N T V A) (hs : P s) :
    ∃ s', Leads emit s s' ∧ P s' ∧ goal s' := by
  generalize hk : f s = k
  induction k using Nat.strong_induction_on generalizing s with
  | _ k ih =>
    by_cases hg : goal s
    · exact ⟨s, .refl s, hs, hg⟩
    · obtain ⟨th, s1, h1, h2, h3⟩ := hP s hs hg
      obtain ⟨s', h4, h5⟩ := ih (f s1) (by omega) s1 h3 rfl
      exact ⟨s', Leads.trans (.step (.refl s) h1) h4, h5⟩

theorem can_return {s : State N T V A} (h : Inv emit producers s) (hN : 0 < N) : ∃ s', Leads emit s s' ∧ Returned s' := by
  obtain ⟨s1, l1, h1, f1⟩ := stage (emit := emit) (fun s => Inv emit producers s) (fun s => Ended s .gen) genM (by
    intro s hs hg
    obtain ⟨s', hs'⟩ := enabled (emit := emit) s .gen hg
    exact ⟨_, s', hs', (genM_step hs').2 rfl, inv_step hs hs' hN⟩) s h
  obtain ⟨s2, l2, ⟨h2, f2⟩, c2⟩ := stage (emit := emit) (fun s => Inv emit producers s ∧ Ended s .gen) (fun s => ∀ i, Ended s (.cons i))
    (consM emit) (by
    intro s hs hg
    push Not at hg
    obtain ⟨i, hi⟩ := hg
    obtain ⟨s', hs'⟩ := enabled (emit := emit) s (.cons i) hi
    exact ⟨_, s', hs', (consM_step hs.1 hs.2 hs').2 i rfl, inv_step hs.1 hs' hN, hs.2.stable hs'⟩) s1 ⟨h1, f1⟩
  obtain ⟨s3, l3, ⟨h3, f3, c3⟩, j3⟩ := stage (emit := emit)
    (fun s => Inv emit producers s ∧ Ended s .gen ∧ ∀ i, Ended s (.cons i)) (fun s => Ended s .json) jsonM (by
    intro s hs hg
    obtain ⟨s', hs'⟩ := enabled (emit := emit) s .json hg
    have hd := done_of_all_stopped hs.1 hN hs.2.2
    exact ⟨_, s', hs', (jsonM_step (by omega) hs.2.2 hs').2 rfl, inv_step hs.1 hs' hN, hs.2.1.stable hs', fun i => (hs.2.2 i).stable hs'⟩)
    s2 ⟨h2, f2, c2⟩
  obtain ⟨s4, l4, ⟨h4, f4, c4, j4⟩, t4⟩ := stage (emit := emit)
    (fun s => Inv emit producers s ∧ Ended s .gen ∧ (∀ i, Ended s (.cons i)) ∧ Ended s .json) (fun s => Ended s .stats) statM (by
    intro s hs hg
    obtain ⟨s', hs'⟩ := enabled (emit := emit) s .stats hg
    have hd := done_of_all_stopped hs.1 hN hs.2.2.1
    exact ⟨_, s', hs', (statM_step (by omega) hs.2.2.1 hs').2 rfl, inv_step hs.1 hs' hN, hs.2.1.stable hs',
      fun i => (hs.2.2.1 i).stable hs', hs.2.2.2.stable hs'⟩) s3 ⟨h3, f3, c3, j3⟩
  refine ⟨s4, ((l1.trans l2).trans l3).trans l4, ?_⟩
  intro th
  cases th with
  | gen => exact f4
  | cons i => exact c4 i
  | json => exact j4
  | stats => exact t4

/-- Everything at the end. -/
theorem Inv.final {s : State N T V A} (h : Inv emit producers s) (hN : 0 < N) (hr : Returned s) :
    s.taken.Perm producers.flatten ∧ s.collected.Perm (s.taken.flatMap (fun t => violationsOf (emit t))) ∧
    s.stats.Perm (s.taken.flatMap (fun t => sizesOf (emit t))) ∧ s.ecq = [] ∧ s.jsonq = [] ∧ s.attrq = [] := by
  have ha : ∀ i, s.cons i = .stopped := fun i => hr (.cons i)
  have hd : N < s.done := by have := done_of_all_stopped h hN ha; omega
  obtain ⟨hf, -, hq⟩ := h.phase.of_done_gt hd hN
  have hj : s.jsonq = [] := by
    have h1 := h.json
    have h2 : s.jpc = .stopped := hr .json
    rw [h2] at h1
    exact h1.2
  have hs : s.attrq = [] := by
    have h1 := h.stats
    have h2 : s.spc = .stopped := hr .stats
    rw [h2] at h1
    exact h1.2
  have ht : s.todo.flatten = [] := by rw [List.flatten_eq_nil_iff]; exact h.flag hf
  refine ⟨?_, ?_, ?_, hq, hj, hs⟩
  · have := h.tasks
    rw [ht, hq] at this
    simpa using this
  · have := h.viol
    rw [hj] at this
    simpa [ha, Pc.pendV, Pc.pending, violationsOf] using this
  · have := h.sizes
    rw [hs] at this
    simpa [ha, Pc.pendA, Pc.pending, sizesOf] using this

end Groot.Conc
