import Verif.Lemmas.Producers
import Verif.Lemmas.Termination
import Verif.Props.Labels
import Verif.Props.Concurrency

/-! # The producer threads of a job, and the other threads -/

namespace Groot
open Spec

namespace Prod

/-- What is left after some steps. -/
theorem produces_inv {types : TypeSet} {g0 : LGraph} {p q : Pool} {γs : List Ghost} {n : Nat} {ts : List Task} (h : PoolInv types g0 p γs)
    (hp : Produces types p n ts q) :
    ∃ γs', PoolInv types g0 q γs' ∧ (ts ++ γs'.flatMap (·.ts)).Perm (γs.flatMap (·.ts)) ∧ n + (γs'.map (·.n)).sum = (γs.map (·.n)).sum := by
  induction hp with
  | refl => exact ⟨γs, h, by simp, by simp⟩
  | @step n ts q r i o _ hs ih =>
    obtain ⟨γs', h1, h2, h3⟩ := ih
    obtain ⟨pre, γ, post, m, rest, rfl, _, e1, e2, h4⟩ := h1.step hs
    refine ⟨_, h4, ?_, ?_⟩
    · refine List.Perm.trans ?_ h2
      simp only [List.flatMap_append, List.flatMap_cons, e2, List.append_assoc]
      apply List.Perm.append_left
      exact List.perm_append_comm_assoc _ _ _
    · simp only [List.map_append, List.map_cons, List.sum_append, List.sum_cons, e1] at h3 ⊢
      omega

variable {g : LGraph} {names : List Name} {xs : List (RR × Nat × Nat)}

/-- The vertices reached from `v`. -/
def territory (names : List Name) (rs : List RR) (n0 : Name) (v u : Nat) : Prop :=
  ∃ k0 k n b, names[v]? = some k0 ∧ names[u]? = some k ∧ Visits rs n0 k0 n k b

theorem territory_closed (h : LRep g names xs) (n0 : Name) (v : Nat) : Closed (territory names (xs.map (·.1)) n0 v) g := by
  rintro u ⟨k0, k, n, b, h1, h2, h3⟩ ⟨t, w⟩ he
  cases t with
  | normal =>
    obtain ⟨hw, _⟩ := h.inv.edge u w k h2 he
    exact ⟨k0, _, _, false, h1, hw, .down n k b _ h3 ((h.known _).mp (List.mem_of_getElem? hw))⟩
  | dname =>
    obtain ⟨t, ht, ha⟩ := (h.dn u w k h2).mp he
    exact ⟨k0, t, n, true, h1, ht, .redirect n k b t h3 ha⟩

/-- The threads of a job whose starting points keep apart. -/
theorem start_inv (h : LRep g names xs) {types : TypeSet} {s : Bool} {labels : Name} (vs : List Nat) (out : Nat → List Task) (fuel : Nat)
    (hout : ∀ w ∈ vs, LGraph.subDomainECs types fuel g w labels.dropLast false s = .ok (g, out w))
    (hm : ∀ w ∈ vs, ∃ n, names[w]? = some n ∧ Matches (xs.map (·.1)) labels n labels.length)
    (hnd : vs.Nodup) (hap : KeepApart (xs.map (·.1)) labels) :
    ∃ γs, PoolInv types g (start g labels.dropLast s vs) γs ∧ γs.map (·.ts) = vs.map out := by
  have hn : ∀ w ∈ vs, ∃ n, Goes types n g [.entry ⟨w, labels.dropLast, false, s⟩] (out w) g [] :=
    fun w hw => goes_of_ok fuel g ⟨w, labels.dropLast, false, s⟩ g (out w) (hout w hw) []
  choose! n hn using hn
  refine ⟨vs.map (fun w => ⟨territory names (xs.map (·.1)) labels w, n w, out w⟩), ⟨.refl _ _, ?_, ?_⟩, by rw [List.map_map]; rfl⟩
  · unfold start
    dsimp only
    rw [List.forall₂_map_left_iff, List.forall₂_map_right_iff, List.forall₂_same]
    intro w hw
    obtain ⟨k, hk, _⟩ := hm w hw
    refine ⟨territory_closed h _ _, ?_, g, .refl _ _, hn w hw⟩
    intro f hf
    rw [List.mem_singleton] at hf
    subst hf
    exact ⟨k, k, labels, false, hk, hk, .start⟩
  · rw [List.pairwise_map]
    refine List.Pairwise.imp_of_mem ?_ hnd
    rintro a b ha hb hne u ⟨k0, k, n1, b1, h1, h2, h3⟩ ⟨k0', k', n2, b2, h4, h5, h6⟩
    rw [h2] at h5
    cases h5
    obtain ⟨ka, hka, hma⟩ := hm a ha
    obtain ⟨kb, hkb, hmb⟩ := hm b hb
    rw [h1] at hka; cases hka
    rw [h4] at hkb; cases hkb
    have := hap _ _ hma hmb _ _ _ _ _ h3 h6
    subst this
    exact hne (Trie.name_inj h.inv.nodup h1 h4)

end Prod

namespace Full
open Conc

variable {N : Nat} {types : TypeSet} {emit : Task → List (Violation ⊕ (Nat × Nat))}

/-- A step of a consumer or collector has nothing to do with what is still to be enqueued. -/
theorem conc_todo {t : Conc.Thread N} {s s' : Conc.State N Task Violation (Nat × Nat)} (ht : t ≠ .gen) (h : Conc.Step emit t s s')
    (x : List (List Task)) : Conc.Step emit t { s with todo := x } { s' with todo := x } := by
  cases h with
  | enqueue => exact absurd rfl ht
  | finish => exact absurd rfl ht
  | enter i h => exact .enter (s := { s with todo := x }) i h
  | take i left saw h a b t hq => exact .take (s := { s with todo := x }) i left saw h a b t hq
  | empty i left saw h hq => exact .empty (s := { s with todo := x }) i left saw h hq
  | violation i v p saw h => exact .violation (s := { s with todo := x }) i v p saw h
  | size i v p saw h => exact .size (s := { s with todo := x }) i v p saw h
  | processed i saw h => exact .processed (s := { s with todo := x }) i saw h
  | again i h => exact .again (s := { s with todo := x }) i h
  | count i h => exact .count (s := { s with todo := x }) i h
  | jEnter h => exact .jEnter (s := { s with todo := x }) h
  | jTake left saw h a b v hq => exact .jTake (s := { s with todo := x }) left saw h a b v hq
  | jEmpty left saw h hq => exact .jEmpty (s := { s with todo := x }) left saw h hq
  | jEnd left h => exact .jEnd (s := { s with todo := x }) left h
  | sEnter h => exact .sEnter (s := { s with todo := x }) h
  | sTake left saw h a b v hq => exact .sTake (s := { s with todo := x }) left saw h a b v hq
  | sEmpty left saw h hq => exact .sEmpty (s := { s with todo := x }) left saw h hq
  | sEnd left h => exact .sEnd (s := { s with todo := x }) left h

/-- The state with the tasks still to be enqueued made explicit. -/
def proj (s : State N) (γs : List Prod.Ghost) : Conc.State N Task Violation (Nat × Nat) := { s.rest with todo := γs.map (·.ts) }

theorem conc_ne_gen {th : Thread N} {t : Conc.Thread N} (h : th.conc = some t) : t ≠ .gen := by
  rintro rfl
  cases th <;> cases h

/-- One step, seen through `proj`: a step there, or nothing.  A producer's step makes what is left shorter. -/
theorem step_proj {g0 : LGraph} {s s' : State N} {th : Thread N} {γs : List Prod.Ghost} (h : Prod.PoolInv types g0 s.pool γs)
    (hs : Step types emit th s s') : ∃ γs', Prod.PoolInv types g0 s'.pool γs' ∧
      (proj s' γs' = proj s γs ∨ ∃ t, Conc.Step emit t (proj s γs) (proj s' γs')) ∧
      (∀ t, th.conc = some t → Conc.Step emit t (proj s γs) (proj s' γs')) ∧
      (γs'.map (·.n)).sum ≤ (γs.map (·.n)).sum ∧ (∀ i, th = .prod i → (γs'.map (·.n)).sum < (γs.map (·.n)).sum) := by
  cases hs with
  | produce i o p hp =>
    obtain ⟨pre, γ, post, m, rest, rfl, _, e1, e2, h4⟩ := h.step hp
    refine ⟨_, h4, ?_, fun t ht => (nomatch ht), ?_, fun _ _ => ?_⟩
    · cases o with
      | none =>
        left
        simp only [Option.toList_none, List.nil_append] at e2
        simp [proj, e2]
      | some t =>
        right
        simp only [Option.toList_some, List.cons_append, List.nil_append] at e2
        refine ⟨.gen, ?_⟩
        have := Conc.Step.enqueue (emit := emit) (s := proj s (pre ++ γ :: post)) (pre.map (·.ts)) (post.map (·.ts)) t rest (by simp [proj, e2])
        simpa [proj] using this
    · simp only [List.map_append, List.map_cons, List.sum_append, List.sum_cons, e1]
      omega
    · simp only [List.map_append, List.map_cons, List.sum_append, List.sum_cons, e1]
      omega
  | finish hd hf =>
    refine ⟨γs, h, Or.inr ⟨.gen, ?_⟩, fun t ht => (nomatch ht), Nat.le_refl _, fun i hi => (nomatch hi)⟩
    refine Conc.Step.finish (emit := emit) (s := proj s γs) ?_ hf
    intro l hl
    obtain ⟨γ, hγ, rfl⟩ := List.mem_map.mp hl
    exact (h.done hd).2 γ hγ
  | other _ t r ht hr =>
    have hc := conc_todo (conc_ne_gen ht) hr (γs.map (·.ts))
    refine ⟨γs, h, Or.inr ⟨t, hc⟩, ?_, Nat.le_refl _, ?_⟩
    · intro t' ht'
      rw [ht] at ht'
      cases ht'
      exact hc
    · rintro i rfl
      cases ht

/-- A reachable state is one of the simpler system. -/
theorem reachable_proj {g0 : LGraph} {pool : Prod.Pool} {γ0 : List Prod.Ghost} (h0 : Prod.PoolInv types g0 pool γ0) {s : State N}
    (h : Reachable types emit pool s) : ∃ γs, Prod.PoolInv types g0 s.pool γs ∧ Conc.Reachable emit (γ0.map (·.ts)) (proj s γs) := by
  induction h with
  | start => exact ⟨γ0, h0, .start⟩
  | step _ hs ih =>
    obtain ⟨γs, h1, h2⟩ := ih
    obtain ⟨γs', h3, h4, _⟩ := step_proj h1 hs
    refine ⟨γs', h3, ?_⟩
    rcases h4 with h4 | ⟨t, h4⟩
    · rw [h4]; exact h2
    · exact .step h2 h4

theorem returned_proj {s : State N} (h : Returned s) (γs : List Prod.Ghost) : Conc.Returned (proj s γs) := by
  intro th
  cases th with
  | gen => exact h .gen
  | cons i => exact h (.cons i)
  | json => exact h .json
  | stats => exact h .stats

theorem returned_done {s : State N} (h : Returned s) : s.pool.Done := by
  intro st hst
  obtain ⟨i, hi⟩ := List.mem_iff_getElem?.mp hst
  exact h (.prod i) st hi

theorem unmoved {s s' : State N} {th : Thread N} (h : Step types emit th s s') (hp : ∀ i, th ≠ .prod i) : s'.pool = s.pool := by
  cases h with
  | produce i => exact absurd rfl (hp i)
  | finish => rfl
  | other => rfl

/-- A producer moves at instant `n`. -/
def Moves (types : TypeSet) (emit : Task → List (Violation ⊕ (Nat × Nat))) (σ : Nat → State N) (n : Nat) : Prop :=
  ∃ i, Step types emit (.prod i) (σ n) (σ (n + 1))

/-- A run seen as a run of the simpler system. -/
theorem execution_proj {g0 : LGraph} {pool : Prod.Pool} {γ0 : List Prod.Ghost} (h0 : Prod.PoolInv types g0 pool γ0) {σ : Nat → State N}
    (h : Execution types emit pool σ) : ∃ γ : Nat → List Prod.Ghost, γ 0 = γ0 ∧ (∀ n, Prod.PoolInv types g0 (σ n).pool (γ n)) ∧
      ∀ n, (proj (σ (n + 1)) (γ (n + 1)) = proj (σ n) (γ n) ∨ ∃ t, Conc.Step emit t (proj (σ n) (γ n)) (proj (σ (n + 1)) (γ (n + 1)))) ∧
        (Moves types emit σ n → ((γ (n + 1)).map (·.n)).sum < ((γ n).map (·.n)).sum) ∧ (¬ Moves types emit σ n → γ (n + 1) = γ n ∧ (σ (n + 1)).pool = (σ n).pool) := by
  have key : ∀ n γs, Prod.PoolInv types g0 (σ n).pool γs → ∃ γs', Prod.PoolInv types g0 (σ (n + 1)).pool γs' ∧
      (proj (σ (n + 1)) γs' = proj (σ n) γs ∨ ∃ t, Conc.Step emit t (proj (σ n) γs) (proj (σ (n + 1)) γs')) ∧
      (Moves types emit σ n → (γs'.map (·.n)).sum < (γs.map (·.n)).sum) ∧ (¬ Moves types emit σ n → γs' = γs ∧ (σ (n + 1)).pool = (σ n).pool) := by
    intro n γs hγ
    by_cases hm : Moves types emit σ n
    · obtain ⟨i, hi⟩ := hm
      obtain ⟨γs', h1, h2, _, _, h3⟩ := step_proj hγ hi
      exact ⟨γs', h1, h2, fun _ => h3 i rfl, fun hc => absurd ⟨i, hi⟩ hc⟩
    · refine ⟨γs, ?_, ?_, fun hc => absurd hc hm, fun _ => ⟨rfl, ?_⟩⟩
      all_goals rcases h.next n with h1 | ⟨th, h1⟩
      · rw [h1]; exact hγ
      · rw [unmoved h1 (by rintro i rfl; exact hm ⟨i, h1⟩)]; exact hγ
      · exact Or.inl (by rw [h1])
      · cases th with
        | prod i => exact absurd ⟨i, h1⟩ hm
        | gen =>
          generalize σ (n + 1) = s' at h1
          cases h1 with
          | finish hd hf =>
            refine Or.inr ⟨.gen, Conc.Step.finish (emit := emit) (s := proj (σ n) γs) ?_ hf⟩
            intro l hl
            obtain ⟨γ, hγ', rfl⟩ := List.mem_map.mp hl
            exact (hγ.done hd).2 γ hγ'
          | other _ t r ht hr => cases ht
        | _ =>
          generalize σ (n + 1) = s' at h1
          cases h1 with
          | other _ t r ht hr => exact Or.inr ⟨t, conc_todo (conc_ne_gen ht) hr (γs.map Prod.Ghost.ts)⟩
      · rw [h1]
      · exact unmoved h1 (by rintro i rfl; exact hm ⟨i, h1⟩)
  choose f f1 f2 f3 f4 using key
  have hb : Prod.PoolInv types g0 (σ 0).pool γ0 := by rw [h.init]; exact h0
  let γ : (n : Nat) → { x : List Prod.Ghost // Prod.PoolInv types g0 (σ n).pool x } :=
    fun n => Nat.rec ⟨γ0, hb⟩ (fun n x => ⟨f n x.1 x.2, f1 n x.1 x.2⟩) n
  refine ⟨fun n => (γ n).1, rfl, fun n => (γ n).2, fun n => ?_⟩
  exact ⟨f2 n (γ n).1 (γ n).2, f3 n (γ n).1 (γ n).2, f4 n (γ n).1 (γ n).2⟩

/-- Every run in which no thread is forgotten returns. -/
theorem fair_returns {g0 : LGraph} {pool : Prod.Pool} {γ0 : List Prod.Ghost} (h0 : Prod.PoolInv types g0 pool γ0) {σ : Nat → State N} (hN : 0 < N)
    (h : Execution types emit pool σ) (hf : Fair types emit σ) : ∃ n, ∀ m, n ≤ m → Returned (σ m) := by
  obtain ⟨γ, _, hγ, hn⟩ := execution_proj h0 h
  -- from some instant on no producer moves
  have hle : ∀ n, ((γ (n + 1)).map (·.n)).sum ≤ ((γ n).map (·.n)).sum := by
    intro n
    by_cases hm : Moves types emit σ n
    · exact Nat.le_of_lt ((hn n).2.1 hm)
    · rw [((hn n).2.2 hm).1]
  have hstop : ∃ n0, ∀ m, n0 ≤ m → ¬ Moves types emit σ m := by
    have key : ∀ k n, ((γ n).map (·.n)).sum ≤ k → ∃ n0, ∀ m, n0 ≤ m → ¬ Moves types emit σ m := by
      intro k
      induction k with
      | zero =>
        intro n hk
        refine ⟨n, fun m hm hmv => ?_⟩
        have : ∀ m, n ≤ m → ((γ m).map (·.n)).sum ≤ 0 := by
          intro m hm
          induction hm with
          | refl => exact hk
          | step _ ih => exact Nat.le_trans (hle _) ih
        have h1 := (hn m).2.1 hmv
        have h2 := this m hm
        omega
      | succ k ih =>
        intro n hk
        by_cases hc : ∃ m, n ≤ m ∧ Moves types emit σ m
        · obtain ⟨m, hm, hmv⟩ := hc
          have : ∀ m, n ≤ m → ((γ m).map (·.n)).sum ≤ k + 1 := by
            intro m hm
            induction hm with
            | refl => exact hk
            | step _ ih => exact Nat.le_trans (hle _) ih
          have h1 := (hn m).2.1 hmv
          have h2 := this m hm
          exact ih (m + 1) (by omega)
        · exact ⟨n, fun m hm hmv => hc ⟨m, hm, hmv⟩⟩
    exact key _ 0 (Nat.le_refl _)
  obtain ⟨n0, hn0⟩ := hstop
  have hpool : ∀ m, n0 ≤ m → (σ m).pool = (σ n0).pool := by
    intro m hm
    induction hm with
    | refl => rfl
    | step hm ih => rw [((hn _).2.2 (hn0 _ hm)).2, ih]
  have hdone : (σ n0).pool.Done := by
    intro st hst
    obtain ⟨i, hi⟩ := List.mem_iff_getElem?.mp hst
    obtain ⟨m, hm, h1 | h1 | ⟨h1, _⟩⟩ := hf (.prod i) n0
    · exact h1 st (by rw [hpool m hm]; exact hi)
    · exact absurd ⟨i, h1⟩ (hn0 m hm)
    · cases h1
  -- the flag is set at some time
  have hfin : ∃ n1, n0 ≤ n1 ∧ (σ n1).rest.finished = true := by
    obtain ⟨m, hm, h1 | h1 | ⟨_, h1⟩⟩ := hf .gen n0
    · exact ⟨m, hm, h1⟩
    · refine ⟨m + 1, by omega, ?_⟩
      generalize σ (m + 1) = s' at h1
      cases h1 with
      | finish => rfl
      | other _ t r ht hr => cases ht
    · rw [hpool m hm] at h1
      exact absurd hdone h1
  have hexec : Conc.Execution emit ((γ 0).map (·.ts)) (fun n => proj (σ n) (γ n)) := by
    refine ⟨?_, fun n => (hn n).1⟩
    show proj (σ 0) (γ 0) = _
    rw [h.init]
    rfl
  have hkeep : ∀ n, (σ n).rest.finished = true → ∀ m, n ≤ m → (σ m).rest.finished = true := by
    intro n hn1 m hm
    induction hm with
    | refl => exact hn1
    | @step m hm ih =>
      rcases h.next m with h1 | ⟨th, h1⟩
      · show (σ (m + 1)).rest.finished = true
        rw [h1]; exact ih
      · show (σ (m + 1)).rest.finished = true
        generalize σ (m + 1) = s' at h1
        cases h1 with
        | produce => exact ih
        | finish => rfl
        | other _ t r ht hr =>
          cases hr with
          | enqueue => exact absurd rfl (conc_ne_gen ht)
          | finish => exact absurd rfl (conc_ne_gen ht)
          | _ => exact ih
  obtain ⟨n1, hn1, hfin⟩ := hfin
  have hfair : Conc.Fair emit (fun n => proj (σ n) (γ n)) := by
    have conc : ∀ (th : Thread N) (t : Conc.Thread N), th.conc = some t → (∀ s : State N, ∀ γs, Ended s th → Conc.Ended (proj s γs) t) → th ≠ .gen →
        ∀ n, ∃ m, n ≤ m ∧ (Conc.Ended (proj (σ m) (γ m)) t ∨ Conc.Step emit t (proj (σ m) (γ m)) (proj (σ (m + 1)) (γ (m + 1)))) := by
      intro th t ht he hg n
      obtain ⟨m, hm, h1 | h1 | ⟨h1, _⟩⟩ := hf th (max n n0)
      · exact ⟨m, by omega, Or.inl (he _ _ h1)⟩
      · refine ⟨m, by omega, Or.inr ?_⟩
        have hγ' := ((hn m).2.2 (hn0 m (by omega))).1
        rw [hγ']
        generalize σ (m + 1) = s' at h1
        cases h1 with
        | produce => cases ht
        | finish => exact absurd rfl hg
        | other _ t' r ht' hr =>
          rw [ht] at ht'
          cases ht'
          exact conc_todo (conc_ne_gen ht) hr _
      · exact absurd h1 hg
    intro t n
    cases t with
    | gen => exact ⟨max n n1, by omega, Or.inl (hkeep n1 hfin _ (by omega))⟩
    | cons i => exact conc (.cons i) _ rfl (fun _ _ h => h) (by simp) n
    | json => exact conc .json _ rfl (fun _ _ h => h) (by simp) n
    | stats => exact conc .stats _ rfl (fun _ _ h => h) (by simp) n
  obtain ⟨n2, hn2⟩ := Conc.fair_returns hexec hfair hN
  refine ⟨max n0 n2, fun m hm th => ?_⟩
  have hr := hn2 m (by omega)
  cases th with
  | prod i =>
    intro st hst
    rw [hpool m (by omega)] at hst
    exact hdone st (List.mem_of_getElem? hst)
  | gen => exact hr .gen
  | cons i => exact hr (.cons i)
  | json => exact hr .json
  | stats => exact hr .stats

end Full
end Groot
