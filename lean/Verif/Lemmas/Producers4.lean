import Verif.Lemmas.Producers3

/-! # Domains below no DNAME; running a given schedule -/

namespace Groot
open Spec

variable {thr : Nat} {xs : List (RR × Nat × Nat)} {names : List Name}

/-- Below no DNAME, only the name itself stands for it. -/
theorem matches_below_none {rs : List RR} {labels n : Name} {i : Nat} (hd : ∀ p t, AtOrBelow p labels → p ≠ labels → ¬ Alias rs p t)
    (h : Matches rs labels n i) : n = labels.take i ∧ i ≤ labels.length := by
  induction h with
  | root => exact ⟨by simp, Nat.zero_le _⟩
  | down n i l _ hl _ ih =>
    obtain ⟨rfl, _⟩ := ih
    obtain ⟨hlt, he⟩ := List.getElem?_eq_some_iff.mp hl
    exact ⟨by rw [← he, List.take_concat_get' _ _ hlt], hlt⟩
  | redirect n i t _ hi ha ih =>
    obtain ⟨rfl, _⟩ := ih
    refine absurd ha (hd _ _ ⟨labels.drop i, (List.take_append_drop i labels).symm⟩ ?_)
    intro hc
    have := congrArg List.length hc
    rw [List.length_take] at this
    omega

/-- Below no DNAME, the search finds one node. -/
theorem single_encloser_below (h : LRep (labelGraph thr xs) names xs) (labels : Name)
    (hd : ∀ p t, AtOrBelow p labels → p ≠ labels → ¬ Alias (xs.map (·.1)) p t) {fuel : Nat}
    (hf : searchBudget (labelGraph thr xs) labels ≤ fuel) :
    ∃ e, LGraph.closestEnclosers fuel (labelGraph thr xs) labels = .ok (labelGraph thr xs, [e]) := by
  obtain ⟨es, m, h1, _, _, _, _⟩ := h.search labels hf
  have hlens : lens (labelGraph thr xs) = fun _ => -1 := by funext v; exact h.len v
  obtain ⟨w, k, _, rfl⟩ := search_single_on (inside h.inv) labels (fun v i => names[v]? = some (labels.take i)) (by
      intro v i hv hi u hu
      obtain ⟨t, _, ha⟩ := (h.dn v u _ hv).mp hu
      refine hd _ _ ⟨labels.drop i, (List.take_append_drop i labels).symm⟩ ?_ ha
      intro hc
      have := congrArg List.length hc
      rw [List.length_take] at this
      omega) (by
      intro v i u hi hv hu
      have := (lchild_iff h.inv hv labels[i] u).mp hu
      rw [← List.take_concat_get' _ _ hi]
      exact this) fuel (labelGraph thr xs) 0 0 es (by simpa using h.inv.root) (Shape.refl _)
    (Nat.zero_le _) (by rw [← h.inv.len]; exact Trie.name_lt h.inv.root) (by intro u; rw [hlens]; simp) (by
      unfold smeasure
      unfold searchBudget at hf
      have := unmarked_le (labelGraph thr xs) 0
      rw [Nat.sub_zero]
      rw [Nat.add_mul, Nat.one_mul] at hf
      omega) h1
  exact ⟨_, h1⟩

theorem keepApart_below {rs : List RR} {labels : Name} (hd : ∀ p t, AtOrBelow p labels → p ≠ labels → ¬ Alias rs p t) : KeepApart rs labels := by
  intro k0 k1 h0 h1 _ _ _ _ _ _ _
  rw [(matches_below_none hd h0).1, (matches_below_none hd h1).1]

namespace Prod

/-- Running the threads in the order given. -/
def sched (types : TypeSet) : Pool → List Nat → Option (Pool × List Task)
  | p, [] => some (p, [])
  | p, i :: is =>
    match p.threads[i]? with
    | none => none
    | some st =>
      match step types p.graph st with
      | none => none
      | some (g, st', o) => (sched types ⟨g, p.threads.set i st'⟩ is).map (fun r => (r.1, o.toList ++ r.2))

theorem sched_step {types : TypeSet} {p : Pool} {i : Nat} {st st' : List Frame} {g : LGraph} {o : Option Task} (h1 : p.threads[i]? = some st)
    (h2 : step types p.graph st = some (g, st', o)) : Step types i p o ⟨g, p.threads.set i st'⟩ := by
  obtain ⟨hlt, he⟩ := List.getElem?_eq_some_iff.mp h1
  have e1 : p.threads = p.threads.take i ++ st :: p.threads.drop (i + 1) := by
    rw [← he]; simp
  have e2 : p.threads.set i st' = p.threads.take i ++ st' :: p.threads.drop (i + 1) := by
    rw [List.set_eq_take_append_cons_drop, if_pos hlt]
  rw [e2]
  exact .mk _ _ st st' o e1 (by rw [List.length_take]; omega) h2

theorem sched_produces_from {types : TypeSet} {p0 : Pool} : ∀ (l : List Nat) (p : Pool) (n : Nat) (ts0 ts : List Task) (q : Pool),
    Produces types p0 n ts0 p → sched types p l = some (q, ts) → Produces types p0 (n + l.length) (ts0 ++ ts) q := by
  intro l
  induction l with
  | nil =>
    intro p n ts0 ts q hp h
    simp only [sched, Option.some.injEq, _root_.Prod.mk.injEq] at h
    obtain ⟨rfl, rfl⟩ := h
    simpa using hp
  | cons i is ih =>
    intro p n ts0 ts q hp h
    unfold sched at h
    cases h1 : p.threads[i]? with
    | none => rw [h1] at h; cases h
    | some st =>
      rw [h1] at h
      dsimp only at h
      cases h2 : step types p.graph st with
      | none => rw [h2] at h; cases h
      | some x =>
        obtain ⟨g, st', o⟩ := x
        rw [h2] at h
        dsimp only at h
        obtain ⟨⟨q', ts'⟩, h3, h4⟩ := Option.map_eq_some_iff.mp h
        simp only [_root_.Prod.mk.injEq] at h4
        obtain ⟨rfl, rfl⟩ := h4
        have := ih _ _ _ _ _ (.step hp (sched_step h1 h2)) h3
        rw [List.append_assoc] at this
        rw [List.length_cons, show n + (is.length + 1) = n + 1 + is.length by omega]
        exact this

theorem sched_produces {types : TypeSet} {p q : Pool} {l : List Nat} {ts : List Task} (h : sched types p l = some (q, ts)) :
    Produces types p l.length ts q := by
  have := sched_produces_from l p 0 [] ts q .refl h
  simpa using this

end Prod
end Groot

namespace Groot.Prod
open Spec

theorem step_append {types : TypeSet} {g g' : LGraph} {st st' : List Frame} {o : Option Task} (h : step types g st = some (g', st', o)) (k : List Frame) :
    step types g (st ++ k) = some (g', st' ++ k, o) := by
  match st, h with
  | [], h => cases h
  | .entry c :: r, h =>
    rw [List.cons_append]
    unfold step at h ⊢
    dsimp only at h ⊢
    split at h
    · rename_i hc
      rw [if_pos hc]; cases h; rfl
    · rename_i hc
      rw [if_neg hc]; cases h; rfl
  | .save c :: r, h =>
    rw [List.cons_append]
    unfold step at h ⊢
    dsimp only at h ⊢
    split at h
    · rename_i hc
      rw [if_pos hc]; cases h; rfl
    · rename_i hc
      rw [if_neg hc]; cases h; rfl
  | .write c b :: r, h => cases h; rfl
  | .announce c b :: r, h => cases h; rfl
  | .loop c b (e :: rest) w :: r, h => cases h; rfl
  | .loop c b [] w :: r, h => cases h; rfl
  | .node c w :: r, h => cases h; rfl
  | .last c w :: r, h => cases h; rfl

/-- A schedule of two threads goes on as before when there is more below on the stacks. -/
theorem sched_append {types : TypeSet} (K L : List Frame) : ∀ (l : List Nat) (g g' : LGraph) (A B A' B' : List Frame) (ts : List Task),
    sched types ⟨g, [A, B]⟩ l = some (⟨g', [A', B']⟩, ts) → sched types ⟨g, [A ++ K, B ++ L]⟩ l = some (⟨g', [A' ++ K, B' ++ L]⟩, ts) := by
  intro l
  induction l with
  | nil =>
    intro g g' A B A' B' ts h
    simp only [sched, Option.some.injEq, _root_.Prod.mk.injEq, Pool.mk.injEq, List.cons.injEq, and_true] at h ⊢
    obtain ⟨⟨rfl, rfl, rfl⟩, rfl⟩ := h
    exact ⟨⟨rfl, rfl, rfl⟩, rfl⟩
  | cons i is ih =>
    intro g g' A B A' B' ts h
    unfold sched at h ⊢
    match i with
    | 0 =>
      simp only [List.getElem?_cons_zero] at h ⊢
      cases h2 : step types g A with
      | none => rw [h2] at h; cases h
      | some x =>
        obtain ⟨g1, A1, o⟩ := x
        rw [h2] at h
        rw [step_append h2 K]
        dsimp only at h ⊢
        obtain ⟨⟨q, ts'⟩, h3, h4⟩ := Option.map_eq_some_iff.mp h
        simp only [_root_.Prod.mk.injEq] at h4
        obtain ⟨rfl, rfl⟩ := h4
        have := ih _ _ _ _ _ _ _ h3
        simp only [List.set_cons_zero] at this ⊢
        rw [this]; rfl
    | 1 =>
      simp only [List.getElem?_cons_succ, List.getElem?_cons_zero] at h ⊢
      cases h2 : step types g B with
      | none => rw [h2] at h; cases h
      | some x =>
        obtain ⟨g1, B1, o⟩ := x
        rw [h2] at h
        rw [step_append h2 L]
        dsimp only at h ⊢
        obtain ⟨⟨q, ts'⟩, h3, h4⟩ := Option.map_eq_some_iff.mp h
        simp only [_root_.Prod.mk.injEq] at h4
        obtain ⟨rfl, rfl⟩ := h4
        have := ih _ _ _ _ _ _ _ h3
        simp only [List.set_cons_succ, List.set_cons_zero] at this ⊢
        rw [this]; rfl
    | i + 2 => simp at h

theorem sched_concat {types : TypeSet} : ∀ (l m : List Nat) (p q : Pool) (ts : List Task), sched types p l = some (q, ts) →
    sched types p (l ++ m) = (sched types q m).map (fun r => (r.1, ts ++ r.2)) := by
  intro l
  induction l with
  | nil =>
    intro m p q ts h
    simp only [sched, Option.some.injEq, _root_.Prod.mk.injEq] at h
    obtain ⟨rfl, rfl⟩ := h
    rw [List.nil_append]
    cases sched types p m <;> rfl
  | cons i is ih =>
    intro m p q ts h
    rw [List.cons_append]
    generalize hq : sched types q m = y
    unfold sched at h ⊢
    cases h1 : p.threads[i]? with
    | none => rw [h1] at h; cases h
    | some st =>
      rw [h1] at h
      dsimp only at h ⊢
      cases h2 : step types p.graph st with
      | none => rw [h2] at h; cases h
      | some x =>
        obtain ⟨g, st', o⟩ := x
        rw [h2] at h
        dsimp only at h ⊢
        obtain ⟨⟨q', ts'⟩, h3, h4⟩ := Option.map_eq_some_iff.mp h
        simp only [_root_.Prod.mk.injEq] at h4
        obtain ⟨rfl, rfl⟩ := h4
        rw [ih m _ _ _ h3, Option.map_map, hq]
        cases y <;> simp

theorem sched_prefix {types : TypeSet} : ∀ (l m : List Nat) (p : Pool), (sched types p (l ++ m)).isSome → (sched types p l).isSome := by
  intro l m p h
  induction l generalizing p with
  | nil => rfl
  | cons i is ih =>
    rw [List.cons_append] at h
    unfold sched at h ⊢
    cases h1 : p.threads[i]? with
    | none => rw [h1] at h; cases h
    | some st =>
      rw [h1] at h
      dsimp only at h ⊢
      cases h2 : step types p.graph st with
      | none => rw [h2] at h; cases h
      | some x =>
        obtain ⟨g, st', o⟩ := x
        rw [h2] at h
        dsimp only at h ⊢
        rw [Option.isSome_map] at h ⊢
        exact ih _ h

/-- A schedule that can always be continued, as an infinite run. -/
theorem sched_run {types : TypeSet} {p : Pool} (s : Nat → Nat) (h : ∀ n, ∃ m, n ≤ m ∧ (sched types p ((List.range m).map s)).isSome) :
    ∃ σ : Nat → Pool, (∀ n, ∃ ts, sched types p ((List.range n).map s) = some (σ n, ts)) ∧ ∀ n, ∃ o, Step types (s n) (σ n) o (σ (n + 1)) := by
  have h1 : ∀ n, ∃ q, ∃ ts, sched types p ((List.range n).map s) = some (q, ts) := by
    intro n
    obtain ⟨m, hm, h2⟩ := h n
    obtain ⟨d, rfl⟩ := Nat.exists_eq_add_of_le hm
    rw [List.range_add, List.map_append] at h2
    obtain ⟨⟨q, ts⟩, hq⟩ := Option.isSome_iff_exists.mp (sched_prefix _ _ _ h2)
    exact ⟨q, ts, hq⟩
  choose σ hσ using h1
  refine ⟨σ, hσ, fun n => ?_⟩
  obtain ⟨ts, h2⟩ := hσ n
  obtain ⟨ts', h3⟩ := hσ (n + 1)
  rw [List.range_succ, List.map_append, sched_concat _ _ _ _ _ h2] at h3
  obtain ⟨⟨q, ts''⟩, h4, h5⟩ := Option.map_eq_some_iff.mp h3
  simp only [_root_.Prod.mk.injEq] at h5
  obtain ⟨rfl, _⟩ := h5
  simp only [List.map_cons, List.map_nil] at h4
  unfold sched at h4
  cases h6 : (σ n).threads[s n]? with
  | none => rw [h6] at h4; cases h4
  | some st =>
    rw [h6] at h4
    dsimp only at h4
    cases h7 : step types (σ n).graph st with
    | none => rw [h7] at h4; cases h4
    | some x =>
      obtain ⟨g, st', o⟩ := x
      rw [h7] at h4
      dsimp only at h4
      simp only [sched, Option.map_some, Option.some.injEq, _root_.Prod.mk.injEq] at h4
      rw [← h4.1]
      exact ⟨o, sched_step h6 h7⟩

/-- Two threads that, from some point on, keep repeating the same steps with the stacks growing. -/
theorem sched_spin {types : TypeSet} {p : Pool} (pre : List Nat) (per : List Nat) (g : LGraph) (a b a' b' : List Frame) (K L : List Frame) (ts : List Task)
    (s : Nat → Nat) (hs : ∀ n, (List.range (pre.length + n * per.length)).map s = pre ++ (List.replicate n per).flatten)
    (h1 : sched types p pre = some (⟨g, [a ++ K, b ++ L]⟩, ts)) (h2 : sched types ⟨g, [a, b]⟩ per = some (⟨g, [a ++ a', b ++ b']⟩, [])) (n : Nat) :
    sched types p ((List.range (pre.length + n * per.length)).map s) =
      some (⟨g, [a ++ (List.replicate n a').flatten ++ K, b ++ (List.replicate n b').flatten ++ L]⟩, ts) := by
  rw [hs]
  induction n with
  | zero => simpa using h1
  | succ n ih =>
    rw [List.replicate_succ', List.flatten_append, ← List.append_assoc, sched_concat _ _ _ _ _ ih]
    simp only [List.flatten_cons, List.flatten_nil, List.append_nil]
    rw [List.append_assoc, List.append_assoc, sched_append _ _ _ _ _ _ _ _ _ _ h2]
    simp [List.replicate_succ]

end Groot.Prod
