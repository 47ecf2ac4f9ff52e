import Verif.Lemmas.Termination
import Verif.Lemmas.Collect
import Verif.Lemmas.Budget
import Verif.Props.Resolve
import Verif.Props.Structural

/-!
# C54-C55: every schedule
-/

namespace Groot

open Conc Spec

section

variable {N : Nat} {T V A : Type}

/-- **C54** Whatever the interleaving: when all threads have been joined, every task has been processed exactly once, every
violation and every graph size has been collected exactly once, and the queues are empty for the next job. -/
theorem C54_exactly_once (hN : 0 < N) (emit : T → List (V ⊕ A)) (producers : List (List T)) (s : State N T V A)
    (hs : Reachable emit producers s) (hr : Returned s) :
    s.taken.Perm producers.flatten ∧
    s.collected.Perm (producers.flatten.flatMap (fun t => violationsOf (emit t))) ∧
    s.stats.Perm (producers.flatten.flatMap (fun t => sizesOf (emit t))) ∧
    s.ecq = [] ∧ s.jsonq = [] ∧ s.attrq = [] := by
  obtain ⟨h1, h2, h3, h4⟩ := (hs.inv hN).final hN hr
  exact ⟨h1, h2.trans (h1.flatMap_right _), h3.trans (h1.flatMap_right _), h4⟩

/-- **C54** The JSON consumer never leaves early: once it has ended, all tasks have been processed, all consumers have ended
and everything they reported has been collected. -/
theorem C54_json_consumer_last (hN : 0 < N) (emit : T → List (V ⊕ A)) (producers : List (List T)) (s : State N T V A)
    (hs : Reachable emit producers s) (hj : s.jpc = .stopped) :
    s.finished = true ∧ (∀ i, s.cons i = .stopped) ∧ s.taken.Perm producers.flatten ∧
    s.collected.Perm (producers.flatten.flatMap (fun t => violationsOf (emit t))) := by
  have h := hs.inv hN
  have h1 := h.json
  rw [hj] at h1
  obtain ⟨hf, ha, hq⟩ := h.phase.of_done_gt h1.1 hN
  have ht : s.todo.flatten = [] := by rw [List.flatten_eq_nil_iff]; exact h.flag hf
  have h2 : s.taken.Perm producers.flatten := by
    have := h.tasks
    rw [ht, hq] at this
    simpa using this
  refine ⟨hf, ha, h2, ?_⟩
  have h3 := h.viol
  rw [h1.2] at h3
  have h4 : s.collected.Perm (s.taken.flatMap (fun t => violationsOf (emit t))) := by
    simpa [ha, Pc.pendV, Pc.pending, violationsOf] using h3
  exact h4.trans (h2.flatMap_right _)

/-- **C54** A consumer never leaves while tasks are still to come: when one has ended, the generator has finished. -/
theorem C54_consumer_after_generator (hN : 0 < N) (emit : T → List (V ⊕ A)) (producers : List (List T)) (s : State N T V A)
    (hs : Reachable emit producers s) (i : Fin N) (hi : s.cons i = .stopped) : ∀ l ∈ s.todo, l = [] := by
  have h := (hs.inv hN).local_ i
  rw [hi] at h
  exact (hs.inv hN).flag h

/-- **C54** Every execution in which no thread is forgotten returns, and stays there. -/
theorem C54_returns (hN : 0 < N) (emit : T → List (V ⊕ A)) (producers : List (List T)) (σ : Nat → State N T V A)
    (h : Execution emit producers σ) (hf : Fair emit σ) : ∃ n, ∀ m, n ≤ m → Returned (σ m) :=
  fair_returns h hf hN

/-- **C54** No deadlock: a thread that has not ended can always make a step. -/
theorem C54_never_blocked (emit : T → List (V ⊕ A)) (s : State N T V A) (th : Thread N) (h : ¬ Ended s th) :
    ∃ s', Step emit th s s' :=
  enabled s th h

/-- **C54** No livelock: from every state any interleaving can lead to, some continuation returns. -/
theorem C54_can_return (hN : 0 < N) (emit : T → List (V ⊕ A)) (producers : List (List T)) (s : State N T V A)
    (hs : Reachable emit producers s) : ∃ s', Leads emit s s' ∧ Returned s' :=
  can_return (hs.inv hN) hN

theorem leads_run {emit : T → List (V ⊕ A)} {s s' : State N T V A} (h : Leads emit s s') :
    ∃ (σ : Nat → State N T V A) (k : Nat), σ 0 = s ∧ (∀ n, k ≤ n → σ n = s') ∧
      ∀ n, σ (n + 1) = σ n ∨ ∃ th, Step emit th (σ n) (σ (n + 1)) := by
  induction h with
  | refl => exact ⟨fun _ => s, 0, rfl, fun _ _ => rfl, fun _ => .inl rfl⟩
  | @step s1 s2 th _ hs ih =>
    obtain ⟨σ, k, h0, hk, hn⟩ := ih
    refine ⟨fun n => if n ≤ k then σ n else s2, k + 1, by simp [h0], fun n hn => if_neg (by omega), ?_⟩
    intro n
    by_cases h1 : n + 1 ≤ k
    · simp only [h1, if_true, show n ≤ k by omega]
      exact hn n
    · by_cases h2 : n ≤ k
      · simp only [h1, if_false, h2, if_true]
        rw [hk n (by omega)]
        exact .inr ⟨th, hs⟩
      · simp only [h1, if_false, h2]
        exact .inl trivial

/-- Fair executions exist, so `C54_returns` is about something. -/
theorem fair_exists (hN : 0 < N) (emit : T → List (V ⊕ A)) (producers : List (List T)) :
    ∃ σ : Nat → State N T V A, Execution emit producers σ ∧ Fair emit σ := by
  obtain ⟨s', h1, h2⟩ := C54_can_return hN emit producers _ .start
  obtain ⟨σ, k, h3, h4, h5⟩ := leads_run h1
  refine ⟨σ, ⟨h3, h5⟩, ?_⟩
  intro th n
  refine ⟨max n k, le_max_left _ _, .inl ?_⟩
  rw [h4 _ (le_max_right _ _)]
  exact h2 th

end

/-- With the eight consumers of the code, two producers and tasks 1, 2, 3 each of which reports itself and a size. -/
example : ∃ s : State consumerCount Nat Nat Nat,
    Reachable (fun t => [.inl t, .inr (t + 1)]) [[1, 2], [3]] s ∧ Returned s ∧ s.collected.Perm [1, 2, 3] ∧
    s.stats.Perm [2, 3, 4] := by
  obtain ⟨s', h1, h2⟩ := C54_can_return (N := consumerCount) (by decide) (fun t : Nat => [Sum.inl t, Sum.inr (t + 1)]) [[1, 2], [3]] _ .start
  have h3 : ∀ {s : State consumerCount Nat Nat Nat}, Leads (fun t => [.inl t, .inr (t + 1)]) (Conc.start [[1, 2], [3]]) s →
      Reachable (fun t => [.inl t, .inr (t + 1)]) [[1, 2], [3]] s := by
    intro s h
    induction h with
    | refl => exact .start
    | step _ hs ih => exact .step ih hs
  have h4 := C54_exactly_once (by decide) _ _ _ (h3 h1) h2
  refine ⟨s', h3 h1, h2, ?_, ?_⟩
  · exact h4.2.1
  · exact h4.2.2.1

example : ∃ σ : Nat → State consumerCount Nat Nat Nat,
    Execution (fun t => [.inl t, .inr (t + 1)]) [[1, 2], [3]] σ ∧ Fair (fun t => [.inl t, .inr (t + 1)]) σ :=
  fair_exists (by decide) _ _

/-! ## C55 -/

/-- **C55** What is in the violation set after a job: what was there before, the violations other than aliases, and one entry
with all aliases grouped by canonical name if there are any. -/
theorem C55_collected (before items : List Violation) : ∃ groups, AliasGroups items groups ∧
    (∀ v, v ∈ Driver.collect before items ↔ v ∈ before ∨ (v ∈ items ∧ Direct v) ∨
      ((∃ q c, Violation.alias q c ∈ items) ∧ v = .allAliases groups)) ∧
    (before.Nodup → (Driver.collect before items).Nodup) :=
  collect_spec before items

/-- **C55** The grouping of a set of aliases is unique up to the order of the groups. -/
theorem C55_groups_unique (a b : List Violation) (g g' : List (Str × List Str)) (h : AliasGroups a g) (h' : AliasGroups b g')
    (hab : ∀ q c, Violation.alias q c ∈ a ↔ Violation.alias q c ∈ b) : g.Perm g' :=
  h.perm h' hab

example : Driver.collect [.responseConsistency ['q']] [.alias ['b'] ['c'], .hops ['x'] 3 2, .alias ['a'] ['c'], .alias ['b'] ['d'],
      .hops ['x'] 3 2] =
    [.responseConsistency ['q'], .hops ['x'] 3 2, .allAliases [(['c'], [['a'], ['b']]), (['d'], [['b']])]] := by
  decide +kernel

/-- What the consumers put on the queues for the tasks of a job, when processing a task does not abort. -/
def Driver.emitted (fuel thr : Nat) (ctx : Context) (lg : LGraph) (job : Job) (t : Task) : List (Violation ⊕ (Nat × Nat)) :=
  match Driver.outputs fuel thr ctx lg job t with
  | .ok l => l
  | _ => []

theorem violationsOf_inl (l : List Violation) : violationsOf (l.map (Sum.inl : _ → Violation ⊕ (Nat × Nat))) = l := by
  unfold violationsOf
  induction l with
  | nil => rfl
  | cons x l ih => simp_all

theorem violationsOf_append (a b : List (Violation ⊕ (Nat × Nat))) : violationsOf (a ++ b) = violationsOf a ++ violationsOf b := by
  simp [violationsOf]

theorem process_emitted {fuel thr : Nat} {ctx : Context} {lg : LGraph} {job : Job} {t : Task} {v : List Violation}
    (h : Driver.process fuel thr ctx lg job t = .ok v) : violationsOf (Driver.emitted fuel thr ctx lg job t) = v := by
  cases t with
  | ec q =>
    obtain ⟨r, h1, h2⟩ := bind_ok_iff.mp (show (processEC fuel thr ctx job.pathFns job.nodeFns q >>= fun r => Res.ok r.1) = .ok v from h)
    obtain ⟨g, hb, h1⟩ := bind_ok_iff.mp h1
    obtain ⟨l, hl, h1⟩ := bind_ok_iff.mp h1
    obtain ⟨c, hc, h1⟩ := bind_ok_iff.mp h1
    injection h1 with h1
    injection h2 with h2
    have e : Driver.outputs fuel thr ctx lg job (.ec q) =
        .ok (l.toList.map .inl ++ [.inr (g.verts.length, g.edges.length)] ++ c.map .inl) := by
      unfold Driver.outputs
      simp only [hb, hl, hc, Res.ok_bind]
    unfold Driver.emitted
    rw [e]
    dsimp only
    rw [← h2, ← h1, violationsOf_append, violationsOf_append, violationsOf_inl, violationsOf_inl]
    simp [violationsOf]
  | structural node domain =>
    have e : Driver.outputs fuel thr ctx lg job (.structural node domain) = .ok (v.map .inl) := by
      have h' : LGraph.structuralCheck thr lg ctx domain node = .ok v := h
      unfold Driver.outputs
      simp only [h', Res.ok_bind]
    unfold Driver.emitted
    rw [e]
    exact violationsOf_inl v

theorem concatM_emitted {fuel thr : Nat} {ctx : Context} {lg : LGraph} {job : Job} (ts : List Task) (v : List Violation)
    (h : concatM (Driver.process fuel thr ctx lg job) ts = .ok v) :
    v = ts.flatMap (fun t => violationsOf (Driver.emitted fuel thr ctx lg job t)) := by
  induction ts generalizing v with
  | nil => simp [concatM] at h; simp [h]
  | cons t ts ih =>
    unfold concatM at h
    obtain ⟨a, ha, h⟩ := bind_ok_iff.mp h
    obtain ⟨b, hb, h⟩ := bind_ok_iff.mp h
    injection h with h
    rw [← h, List.flatMap_cons, ← ih b hb, process_emitted ha]

/-- **C55** Whatever the schedule and however the tasks are spread over producer threads, the violations collected for a job
are those of the run in which everything happens in turn, in some order. -/
theorem C55_as_sequential (fuel thr : Nat) (ctx : Context) (lg lg' : LGraph) (job : Job) (tasks : List Task) (v : List Violation)
    (hseq : Driver.runSequential fuel thr ctx lg job = .ok (lg', tasks, v)) (producers : List (List Task))
    (hp : producers.flatten.Perm tasks) (s : State consumerCount Task Violation (Nat × Nat))
    (hs : Reachable (Driver.emitted fuel thr ctx lg' job) producers s) (hr : Returned s) :
    s.taken.Perm tasks ∧ s.collected.Perm v := by
  unfold Driver.runSequential at hseq
  obtain ⟨r, h1, hseq⟩ := bind_ok_iff.mp hseq
  obtain ⟨w, h2, hseq⟩ := bind_ok_iff.mp hseq
  injection hseq with hseq
  injection hseq with e1 hseq
  injection hseq with e2 e3
  subst e1 e2 e3
  obtain ⟨h3, h4, -⟩ := C54_exactly_once (by decide) _ _ _ hs hr
  refine ⟨h3.trans hp, ?_⟩
  rw [concatM_emitted _ _ h2]
  exact h4.trans (hp.flatMap_right _)

/-- A job over `sub.com.` with structural checks: how many tasks and violations the run in turn has. -/
def structRun : Option (Nat × Nat) :=
  match Driver.runSequential 400 500 structCtx (labelGraph 500 structRecords)
      { domain := "sub.com.".toList, subdomains := true, structural := true, pathFns := [.hops 0], types := TypeSet.single .NS } with
  | .ok r => some (r.2.1.length, r.2.2.length)
  | _ => none

example : structRun = some (6, 9) := by decide +kernel

/-- **C55** Two runs of the same job from the same violation set report the same violations; only the order of the groups in
the entry with the aliases may differ. -/
theorem C55_schedule_independent (emit : Task → List (Violation ⊕ (Nat × Nat))) (p1 p2 : List (List Task))
    (hp : p1.flatten.Perm p2.flatten) (s1 s2 : State consumerCount Task Violation (Nat × Nat))
    (hs1 : Reachable emit p1 s1) (hr1 : Returned s1) (hs2 : Reachable emit p2 s2) (hr2 : Returned s2) (before : List Violation) :
    ∃ g1 g2, g1.Perm g2 ∧ ∀ v,
      (v ∈ Driver.collect before s1.collected ↔ v ∈ before ∨ (v ∈ s2.collected ∧ Direct v) ∨
        ((∃ q c, Violation.alias q c ∈ s2.collected) ∧ v = .allAliases g1)) ∧
      (v ∈ Driver.collect before s2.collected ↔ v ∈ before ∨ (v ∈ s2.collected ∧ Direct v) ∨
        ((∃ q c, Violation.alias q c ∈ s2.collected) ∧ v = .allAliases g2)) := by
  obtain ⟨-, h1, -⟩ := C54_exactly_once (by decide) _ _ _ hs1 hr1
  obtain ⟨-, h2, -⟩ := C54_exactly_once (by decide) _ _ _ hs2 hr2
  have hperm : s1.collected.Perm s2.collected := h1.trans ((hp.flatMap_right _).trans h2.symm)
  obtain ⟨g1, a1, b1, -⟩ := C55_collected before s1.collected
  obtain ⟨g2, a2, b2, -⟩ := C55_collected before s2.collected
  refine ⟨g1, g2, a1.perm a2 (fun q c => hperm.mem_iff), fun v => ⟨?_, b2 v⟩⟩
  rw [b1 v, hperm.mem_iff]
  simp only [hperm.mem_iff]

/-- **C55** (disagreement) The order of the groups depends on the schedule: the two orders below are different JSON values, so
the violations file is not determined by the input. -/
theorem C55_disagreement_group_order :
    Driver.collect [] [.alias ['q'] ['c'], .alias ['q'] ['d']] ≠ Driver.collect [] [.alias ['q'] ['d'], .alias ['q'] ['c']] := by
  decide +kernel

end Groot
