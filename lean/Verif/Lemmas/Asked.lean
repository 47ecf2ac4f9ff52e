import Verif.Spec.Asked
import Verif.Lemmas.CleanRun
import Verif.Lemmas.Show
import Verif.Lemmas.Checks
import Verif.Lemmas.Checks2
import Verif.Props.Driver
import Verif.Props.Concurrency

/-!
# Only what was asked for is reported
-/

namespace Groot

open Spec Driver Check

/-- All violations answer the wish. -/
abbrev Ans (w : Wanted) (l : List Violation) : Prop := ∀ v ∈ l, Fulfils w v

theorem Ans.nil {w : Wanted} : Ans w [] := fun _ h => nomatch h
theorem Ans.cons {w : Wanted} {v : Violation} {l : List Violation} (h : Fulfils w v) (hl : Ans w l) : Ans w (v :: l) := by
  intro x hx
  rcases List.mem_cons.mp hx with e | e
  · rw [e]; exact h
  · exact hl x e
theorem Ans.one {w : Wanted} {v : Violation} (h : Fulfils w v) : Ans w [v] := Ans.cons h Ans.nil
theorem Ans.append {w : Wanted} {a b : List Violation} (ha : Ans w a) (hb : Ans w b) : Ans w (a ++ b) := by
  intro x hx
  rcases List.mem_append.mp hx with e | e
  · exact ha x e
  · exact hb x e
theorem Ans.ite {w : Wanted} {c : Prop} [Decidable c] {a b : List Violation} (ha : c → Ans w a) (hb : Ans w b) : Ans w (if c then a else b) := by
  split_ifs with h
  · exact ha h
  · exact hb

variable {g : IG}

theorem responseReturned_ans (ts : TypeSet) : ∀ l, Yields (Ans (.node (.returned ts))) (responseReturned g ts l)
  | [] => .ok .nil
  | v :: rest => by
    have ih := responseReturned_ans ts rest
    unfold responseReturned
    split_ifs with h1 h2
    · exact .ok .nil
    · split
      · exact ih
      · exact .ub
      · refine .bind ih (fun r hr => .ok (Ans.append ?_ hr))
        split_ifs
        · exact .nil
        · intro x hx
          unfold returnedAt at hx
          obtain ⟨a, ha, rfl⟩ := List.mem_map.mp hx
          obtain ⟨-, ha⟩ := List.mem_filter.mp ha
          rw [Bool.and_eq_true] at ha h2
          rw [typesToString_fun]
          obtain ⟨t, ht, ht'⟩ := (count_ne_zero_iff _ _).mp ha.2
          have key : ∀ t, Member (a.types &&& ts) t → Member ts t := by
            intro t ht
            obtain ⟨hN, h⟩ := ht
            rw [BitVec.getLsbD_and, Bool.and_eq_true] at h
            exact ⟨hN, h.2⟩
          refine .returned ts _ _ _ (by simpa using h2.2) ⟨t, ?_⟩ key
          refine ⟨ht.1, ?_⟩
          rw [BitVec.getLsbD_and, ht.2, ht'.2]
          rfl
    · exact ih

theorem responseConsistency_ans (ts : TypeSet) (ends : List Nat) : Yields (Ans (.node (.consistency ts))) (responseConsistency g ts ends) := by
  unfold responseConsistency
  refine .any (fun x => .any (fun d => ?_))
  split_ifs
  · split
    · exact .ub
    · exact .ok (.one (.consistency _ _))
  · exact .ok .nil

theorem zeroAt_ans (ts : TypeSet) (first v : Nat) (hv : (g.vtx v).ns ≠ []) : ∀ l : List RR, Yields (Ans (.node (.zeroTTL ts))) (zeroAt g first v l)
  | [] => .ok .nil
  | r :: rs => by
    have ih := zeroAt_ans ts first v hv rs
    unfold zeroAt
    split_ifs
    · exact .any (fun s => .bind ih (fun t ht => .ok (.cons (.zeroTTL _ _ _ _ hv) ht)))
    · exact ih

theorem zeroLoop_ans (ts : TypeSet) (first : Nat) : ∀ l, Yields (Ans (.node (.zeroTTL ts))) (zeroLoop g ts first l)
  | [] => .ok .nil
  | v :: rest => by
    have ih := zeroLoop_ans ts first rest
    unfold zeroLoop
    split_ifs with h
    · have hv : (g.vtx v).ns ≠ [] := by
        rw [Bool.and_eq_true] at h
        simpa using h.2
      split
      · exact ih
      · exact .ub
      · dsimp only
        split_ifs
        · exact .bind (Q := Ans (.node (.zeroTTL ts))) (.ok .nil) (fun x hx => .bind ih (fun r hr => .ok (.append hx hr)))
        · exact .bind (zeroAt_ans ts first v hv _) (fun x hx => .bind ih (fun r hr => .ok (.append hx hr)))
    · exact ih

theorem nodeFn_ans (ends : List Nat) (f : NodeFn) : Yields (Ans (.node f)) (f.run g ends) := by
  cases f with
  | consistency ts => exact responseConsistency_ans ts ends
  | returned ts => exact responseReturned_ans ts ends
  | value ts v =>
    show Yields _ (responseValue g ts v ends)
    unfold responseValue
    refine .any (fun m => .ok ?_)
    cases m with
    | nil => exact .nil
    | cons x m => exact .one (.value _ _ _ (by simp))
  | zeroTTL ts =>
    show Yields _ (zeroTTL g ts ends)
    unfold zeroTTL
    split
    · exact .ok .nil
    · exact zeroLoop_ans ts _ _

theorem allAliases_ans (names : List Name) : ∀ l, Yields (Ans (.path (.allAliases names))) (allAliases g names l)
  | [] => .ok .nil
  | v :: rest => by
    have ih := allAliases_ans names rest
    unfold allAliases
    refine .any (fun b => .bind ih (fun r hr => .ok (.append (.ite (fun _ => ?_) .nil) hr)))
    intro x hx
    obtain ⟨u, hu, rfl⟩ := List.mem_map.mp hx
    obtain ⟨-, hu⟩ := List.mem_filter.mp hu
    rw [Bool.and_eq_true] at hu
    have e : (g.vtx u).query.toStr = present (g.vtx u).query.name := by
      rw [toStr_fun]
      unfold showQuery
      cases he : (g.vtx u).query.excluded with
      | none => rfl
      | some x => rw [he] at hu; exact absurd hu.2 (by simp)
    rw [e]
    exact .alias _ _ _ (by simpa using hu.1)

theorem foldlM_length {α β : Type} (f : List β → α → Res (List β)) (hf : ∀ acc a, Yields (fun acc' => acc'.length = acc.length + 1) (f acc a)) :
    ∀ (l : List α) (acc : List β), Yields (fun r => r.length = acc.length + l.length) (l.foldlM f acc)
  | [], acc => by rw [List.foldlM_nil]; exact .ok (by simp)
  | a :: l, acc => by
    rw [List.foldlM_cons]
    refine .bind (hf acc a) (fun x hx => ?_)
    intro y hy
    have := foldlM_length f hf l x y hy
    rw [this, hx]
    simp only [List.length_cons]
    omega

theorem dnameStep_ans (v : Nat) (m : DMap) (r : RR) :
    Yields (fun x => match x with | .inl w => Fulfils (.path .infiniteDname) w | .inr _ => True) (dnameStep g v m r) := by
  unfold dnameStep
  dsimp only
  split
  · rename_i s q1 hf
    split_ifs
    · refine .bind (foldlM_length _ (fun acc e => .any (fun x => .ok (by simp))) m []) (fun used hu => .ok ?_)
      refine .infiniteDname _ _ _ ?_
      rintro rfl
      have : m = [] := by simpa using hu.symm
      rw [this] at hf
      cases hf
    · exact .ok trivial
  · exact .ok trivial

theorem dnameNode_ans (v : Nat) : ∀ (l : List RR) (m : DMap),
    Yields (fun x => match x with | .inl w => Fulfils (.path .infiniteDname) w | .inr _ => True) (dnameNode g v m l)
  | [], m => .ok trivial
  | r :: rs, m => by
    unfold dnameNode
    refine .bind (dnameStep_ans v m r) (fun x hx => ?_)
    cases x with
    | inl w => exact .ok hx
    | inr m' => exact dnameNode_ans v rs m'

theorem infiniteDname_ans : ∀ (l : List Nat) (m : DMap), Yields (Ans (.path .infiniteDname)) (infiniteDnameLoop g m l)
  | [], _ => .ok .nil
  | v :: rest, m => by
    unfold infiniteDnameLoop
    refine .any (fun b => ?_)
    split_ifs
    · refine .bind (dnameNode_ans v _ m) (fun x hx => ?_)
      cases x with
      | inl w => exact .ok (.one hx)
      | inr m' => exact infiniteDname_ans rest m'
    · exact infiniteDname_ans rest m

theorem delegation_ans (p : List Nat) : Yields (Ans (.path .delegation)) (delegationConsistency g p) := by
  unfold delegationConsistency
  split
  · split_ifs
    · refine .any (fun b => ?_)
      split
      · exact .ok .nil
      · unfold compareDelegation
        refine .any (fun pa => .any (fun ca => ?_))
        dsimp only
        have one : ∀ (c : Bool) (gl : Bool) (q a b : Str), Ans (.path .delegation) (if c = true then [.delegation q a b gl] else []) :=
          fun c gl q a b => .ite (fun _ => .one (.delegation ..)) .nil
        refine iteInduction (motive := fun r => Yields (Ans (.path .delegation)) r) (fun _ => .ok .nil) (fun _ => .ok (.append (one _ _ _ _ _) (one _ _ _ _ _)))
    · exact .ok .nil
  · exact .ok .nil

theorem lameLoop_ans (q : EC) : ∀ l, Yields (Ans (.path .lame)) (lameLoop g q l)
  | [] => .ok .nil
  | v :: rest => by
    have ih := lameLoop_ans q rest
    unfold lameLoop
    refine .any (fun b => ?_)
    split
    · split
      · exact ih
      · exact .ub
      · refine .bind ih (fun r hr => ?_)
        split_ifs
        · exact .ok (.cons (.lame ..) hr)
        · exact .ok hr
    · exact ih

theorem nsContact_ans (allowed : List Name) (ha : allowed ≠ []) : ∀ l, Yields (Ans (.path (.nsContact allowed))) (nsContact g allowed l)
  | [] => .ok .nil
  | v :: rest => by
    have ih := nsContact_ans allowed ha rest
    unfold nsContact
    rw [printList_eq allowed ha, Res.ok_bind]
    split_ifs with h
    · exact .bind ih (fun r hr => .ok (.cons (.nsContact _ _ _ h.1 ((subDomainCheckAny_outside _ _).mp h.2)) hr))
    · exact ih

theorem queryRewrite_ans (allowed : List Name) (ha : allowed ≠ []) : ∀ l, Yields (Ans (.path (.queryRewrite allowed))) (queryRewrite g allowed l)
  | [] => .ok .nil
  | v :: rest => by
    have ih := queryRewrite_ans allowed ha rest
    unfold queryRewrite
    refine .any (fun b => ?_)
    split
    · rw [printList_eq allowed ha, Res.ok_bind]
      split_ifs with h
      · refine .bind ih (fun r hr => .ok (.cons ?_ hr))
        rw [toStr_fun]
        exact .queryRewrite _ _ _ _ ((subDomainCheckAny_outside _ _).mp h)
      · exact ih
    · exact ih

theorem blackholeLoop_ans (last : Nat) : ∀ l, Yields (Ans (.path .blackholing)) (blackholeLoop g last l)
  | [] => .ok .nil
  | v :: rest => by
    have ih := blackholeLoop_ans last rest
    unfold blackholeLoop
    refine .any (fun b => ?_)
    split_ifs
    · exact .any (fun a => .ok (.ite (fun _ => .one (.blackholing ..)) .nil))
    · exact .ok .nil
    · exact ih

/-- The domain lists of a check are not empty. -/
def _root_.Groot.PathFn.Stored : PathFn → Prop
  | .queryRewrite d => d ≠ []
  | .nsContact d => d ≠ []
  | _ => True

theorem pathFn_ans (p : List Nat) (f : PathFn) (hf : f.Stored) : Yields (Ans (.path f)) (f.run g p) := by
  cases f with
  | misfit b => cases b <;> (intro _ h; cases h)
  | hops n =>
    show Yields _ (hops g n p)
    unfold hops
    refine .any (fun s => ?_)
    split_ifs with h
    · split
      · exact .ub
      · exact .ok (.one (.hops _ _ _ h.1 h.2))
    · exact .ok .nil
  | rewrites n =>
    show Yields _ (rewrites g n p)
    unfold rewrites
    refine .any (fun s => ?_)
    split_ifs with h
    · split
      · exact .ub
      · exact .ok (.one (.rewrites _ _ _ h))
    · exact .ok .nil
  | delegation => exact delegation_ans p
  | infiniteDname => exact infiniteDname_ans p []
  | lame =>
    show Yields _ (lameDelegation g p)
    unfold lameDelegation
    split
    · split_ifs
      · exact lameLoop_ans _ _
      · exact .ok .nil
    · exact .ok .nil
  | queryRewrite d => exact queryRewrite_ans d hf p
  | nsContact d => exact nsContact_ans d hf p
  | blackholing =>
    show Yields _ (blackholing g p)
    unfold blackholing
    split
    · exact .ok .nil
    · exact blackholeLoop_ans _ p
  | allAliases d => exact allAliases_ans d p
  | dnameLength =>
    show Yields _ (dnameLength g p)
    unfold dnameLength
    split
    · exact .any (fun b => .ok (.ite (fun _ => .one (.dnameLength ..)) .nil))
    · exact .ub

/-- A violation the job can report: a loop, or one that answers a check of the job. -/
def JobAns (pf : List PathFn) (nf : List NodeFn) (st : Bool) (v : Violation) : Prop :=
  (∃ ns, v = .loop ns) ∨ (∃ f ∈ pf, Fulfils (.path f) v) ∨ (∃ f ∈ nf, Fulfils (.node f) v) ∨ (st = true ∧ Fulfils .structural v)

theorem checkLoops_ans : ∀ (fuel v : Nat) (p : List Nat), Yields (fun o => ∀ x, o = some x → ∃ ns, x = .loop ns) (g.checkLoops fuel v p)
  | 0, _, _ => .oof
  | fuel + 1, v, p => by
    unfold IG.checkLoops
    split_ifs
    · refine .bind (Q := fun x => ∃ ns, x = .loop ns) ?_ (fun x hx => .ok (by rintro y hy; injection hy with hy; rw [← hy]; exact hx))
      unfold IG.prettyLoop
      exact .any (fun ns => .ok ⟨ns, rfl⟩)
    · refine .foldlM _ _ (fun b hb e _ => ?_) (fun x hx => nomatch hx)
      cases b with
      | some x => exact .ok hb
      | none =>
        dsimp only
        have next : ∀ o : Option Violation, (∀ x, o = some x → ∃ ns, x = .loop ns) → Yields (fun o => ∀ x, o = some x → ∃ ns, x = .loop ns)
            (match o with | some x => Res.ok (some x) | none => g.checkLoops fuel e.dst (p ++ [v])) := by
          intro o ho
          cases o with
          | some x => exact .ok ho
          | none => exact checkLoops_ans fuel _ _
        cases e.side with
        | some s => exact .bind (checkLoops_ans fuel s _) next
        | none => exact .bind (.ok (fun x hx => nomatch hx)) next

theorem processEC_ans (fuel thr : Nat) (ctx : Context) (pf : List PathFn) (nf : List NodeFn) (st : Bool) (q : EC) (hp : ∀ f ∈ pf, f.Stored) :
    Yields (fun r => ∀ v ∈ r.1, JobAns pf nf st v) (processEC fuel thr ctx pf nf q) := by
  unfold processEC
  refine .any (fun g => .bind (checkLoops_ans fuel 0 []) (fun l hl => ?_))
  refine .bind (Q := fun vs => ∀ v ∈ vs, JobAns pf nf st v) ?_ (fun v hv => .ok ?_)
  · unfold checkProperties
    refine .any (fun s => ?_)
    refine .bind (Q := fun vs => ∀ v ∈ vs, JobAns pf nf st v) (.concatM (fun p _ => .concatM (fun f hf => ?_))) (fun a ha => ?_)
    · intro vs hvs v hv
      exact .inr (.inl ⟨f, hf, pathFn_ans p f (hp f hf) vs hvs v hv⟩)
    · refine .bind (Q := fun vs => ∀ v ∈ vs, JobAns pf nf st v) (.concatM (fun f hf => ?_)) (fun b hb => .ok ?_)
      · intro vs hvs v hv
        exact .inr (.inr (.inl ⟨f, hf, nodeFn_ans _ f vs hvs v hv⟩))
      · intro v hv
        rcases List.mem_append.mp hv with h | h
        · exact ha v h
        · exact hb v h
  · intro x hx
    rcases List.mem_append.mp hx with h | h
    · exact .inl (hl x (by simpa using h))
    · exact hv x h

theorem structural_ans (thr : Nat) (lg : LGraph) (ctx : Context) (domain : Str) (node : Nat) :
    Yields (Ans .structural) (LGraph.structuralCheck thr lg ctx domain node) := by
  unfold LGraph.structuralCheck
  dsimp only
  split_ifs
  · refine .any (fun st => .any (fun pairs => ?_))
    cases pairs with
    | nil => exact .ok .nil
    | cons x l => exact .ok (.one (.structural _ _ (by simp)))
  · exact .ok .nil

/-- Tasks for the structural check are only made if the check is on. -/
def TaskFor (st : Bool) : Task → Prop
  | .ec _ => True
  | .structural _ _ => st = true

theorem subDomainECs_tasks (types : TypeSet) : ∀ (fuel : Nat) (lg : LGraph) (start : Nat) (parent : Name) (skip structural : Bool) (st : Bool),
    (structural = true → st = true) →
    Yields (fun r => ∀ t ∈ r.2, TaskFor st t) (LGraph.subDomainECs types fuel lg start parent skip structural)
  | 0, _, _, _, _, _, _, _ => .oof
  | fuel + 1, lg, start, parent, skip, structural, st, h => by
    unfold LGraph.subDomainECs
    dsimp only
    split_ifs
    all_goals first
      | exact .ok (fun _ h => nomatch h)
      | skip
    all_goals
      refine .bind (Q := fun r : LGraph × List Task × Bool => ∀ t ∈ r.2.1, TaskFor st t) (.foldlM _ _ (fun b hb e _ => ?_) ?_) (fun r hr => .ok ?_)
      · split_ifs
        · refine .bind (subDomainECs_tasks types fuel _ _ _ _ _ st h) (fun x hx => .ok ?_)
          intro t ht
          rcases List.mem_append.mp ht with h | h
          · exact hb t h
          · exact hx t h
        · refine .bind (subDomainECs_tasks types fuel _ _ _ _ _ st (by simp)) (fun x hx => .ok ?_)
          intro t ht
          rcases List.mem_append.mp ht with h | h
          · exact hb t h
          · exact hx t h
      · intro t ht
        first
          | (rw [List.mem_singleton.mp ht]; exact h (by assumption))
          | cases ht
      · intro t ht
        simp only [List.mem_append, List.mem_singleton] at ht
        rcases ht with (ht | ht) | ht
        · exact hr t ht
        · first
            | (rw [List.mem_singleton.mp ht]; trivial)
            | (rw [ht]; trivial)
            | cases ht
        · rw [ht]; trivial

theorem generateECs_tasks (fuel : Nat) (lg : LGraph) (job : LGraph.Req) :
    Yields (fun r => ∀ t ∈ r.2, TaskFor job.structural t) (LGraph.generateECs fuel lg job) := by
  have one : ∀ (g : LGraph) (q : EC), Yields (fun r : LGraph × List Task => ∀ t ∈ r.2, TaskFor job.structural t) (.ok (g, [Task.ec q])) := by
    intro g q
    exact .ok (by intro t ht; rw [List.mem_singleton.mp ht]; trivial)
  unfold LGraph.generateECs
  dsimp only
  refine iteInduction (motive := fun r => Yields _ r) (fun _ => .ok (fun _ h => nomatch h)) (fun _ => .any (fun r => ?_))
  obtain ⟨g, es⟩ := r
  dsimp only
  cases es with
  | nil => exact .exit
  | cons e es =>
    dsimp only
    refine iteInduction (motive := fun r => Yields _ r) (fun _ => .exit) (fun _ => ?_)
    refine iteInduction (motive := fun r => Yields _ r) (fun _ => ?_) (fun _ => one _ _)
    refine iteInduction (motive := fun r => Yields _ r) (fun _ => ?_) (fun _ => one _ _)
    refine .foldlM _ _ (fun b hb a _ => .bind (subDomainECs_tasks _ fuel _ _ _ _ _ job.structural id) (fun x hx => .ok ?_)) (fun _ h => nomatch h)
    intro t ht
    rcases List.mem_append.mp ht with h | h
    · exact hb t h
    · exact hx t h

theorem runSequential_ans (fuel thr : Nat) (ctx : Context) (lg : LGraph) (job : Job) (hp : ∀ f ∈ job.pathFns, f.Stored) :
    Yields (fun r => ∀ v ∈ r.2.2, JobAns job.pathFns job.nodeFns job.structural v) (runSequential fuel thr ctx lg job) := by
  unfold runSequential
  refine .bind (generateECs_tasks fuel lg (req job)) (fun r hr => ?_)
  refine .bind (Q := fun vs => ∀ v ∈ vs, JobAns job.pathFns job.nodeFns job.structural v) (.concatM (fun t ht => ?_)) (fun v hv => .ok hv)
  cases t with
  | ec q =>
    unfold process
    exact .bind (processEC_ans fuel thr ctx _ _ _ q hp) (fun r hr => .ok hr)
  | structural node domain =>
    unfold process
    intro vs hvs v hv
    exact .inr (.inr (.inr ⟨hr _ ht, structural_ans thr _ ctx domain node vs hvs v hv⟩))

end Groot
