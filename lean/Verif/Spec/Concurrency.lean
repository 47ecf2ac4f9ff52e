import Verif.Model.Concurrency
import Verif.Spec.Names

/-!
# Executions of the threads, fairness, and what the collected violations should be
-/

namespace Groot.Conc

variable {N : Nat} {T V A : Type}

/-- States reachable from the start by any interleaving. -/
inductive Reachable (emit : T → List (V ⊕ A)) (producers : List (List T)) : State N T V A → Prop where
  | start : Reachable emit producers (start producers)
  | step {s s' : State N T V A} {th : Thread N} : Reachable emit producers s → Step emit th s s' → Reachable emit producers s'

/-- `s'` can be reached from `s`. -/
inductive Leads (emit : T → List (V ⊕ A)) : State N T V A → State N T V A → Prop where
  | refl (s : State N T V A) : Leads emit s s
  | step {s s' s'' : State N T V A} {th : Thread N} : Leads emit s s' → Step emit th s' s'' → Leads emit s s''

/-- An infinite execution: at each instant nothing happens or some thread makes a step. -/
structure Execution (emit : T → List (V ⊕ A)) (producers : List (List T)) (σ : Nat → State N T V A) : Prop where
  init : σ 0 = start producers
  next : ∀ n, σ (n + 1) = σ n ∨ ∃ th, Step emit th (σ n) (σ (n + 1))

/-- The scheduler forgets no thread: from every instant on, each thread either has ended or makes a step at
some later time. -/
def Fair (emit : T → List (V ⊕ A)) (σ : Nat → State N T V A) : Prop :=
  ∀ (th : Thread N) (n : Nat), ∃ m, n ≤ m ∧ (Ended (σ m) th ∨ Step emit th (σ m) (σ (m + 1)))

/-- `GenerateECsAndCheckProperties` returns: every thread has been joined. -/
def Returned (s : State N T V A) : Prop := ∀ th, Ended s th

/-- The violations among the outputs of a task. -/
def violationsOf (l : List (V ⊕ A)) : List V := l.filterMap (Sum.elim some fun _ => none)

/-- The graph sizes among the outputs of a task. -/
def sizesOf (l : List (V ⊕ A)) : List A := l.filterMap (Sum.elim (fun _ => none) some)

end Groot.Conc

namespace Groot.Spec

/-- The aliases among the violations of a job, grouped by canonical name. -/
structure AliasGroups (items : List Violation) (groups : List (Str × List Str)) : Prop where
  /-- one group for each canonical name -/
  keys : (groups.map Prod.fst).Nodup
  /-- each group lists, without repetition and in order, the queries reported for its canonical name -/
  members : ∀ c qs, (c, qs) ∈ groups →
    qs ≠ [] ∧ qs.Pairwise StrLt ∧ ∀ q, q ∈ qs ↔ Violation.alias q c ∈ items
  /-- every canonical name has a group -/
  all : ∀ q c, Violation.alias q c ∈ items → ∃ qs, (c, qs) ∈ groups

/-- Not an alias: reported as it is. -/
def Direct : Violation → Prop
  | .alias _ _ => False
  | _ => True

end Groot.Spec
