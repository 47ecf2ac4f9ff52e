import Verif.Model.Producers
import Verif.Spec.Concurrency
import Verif.Spec.Labels

/-!
# Executions of the producer threads
-/

namespace Groot.Spec

/-- Any number of steps of the producer threads, in any order, and the tasks they enqueue, in order. -/
inductive Produces (types : TypeSet) (p : Prod.Pool) : Nat → List Task → Prod.Pool → Prop where
  | refl : Produces types p 0 [] p
  | step {n : Nat} {ts : List Task} {q r : Prod.Pool} {i : Nat} {o : Option Task} : Produces types p n ts q → Prod.Step types i q o r →
      Produces types p (n + 1) (ts ++ o.toList) r

/-- No known name is visited from two of the names that stand for the domain. -/
def KeepApart (rs : List RR) (domain : Name) : Prop :=
  ∀ k0 k1, Matches rs domain k0 domain.length → Matches rs domain k1 domain.length →
    ∀ n n' k b b', Visits rs domain k0 n k b → Visits rs domain k1 n' k b' → k0 = k1

end Groot.Spec

namespace Groot.Full

variable {N : Nat}

/-- States reachable from the start by any interleaving. -/
inductive Reachable (types : TypeSet) (emit : Task → List (Violation ⊕ (Nat × Nat))) (pool : Prod.Pool) : State N → Prop where
  | start : Reachable types emit pool (start pool)
  | step {s s' : State N} {th : Thread N} : Reachable types emit pool s → Step types emit th s s' → Reachable types emit pool s'

/-- `s'` can be reached from `s`. -/
inductive Leads (types : TypeSet) (emit : Task → List (Violation ⊕ (Nat × Nat))) : State N → State N → Prop where
  | refl (s : State N) : Leads types emit s s
  | step {s s' s'' : State N} {th : Thread N} : Leads types emit s s' → Step types emit th s' s'' → Leads types emit s s''

/-- An infinite execution: at each instant nothing happens or some thread makes a step. -/
structure Execution (types : TypeSet) (emit : Task → List (Violation ⊕ (Nat × Nat))) (pool : Prod.Pool) (σ : Nat → State N) : Prop where
  init : σ 0 = start pool
  next : ∀ n, σ (n + 1) = σ n ∨ ∃ th, Step types emit th (σ n) (σ (n + 1))

/-- The scheduler forgets no thread, except that the generator waits for the producers. -/
def Fair (types : TypeSet) (emit : Task → List (Violation ⊕ (Nat × Nat))) (σ : Nat → State N) : Prop :=
  ∀ (th : Thread N) (n : Nat), ∃ m, n ≤ m ∧ (Ended (σ m) th ∨ Step types emit th (σ m) (σ (m + 1)) ∨ (th = .gen ∧ ¬ (σ m).pool.Done))

/-- `GenerateECsAndCheckProperties` returns: every thread has been joined. -/
def Returned (s : State N) : Prop := ∀ th, Ended s th

end Groot.Full
