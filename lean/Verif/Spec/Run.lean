import Verif.Spec.Outcome
import Verif.Spec.Structural
import Verif.Spec.Job

/-!
# Specification of the reports of a whole run
-/

namespace Groot.Spec

/-- What testing the question `a0` reports, if the servers answer according to `said`: the reports of the path checks, of the
checks of final answers, and about loops.  `strict` says whether a missing type is always reported. -/
structure TestOutcome (w : World) (said : Str → Ask → List Answer) (a0 : Ask) (strict : Prop) (pf : List PathFn) (nf : List NodeFn)
    (vs : List Violation) : Prop where
  answers : Answering w a0 said
  paths : PathOutcome w said a0 pf vs
  ends : EndOutcome w said a0 nf vs
  loops : LoopOutcome w said a0 vs
  /-- nothing else is reported -/
  kinds : ∀ v ∈ vs, FromTest v
  missing : strict → ∀ ts, .returned ts ∈ nf → ∀ x, EndsAt w said a0 x → ∀ v, x.Misses ts v → v ∈ vs

/-- What the structural check reports about the name `n`: the disagreeing pairs of zones, in one report under the given name. -/
def structuralReports (w : World) (xs : List (RR × Nat × Nat)) (server : Nat → Str) (shown : Str) (n : Name) : List Violation :=
  let bad := (comparisons w n (zonesWith xs n)).filter (fun c => decide (¬ c.Agrees))
  if (∃ x ∈ xs, x.1.name = n ∧ x.1.type = .NS) ∧ bad ≠ [] then [.structural shown (bad.map (Comparison.report server))] else []

/-- What a task reports. -/
inductive TaskOutcome (w : World) (lg : LGraph) (xs : List (RR × Nat × Nat)) (server : Nat → Str) (job : Job) : Task → List Violation → Prop where
  | test (q : EC) (said : Str → Ask → List Answer) (vs : List Violation) :
      TestOutcome w said (ask q) (q.nonExistent = false) job.pathFns job.nodeFns vs → TaskOutcome w lg xs server job (.ec q) vs
  | structural (v : Nat) (shown : Str) (n : Name) : Known (xs.map (·.1)) n → nodeOf lg n = some v →
      TaskOutcome w lg xs server job (.structural v shown) (structuralReports w xs server shown n)

end Groot.Spec

namespace Groot
open Spec

/-- A job run on loaded zones, DNAMEs included: `w` is what the zones hold, `xs` are the records in the label graph. -/
structure RunSetting (ctx : Context) (w : World) (xs : List (RR × Nat × Nat)) (job : Job) : Prop where
  represents : Represents ctx w
  wellFormed : WellFormed w
  regular : Regular (xs.map (·.1))
  labels : ∀ n, Known (xs.map (·.1)) n → ∀ l ∈ n, l.length ≤ 63
  types : job.types ≠ 0
  pathFns : ∀ f ∈ job.pathFns, f.Configured
  nodeFns : ∀ f ∈ job.nodeFns, f.Configured w
  structural : job.structural = true → Registered ctx w xs ∧ ∀ n, InZones w n (zonesWith xs n)

end Groot
