import Verif.Spec.Verdict
import Verif.Spec.Driver

/-!
# The setting of a job: loaded zones, the label graph and a configured job
-/

namespace Groot
open Spec

/-- What the driver guarantees about a path check: domain lists are not empty. -/
def PathFn.Configured : PathFn → Prop
  | .queryRewrite d => d ≠ []
  | .nsContact d => d ≠ []
  | .misfit _ => False
  | _ => True

/-- What is needed of an end-node check: the expected values form a set, and there is a top server. -/
def NodeFn.Configured (w : World) : NodeFn → Prop
  | .value _ vs => vs.Pairwise StrLt ∧ w.top ≠ []
  | _ => True

/-- A job run on loaded zones without DNAMEs: `w` is what the zones hold, `xs` are the records in the label graph. -/
structure Setting (ctx : Context) (w : World) (xs : List (RR × Nat × Nat)) (job : Job) : Prop where
  represents : Represents ctx w
  wellFormed : WellFormed w
  /-- the label graph holds every record of the zones -/
  all : ∀ id, ∀ r ∈ w.log id, r ∈ xs.map (·.1)
  noDname : ∀ x ∈ xs, x.1.type ≠ .DNAME
  /-- labels are 1 to 63 bytes long (or at least not longer), and none is a lone dot -/
  labels : ∀ n, Known (xs.map (·.1)) n → ∀ l ∈ n, l ≠ ['.'] ∧ l.length ≤ 63
  domain : Short (stringToLabels job.domain)
  types : AsksOther job.types
  pathFns : ∀ f ∈ job.pathFns, f.Configured
  nodeFns : ∀ f ∈ job.nodeFns, f.Configured w

/-- The records a zone holds. -/
def heldBy (z : Zone) : List RR := z.g.verts.flatMap (·.data)

/-- No name in the loaded zones has a label that is a lone dot, the root has no DNAME, and the SOA records of a zone are at one name. -/
structure Tidy (ctx : Context) : Prop where
  owners : ∀ p ∈ ctx.zones, ∀ r ∈ heldBy p.2, ['.'] ∉ r.name
  targets : ∀ p ∈ ctx.zones, ∀ r ∈ heldBy p.2, r.type = .DNAME → ['.'] ∉ stringToLabels r.rdata ∧ r.name ≠ []
  apex : ∀ p ∈ ctx.zones, ∀ r ∈ heldBy p.2, ∀ s ∈ heldBy p.2, r.type = .SOA → s.type = .SOA → r.name = s.name

/-- Some type other than CNAME is listed by the job, or some property lists no types (and so asks for NS), and every property that needs a number has one. -/
structure Testable (u : UJob) : Prop where
  types : ∃ p ∈ u.properties, p.types = none ∨ ∃ l, p.types = some l ∧ ∃ s ∈ l, ∃ t, Names s t ∧ t ≠ .CNAME
  numbered : Numbered u

end Groot
