import Verif.Spec.Job

/-!
# Specification of classes of names in the presence of DNAMEs
-/

namespace Groot.Spec

/-- No DNAME leads strictly beneath the owner of a DNAME. -/
def Flat (rs : List RR) : Prop := ∀ n t n' t', Alias rs n t → Alias rs n' t' → AtOrBelow n' t → n' = t

/-- The names a class stands for: its name; or the names strictly below it for whose next label there is no known name, not even by way of DNAMEs. -/
def StandsFor (rs : List RR) (q : EC) (m : Name) : Prop :=
  match q.excluded with
  | none => m = q.name
  | some _ => ∃ l rest, m = q.name ++ l :: rest ∧ ¬ ∃ k, Matches rs m k (q.name.length + 1)

/-- One thing is asked after the other (questions for addresses of servers apart). -/
def Next (w : World) (x y : Str × Ask) : Prop := ∃ sd, Step w x.1 x.2 y.1 y.2 sd

/-- No question asked while `a0` is resolved is for an over-long name: neither the question itself nor a rewritten one. -/
def Fits (w : World) (a0 : Ask) : Prop := ∀ x, Relation.ReflTransGen (Next w) ([], a0) x → Short x.2.name

/-- `Setting` with DNAMEs: none leads beneath another, and the root has none. -/
structure Redirecting (ctx : Context) (w : World) (xs : List (RR × Nat × Nat)) (job : Job) : Prop where
  represents : Represents ctx w
  wellFormed : WellFormed w
  /-- the label graph holds every record of the zones -/
  all : ∀ id, ∀ r ∈ w.log id, r ∈ xs.map (·.1)
  flat : Flat (xs.map (·.1))
  root : ∀ t, ¬ Alias (xs.map (·.1)) [] t
  /-- labels are not too long, and none is a lone dot -/
  labels : ∀ n, Known (xs.map (·.1)) n → ∀ l ∈ n, l ≠ ['.'] ∧ l.length ≤ 63
  domain : Short (stringToLabels job.domain)
  types : AsksOther job.types
  pathFns : ∀ f ∈ job.pathFns, f.Configured
  nodeFns : ∀ f ∈ job.nodeFns, f.Configured w

end Groot.Spec
