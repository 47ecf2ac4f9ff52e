import Verif.Spec.Threaded
import Verif.Spec.Structural

/-!
# Specification of what the structural check of a whole program reports
-/

namespace Groot.Spec

/-- The zones that hold records of `n`, in the order of the files. -/
def holding (w : World) (n : Name) : List Nat :=
  (w.zones.filter (fun p => decide (∃ r ∈ p.2, r.name = n))).map (·.1)

/-- The server of zone number `id`: the one given for the file of that number (numbers start at one). -/
def serverOf (zs : List Listing) : Nat → Str
  | 0 => []
  | k + 1 => ((zs[k]?).map (fun z => toLower z.2.1)).getD []

/-- The pairs of zones that disagree about `n`. -/
def disagreements (w : World) (n : Name) : List Comparison := (comparisons w n (holding w n)).filter (fun c => decide (¬ c.Agrees))

/-- The zones disagree about the delegation of `n`: some zone has NS records of `n`, and some pair of zones disagrees. -/
def DelegationUnsettled (w : World) (n : Name) : Prop := (∃ id, HasType (w.log id) n .NS) ∧ disagreements w n ≠ []

/-- The report saying so: the name, and all pairs that disagree. -/
def unsettledReport (w : World) (zs : List Listing) (n : Name) : Violation :=
  .structural (present n) ((disagreements w n).map (Comparison.report (serverOf zs)))

/-- The structural check is on for job number `i`, which is `u`: this job or an earlier one asks for it, and the names below the domain are asked for. -/
def StructuralOn (us : List UJob) (i : Nat) (u : UJob) : Prop := us[i]? = some u ∧ SomeStructural (us.take (i + 1)) ∧ u.subdomain = true

end Groot.Spec
