import Verif.Spec.Dname
import Verif.Spec.Final
import Verif.Spec.Delegation

/-!
# Specification of what is asked about a name, in the presence of DNAMEs
-/

namespace Groot.Spec

/-- The first `i` labels are the longest part of the name for which there is a known name, DNAMEs followed. -/
def Deepest (rs : List RR) (m : Name) (i : Nat) : Prop := (∃ k, Matches rs m k i) ∧ ∀ k j, Matches rs m k j → j ≤ i

/-- The job covers the subdomains of a domain for which there is a known name. -/
def Covering (job : Job) (rs : List RR) : Prop :=
  job.subdomains = true ∧ ∃ k, Matches rs (stringToLabels job.domain) k (stringToLabels job.domain).length

/-- The types asked for about the name `m`, and whether nothing is expected there.  The types of the job are asked for; but where the longest part of the
name known is known by a name without a wildcard, all types are (and nothing is expected).  With DNAMEs both can happen for one name. -/
inductive AskedWith (job : Job) (rs : List RR) (m : Name) : TypeSet → Bool → Prop where
  | single : ¬ Covering job rs → AskedWith job rs m job.types false
  | known (k : Name) : Matches rs m k m.length → AskedWith job rs m job.types false
  | wild (i : Nat) (k : Name) : Deepest rs m i → i < m.length → Matches rs m k i → Known rs (k ++ [['*']]) → AskedWith job rs m job.types false
  | nothing (i : Nat) (k : Name) : Covering job rs → Deepest rs m i → i < m.length → Matches rs m k i → ¬ Known rs (k ++ [['*']]) →
      AskedWith job rs m (~~~0) true

/-- The report names the question `a`, or the class of names beneath `k` it belongs to. -/
def CalledBy (a : Ask) (n : Str) : Prop := n = showAsk a ∨ ∃ k l rest, a.name = k ++ l :: rest ∧ n = showAsk ⟨k, a.types, true⟩

end Groot.Spec
