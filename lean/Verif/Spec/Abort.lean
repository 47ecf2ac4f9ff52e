import Verif.Spec.Input
import Verif.Spec.Process

/-!
# Specification: job files that abort the process
-/

namespace Groot.Spec

/-- A property that needs a number, and has something that is not even converted to one. -/
def Unnumbered (p : JVal) : Prop :=
  (HasMember p "PropertyName" (.str "Hops".toList) ∨ HasMember p "PropertyName" (.str "Rewrites".toList)) ∧
  ∃ v, HasMember p "Value" v ∧ (∀ n, v ≠ .int n) ∧ (∀ b, v ≠ .bool b) ∧ ∀ n, v ≠ .flt n

/-- A job has such a property. -/
def UnnumberedJob (u : JVal) : Prop := ∃ v ps p, HasMember u "Properties" v ∧ Elements v ps ∧ p ∈ ps ∧ Unnumbered p

/-- A job file has such a job. -/
def UnnumberedFile (jj : JVal) : Prop := ∃ us u, Elements jj us ∧ u ∈ us ∧ UnnumberedJob u

end Groot.Spec
