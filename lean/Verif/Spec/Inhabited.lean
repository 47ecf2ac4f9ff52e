import Verif.Spec.Labels

/-!
# Specification of room for names

A report about a class of names says something only if there is a name in it.
-/

namespace Groot.Spec

/-- There is room for a new name below every owner: some character is not a label on its own anywhere, and every owner can be extended by a label
of one character without exceeding 252 bytes. -/
structure Roomy (rs : List RR) : Prop where
  free : ∃ c : Char, ∀ r ∈ rs, [c] ∉ r.name
  room : ∀ r ∈ rs, octets r.name ≤ 250

end Groot.Spec
