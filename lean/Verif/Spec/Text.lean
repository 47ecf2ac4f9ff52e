import Verif.Spec.Clean

/-!
# The strings of the input
-/

namespace Groot.Spec

open Driver

/-- A string of the input: of metadata.json, of the job file, the name of a zone file, or all of its text. -/
def OfInput (read : Str → Str) (m : Meta) (jobs : Option (List UJob)) (s : Str) : Prop :=
  (∃ l, m.topNameServers = some l ∧ s ∈ l) ∨
  (∃ zs, m.zoneFiles = some zs ∧ ∃ z ∈ zs, z.nameServer = some s ∨ z.origin = some s ∨ ∃ f, z.fileName = some f ∧ (s = f ∨ s = read f)) ∨
  (∃ us, jobs = some us ∧ ∃ u ∈ us, s = u.domain ∨ ∃ p ∈ u.properties, ∃ l, p.value = .strs l ∧ s ∈ l)

/-- Every string in a list of entries satisfies `K`. -/
def StrEntries (K : Str → Prop) (l : List (List JStep × Json)) : Prop := ∀ p ∈ l, ∀ s, p.2 = .str s → K s

end Groot.Spec
