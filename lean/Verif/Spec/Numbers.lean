import Verif.Spec.File

/-!
# Specification of numbers at the beginning of a word
-/

namespace Groot.Spec

/-- The word begins with this number, perhaps after white space; a further digit does not follow. -/
def BeginsWith (s : Str) (v : Int) : Prop :=
  ∃ white t rest, s = white ++ t ++ rest ∧ (∀ c ∈ white, c ∈ [' ', '\t', '\n', '\x0b', '\x0c', '\r']) ∧ Numeral t ∧ v = numeralValue t ∧
    ∀ c, rest.head? = some c → ¬ ('0' ≤ c ∧ c ≤ '9')

/-- A class of records. -/
def IsClass (w : Str) : Prop := toUpper w = "IN".toList ∨ toUpper w = "CH".toList

instance (w : Str) : Decidable (IsClass w) := by unfold IsClass; infer_instance

/-- The default TTL after these words: the first number, if there was no default (or it was zero). -/
def defaultAfter (d : Nat) (ws : List Str) : Nat := ws.foldl (fun d w => if d = 0 ∧ Numeral w then asTTL (numeralValue w) else d) d

end Groot.Spec
