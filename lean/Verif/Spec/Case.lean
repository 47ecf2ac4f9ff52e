import Verif.Model.Parser
import Mathlib.Data.List.Forall2

/-!
# Specification of case-insensitivity: two texts that differ in the case of letters only
-/

namespace Groot.Spec

/-- Each capital letter with its small one. -/
def letterPairs : List (Char × Char) := "ABCDEFGHIJKLMNOPQRSTUVWXYZ".toList.zip "abcdefghijklmnopqrstuvwxyz".toList

/-- The same character, or a capital letter and its small one. -/
def SameLetter (a b : Char) : Prop := a = b ∨ (a, b) ∈ letterPairs ∨ (b, a) ∈ letterPairs

instance (a b : Char) : Decidable (SameLetter a b) := by unfold SameLetter; infer_instance

/-- The texts differ in the case of letters only. -/
def SameText (s t : Str) : Prop := List.Forall₂ SameLetter s t

/-- The control words, which are recognised in capitals only. -/
def controlWords : List Str := ["$ORIGIN".toList, "$INCLUDE".toList, "$TTL".toList]

/-- The control words stand at the same places of both texts. -/
def SameControls (s t : Str) : Prop := ∀ c ∈ controlWords, ∀ i, c <+: s.drop i ↔ c <+: t.drop i

/-- Two optional texts, both absent or differing in case only. -/
def SameOption : Option Str → Option Str → Prop
  | none, none => True
  | some s, some t => SameText s t
  | _, _ => False

/-- Two entries of "ZoneFiles": the same file, the server and the origin up to case. -/
def SameEntry (z z' : Driver.UZone) : Prop :=
  z.fileName = z'.fileName ∧ SameOption z.nameServer z'.nameServer ∧ SameOption z.origin z'.origin

/-- Two metadata files: the top servers and the entries up to case. -/
def SameMeta (m m' : Driver.Meta) : Prop :=
  (match m.topNameServers, m'.topNameServers with
    | none, none => True | some a, some b => List.Forall₂ SameText a b | _, _ => False) ∧
  (match m.zoneFiles, m'.zoneFiles with
    | none, none => True | some a, some b => List.Forall₂ SameEntry a b | _, _ => False)

end Groot.Spec
