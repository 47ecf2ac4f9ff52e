import Verif.Model.Records
import Mathlib.Data.List.Lattice

/-!
# Specification vocabulary for names, types and record comparison

Nothing here refers to the functions of the model, only to its data types.
-/

namespace Groot.Spec

/-- Every dot of the label, except a dot at its very beginning, directly follows a backslash. -/
def DotsEscaped (l : Label) : Prop :=
  ∀ p s, l = p ++ '.' :: s → p ≠ [] → p.getLast? = some '\\'

/-- A label as it can occur in a parsed name: not empty, not ending in a backslash, inner dots escaped. -/
def LegalLabel (l : Label) : Prop :=
  l ≠ [] ∧ l.getLast? ≠ some '\\' ∧ DotsEscaped l

/-- A name all of whose labels are legal. -/
def LegalName (n : Name) : Prop := ∀ l ∈ n, LegalLabel l

/-- `s` is `d` or a name below `d` (labels are listed from the root). -/
def AtOrBelow (d s : Name) : Prop := ∃ rest, s = d ++ rest

instance (d s : Name) : Decidable (AtOrBelow d s) :=
  decidable_of_iff (d <+: s) ⟨fun ⟨r, h⟩ => ⟨r, h.symm⟩, fun ⟨r, h⟩ => ⟨r, h.symm⟩⟩

/-- Presentation form: labels from the leaf to the root, each followed by a dot; "." for the root. -/
def present (n : Name) : Str :=
  if n = [] then ['.'] else (n.reverse.map (fun l => l ++ ['.'])).flatten

/-- The text with a final dot, unless it is empty. -/
def dotted (s : Str) : Str := if s = [] ∨ s.getLast? = some '.' then s else s ++ ['.']

/-- The name a text stands for: the text is the labels, leaf first, each followed by a dot; what may be left over contains no dot that could
end a label. -/
def Reads (s : Str) (n : Name) : Prop :=
  LegalName n ∧ ∃ rest, dotted s = (n.reverse.map (fun l => l ++ ['.'])).flatten ++ rest ∧ DotsEscaped rest

/-- Lexicographic order of strings by character code. -/
def StrLt (a b : Str) : Prop := a.map Char.toNat < b.map Char.toNat

/-- The members of a type set. -/
def Member (ts : TypeSet) (t : RRType) : Prop := t ≠ .N ∧ ts.getLsbD t.idx = true

instance (ts : TypeSet) (t : RRType) : Decidable (Member ts t) := by unfold Member; infer_instance

/-- The mnemonic of a supported type. -/
def mnemonic : RRType → Option String
  | .A => "A" | .NS => "NS" | .CNAME => "CNAME" | .DNAME => "DNAME" | .SOA => "SOA" | .PTR => "PTR"
  | .MX => "MX" | .TXT => "TXT" | .AAAA => "AAAA" | .SRV => "SRV" | .RRSIG => "RRSIG"
  | .NSEC => "NSEC" | .SPF => "SPF" | .N => none

/-- What identifies a record: owner, type and data (not TTL, not class). -/
def key (r : RR) : Name × RRType × Str := (r.name, r.type, r.rdata)

/-- Two record lists hold the same records with the same multiplicities, in any order, where records are
identified by `key`. -/
def SameRecords (a b : List RR) : Prop := (a.map key).Perm (b.map key)

/-- The supported types in alphabetical order of their mnemonics. -/
def alphabetical : List RRType :=
  [.A, .AAAA, .CNAME, .DNAME, .MX, .NS, .NSEC, .PTR, .RRSIG, .SOA, .SPF, .SRV, .TXT]

/-- The mnemonic as a string of bytes (empty for the unsupported type). -/
def typeText (t : RRType) : Str := ((mnemonic t).getD "").toList

/-- How a set of types is written in a report. -/
def showTypes (ts : TypeSet) : Str :=
  [' '].intercalate ((alphabetical.filter (fun t => decide (Member ts t))).map typeText)

/-- How a query is written in a report: its name, marked if the query stands for the unmatched names below. -/
def showQuery (q : EC) : Str :=
  match q.excluded with
  | none => present q.name
  | some _ => "~{ }.".toList ++ present q.name

/-- How a record with this owner, type and data is written in a report. -/
def showKey (k : Name × RRType × Str) : Str :=
  present k.1 ++ "   ".toList ++ typeText k.2.1 ++ "   ".toList ++ k.2.2

/-- How a record is written in a report. -/
def showRecord (r : RR) : Str := showKey (key r)

/-- The comparison of two record lists as it is written in a report: the records in both, those only in the
first, those only in the second, with multiplicities. -/
def showSplit (a b : List RR) : List Str × List Str × List Str :=
  (((a.map key).bagInter (b.map key)).map showKey, ((a.map key).diff (b.map key)).map showKey,
    ((b.map key).diff (a.map key)).map showKey)

end Groot.Spec
