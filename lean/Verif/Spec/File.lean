import Verif.Spec.Parser
import Verif.Spec.Loader

/-!
# Specification of zone files as they are loaded: the lines, the records they offer, and which of them are kept

A file is a list of logical lines.  Each either says nothing, sets the suffix or the default TTL, or offers a record.  Nothing
here mentions graphs, tokens or parser states.
-/

namespace Groot.Spec

/-- What a logical line of a zone file says. -/
inductive Entry where
  /-- nothing: no word that could be a type where a type may be -/
  | silent (words : List Str)
  | origin (suffix : Str)
  | ttl (value : Str)
  | record (l : Line)
  /-- a record with owner `@`; the owner of `l` does not matter -/
  | atSign (l : Line)

/-- The words after the owner. -/
def Line.afterOwner (l : Line) : List Str := l.middle ++ l.type :: l.rdata

/-- The words of the line, preceded by an empty word if the line begins with a blank. -/
def Entry.words : Entry → List Str
  | .silent ws => ws
  | .origin s => ["$ORIGIN".toList, s]
  | .ttl t => ["$TTL".toList, t]
  | .record l => l.owner :: l.afterOwner
  | .atSign l => "@".toList :: l.afterOwner

/-- The record line an entry stands for. -/
def Entry.line (e : Entry) (d : Defaults) : Option Line :=
  match e with
  | .record l => some l
  | .atSign l => some { l with owner := d.suffix }
  | _ => none

/-- The line has the standard form, where `d` are the defaults in force. -/
def Entry.Standard (d : Defaults) : Entry → Prop
  | .silent ws => (∀ w ∈ ws.take 1, w ∉ ["$ORIGIN", "$INCLUDE", "$TTL", "@"].map String.toList) ∧ ∀ w ∈ ws.take 4, ¬ LooksLikeType w
  | .origin _ => True
  | .ttl t => Numeral t ∧ Fitting (numeralValue t)
  | .record l => l.Standard
  | .atSign l => d.suffix ≠ [] ∧ Line.Standard { l with owner := d.suffix }

/-- The defaults after the line. -/
def Entry.next (e : Entry) (d : Defaults) : Defaults :=
  match e with
  | .silent _ => d
  | .origin s => { d with suffix := toLower s }
  | .ttl t => { d with ttl := asTTL (numeralValue t) }
  | .record l => l.next d
  | .atSign l => Line.next { l with owner := d.suffix } d

/-- All lines have the standard form. -/
def AllStandard : Defaults → List Entry → Prop
  | _, [] => True
  | d, e :: es => e.Standard d ∧ AllStandard (e.next d) es

/-- The records offered by the lines, each with the number of the (last) line of the file it is written on.  Every entry comes
with the number of lines it takes, and `n` lines came before. -/
def offers : Defaults → Nat → List (Entry × Nat) → List (Nat × RR)
  | _, _, [] => []
  | d, n, (e, k) :: es => ((e.line d).toList.map (fun l => (n + k, l.record d))) ++ offers (e.next d) (n + k) es

/-- A line gives an SOA record a name. -/
def Entry.namesSOA : Entry → Prop
  | .record l => l.owner ≠ [] ∧ toUpper l.type = "SOA".toList
  | .atSign l => toUpper l.type = "SOA".toList
  | _ => False

instance (e : Entry) : Decidable e.namesSOA := by cases e <;> (unfold Entry.namesSOA; infer_instance)

/-- The file says this: its tokens fall into these logical lines (each with the number of lines of the file it takes), and an
unfinished rest. -/
def FileSays (contents : Str) (es : List (Entry × Nat)) : Prop :=
  ∃ ts ls tail, Munch contents ts ∧ Split ts ls tail ∧ List.Forall₂ (fun l e => fields l = e.1.words ∧ eols l + 1 = e.2) ls es

/-- A line with these words (an empty first word for a blank at the beginning of the line), written without parentheses and
quotes, perhaps with a comment. -/
def WordsText (ws : List Str) (s : Str) : Prop :=
  ∃ body e, s = body ++ e ∧ LineEnd e ∧
    (Written ws body ∨ ∃ lead b more, ws = [] :: more ∧ body = lead ++ b ∧ lead ≠ [] ∧ Blank lead ∧ Written more b)

/-! ### Which records are kept -/

instance (r : RR) : Decidable (Pointing r) := by unfold Pointing; infer_instance
instance (log : List RR) (r : RR) : Decidable (Belongs log r) := by unfold Belongs; infer_instance

/-- What the report says of an over-long name: its first over-long label, if there is one. -/
def tooLong (n : Name) (label total : String) : Str :=
  match n.find? (fun l => decide (63 < l.length)) with
  | some l => l ++ label.toList
  | none => total.toList

/-- The first record with this owner, as it is written in a report. -/
def firstAt (log : List RR) (n : Name) : Str := (((recordsAt log n).head?).map showRecord).getD []

/-- Why a record is not kept by a zone holding `log`: the violation, and the record it is in conflict with (if any). -/
def refusal (log : List RR) (r : RR) : Option (Str × Str) :=
  if ¬ Short r.name then
    some (tooLong r.name " - length exceedes max length (63)" "Domain length exceedes max length (255)", [])
  else if Pointing r ∧ ¬ Short (stringToLabels r.rdata) then
    some (tooLong (stringToLabels r.rdata) " - length exceedes 63" "Target domain length exceedes max length (255)", [])
  else if ¬ Belongs log r then some ("OUT OF ZONE RECORD".toList, [])
  else if Duplicate log r then some ("Duplicate Record".toList, [])
  else if r.type = .CNAME ∧ HasType log r.name .CNAME then some ("MULTIPLE CNAMEs".toList, firstAt log r.name)
  else if r.type = .CNAME ∧ Owner log r.name ∨ HasType log r.name .CNAME then some ("CNAME AND OTHER TYPES".toList, firstAt log r.name)
  else if r.type = .DNAME ∧ HasType log r.name .DNAME then some ("MULTIPLE DNAMEs".toList, firstAt log r.name)
  else none

/-- The records of a file that are kept, after those in `log`. -/
def keepFrom (log : List RR) (rs : List RR) : List RR := rs.foldl (fun log r => if refusal log r = none then log ++ [r] else log) log

/-- The records a zone keeps of those offered. -/
def kept (offered : List (Nat × RR)) : List RR := keepFrom [] (offered.map (·.2))

/-- The lint reports: one for every record that is not kept, with its line, and why. -/
def reportsFrom (log : List RR) : List (Nat × RR) → List Parser.Issue
  | [] => []
  | (n, r) :: rs =>
    match refusal log r with
    | some (violation, other) => ⟨n, showRecord r, violation, other⟩ :: reportsFrom log rs
    | none => reportsFrom (log ++ [r]) rs

/-- The record cannot be judged: the zone has no origin yet, and this is no SOA record. -/
def Orphan (log : List RR) (r : RR) : Prop :=
  Short r.name ∧ (Pointing r → Short (stringToLabels r.rdata)) ∧ soaOwner log = [] ∧ r.type ≠ .SOA

/-- No offered record is an orphan. -/
def NoOrphan (offered : List (Nat × RR)) : Prop := ∀ pre x post, offered = pre ++ x :: post → ¬ Orphan (kept pre) x.2

/-- What the file of a zone in the metadata says, with the origin given there; no record is of the type DS, and none comes
before the SOA record. -/
structure GoodFile (contents origin : Str) (es : List (Entry × Nat)) : Prop where
  read : FileSays contents es
  standard : AllStandard ⟨origin, [], 0⟩ (es.map (·.1))
  supported : ∀ x ∈ offers ⟨origin, [], 0⟩ 0 es, x.2.type ≠ .N
  noOrphan : NoOrphan (offers ⟨origin, [], 0⟩ 0 es)

/-- The records a file offers. -/
def offeredBy (origin : Str) (es : List (Entry × Nat)) : List (Nat × RR) := offers ⟨origin, [], 0⟩ 0 es

/-- The file names an SOA record. -/
def HasSOA (es : List (Entry × Nat)) : Prop := ∃ e ∈ es.map (·.1), e.namesSOA

instance (es : List (Entry × Nat)) : Decidable (HasSOA es) := by unfold HasSOA; infer_instance

end Groot.Spec
