import Verif.Spec.Lexer
import Verif.Spec.Labels
import Verif.Model.Parser

/-!
# Specification of the zone-file format as it is read: logical lines and record lines
-/

namespace Groot.Spec

/-! ### Logical lines -/

/-- Left parentheses minus right parentheses. -/
def depth (ts : List Tok) : Int :=
  (ts.countP (fun t => t.id = .LPAREN) : Int) - (ts.countP (fun t => t.id = .RPAREN) : Int)

/-- A logical line, without the newline that ends it: parentheses are balanced and never closed before they are opened,
and newlines occur only inside parentheses. -/
structure LogicalLine (l : List Tok) : Prop where
  balanced : depth l = 0
  opened : ∀ p, p <+: l → 0 ≤ depth p
  newlines : ∀ p t q, l = p ++ t :: q → t.id = .EOL → 0 < depth p

def isWord (t : Tok) : Bool := t.id = .WORD || t.id = .TEXT_WORD

/-- The fields of a line: its words, preceded by an empty field if blanks come before the first word. -/
def fields (l : List Tok) : List Str :=
  (match l.find? (fun t => isWord t || t.id = .WHITESPACE) with
   | some t => if t.id = .WHITESPACE then [[]] else []
   | none => []) ++ (l.filter isWord).map (·.text)

/-- Nothing at the beginning of `ts` is a logical line followed by a newline. -/
def Unfinished (ts : List Tok) : Prop := ¬ ∃ l e r, ts = l ++ e :: r ∧ LogicalLine l ∧ e.id = .EOL

/-- The tokens of a file are logical lines, each ended by a newline, and an unfinished rest. -/
inductive Split : List Tok → List (List Tok) → List Tok → Prop where
  | rest (ts : List Tok) : Unfinished ts → Split ts [] ts
  | line (l : List Tok) (e : Tok) (ts : List Tok) (ls : List (List Tok)) (tail : List Tok) : LogicalLine l → e.id = .EOL →
      Split ts ls tail → Split (l ++ e :: ts) (l :: ls) tail

/-- The number of newline tokens. -/
def eols (l : List Tok) : Nat := l.countP (fun t => t.id = .EOL)

/-- The effect of a file, logical line by logical line: a line without fields has none, any other is handled by
`endOfRecord`; the Boolean is false if the rest of the file is to be ignored. -/
def processLines (thr : Nat) : Parser.PState → List (List Tok) → Res (Parser.PState × Bool)
  | st, [] => .ok (st, true)
  | st, l :: ls =>
    let st := { st with line := st.line + eols l + 1 }
    if fields l = [] then processLines thr st ls
    else do
      let r ← Parser.endOfRecord thr { st with cur := fields l }
      if r.2 then processLines thr r.1 ls else .ok r

/-! ### Record lines -/

/-- Blanks. -/
def Blank (s : Str) : Prop := ∀ c ∈ s, c = ' ' ∨ c = '\t'

/-- The words `ws` written one after the other with blanks between them (and perhaps after the last). -/
inductive Written : List Str → Str → Prop where
  | nil : Written [] []
  | word (w sep s : Str) (ws : List Str) : w ≠ [] → (∀ c ∈ w, Ordinary c) → Blank sep → (sep = [] → ws = []) → Written ws s →
      Written (w :: ws) (w ++ sep ++ s)

/-- The end of a line: nothing, or a comment. -/
def LineEnd (s : Str) : Prop := s = [] ∨ ∃ c, s = ';' :: c ∧ '\n' ∉ c

/-- The parts of a record line. -/
structure Line where
  /-- empty for a line that starts with a blank -/
  owner : Str
  ttl : Option Str
  cls : Option Str
  ttlFirst : Bool
  type : Str
  rdata : List Str

/-- TTL and class, in either order, each optional. -/
def Line.middle (l : Line) : List Str :=
  if l.ttlFirst then l.ttl.toList ++ l.cls.toList else l.cls.toList ++ l.ttl.toList

/-- The text of a record line: words separated by blanks, then perhaps a comment. -/
def Line.Text (l : Line) (s : Str) : Prop :=
  ∃ body e, s = body ++ e ∧ LineEnd e ∧
    (if l.owner = [] then ∃ lead b, body = lead ++ b ∧ lead ≠ [] ∧ Blank lead ∧ Written (l.middle ++ l.type :: l.rdata) b
     else Written (l.owner :: (l.middle ++ l.type :: l.rdata)) body)

/-- A word that is taken for a record type. -/
def LooksLikeType (s : Str) : Prop := toUpper s ∈ ("DS".toList :: RRType.supported.filterMap (fun t => (mnemonic t).map String.toList))

instance (s : Str) : Decidable (LooksLikeType s) := by unfold LooksLikeType; infer_instance

/-- The value of a decimal number. -/
def decimal (s : Str) : Nat := s.foldl (fun n c => 10 * n + (c.toNat - 48)) 0

/-- The digits of a number written with or without a sign. -/
def unsigned : Str → Str
  | '-' :: ds => ds
  | '+' :: ds => ds
  | ds => ds

/-- A whole number as it is written: digits, perhaps after a sign. -/
def Numeral (t : Str) : Prop := unsigned t ≠ [] ∧ ∀ c ∈ unsigned t, '0' ≤ c ∧ c ≤ '9'

instance (t : Str) : Decidable (Numeral t) := by unfold Numeral; infer_instance

/-- The number written. -/
def numeralValue (t : Str) : Int := if t.head? = some '-' then -(decimal (unsigned t) : Int) else decimal (unsigned t)

/-- Numbers that have room in an `int` (of 32 bits). -/
def Fitting (v : Int) : Prop := -2147483648 ≤ v ∧ v ≤ 2147483647

instance (v : Int) : Decidable (Fitting v) := by unfold Fitting; infer_instance

/-- The TTL a number stands for: TTLs have 32 bits and no sign, so that negative ones wrap around. -/
def asTTL (v : Int) : Nat := if v < 0 then (4294967296 + v).toNat else v.toNat

/-- A record line of the standard form. -/
structure Line.Standard (l : Line) : Prop where
  owner : ¬ LooksLikeType l.owner
  notControl : l.owner ∉ ["$ORIGIN", "$INCLUDE", "$TTL", "@"].map String.toList
  ttl : ∀ t, l.ttl = some t → Numeral t ∧ Fitting (numeralValue t)
  cls : ∀ c, l.cls = some c → toUpper c = "IN".toList ∨ toUpper c = "CH".toList
  type : LooksLikeType l.type

/-- A name completed by the suffix, unless it ends in a dot. -/
def absolute (suffix s : Str) : Str := if s.getLast? = some '.' then s else s ++ ['.'] ++ suffix

/-- What a line is read against: the suffix for relative names, the last owner, the default TTL. -/
structure Defaults where
  suffix : Str
  owner : Name
  ttl : Nat

/-- A named SOA record sets the suffix if there is none. -/
def Line.suffix (l : Line) (d : Defaults) : Str :=
  if toUpper l.type = "SOA".toList ∧ l.owner ≠ [] ∧ d.suffix = [] then l.owner else d.suffix

/-- The owner as written, or the last one. -/
def Line.ownerText (l : Line) (d : Defaults) : Str := if l.owner = [] then present d.owner else l.owner

def Line.ttlValue (l : Line) (d : Defaults) : Nat := (l.ttl.map (fun t => asTTL (numeralValue t))).getD d.ttl

/-- The record a standard line stands for. -/
def Line.record (l : Line) (d : Defaults) : RR where
  name := stringToLabels (toLower (absolute (l.suffix d) (l.ownerText d)))
  type := stringToType (toUpper l.type)
  cls := if l.cls.map toUpper = some "CH".toList then 3 else 1
  ttl := l.ttlValue d
  rdata :=
    let data := List.intercalate [' '] l.rdata
    toLower (if toUpper l.type ∈ ["NS", "CNAME", "DNAME", "MX"].map String.toList then absolute (l.suffix d) data else data)

/-- The defaults after the line. -/
def Line.next (l : Line) (d : Defaults) : Defaults where
  suffix := l.suffix d
  owner := if (l.ownerText d).getLast? = some '.' then (if l.owner = [] then d.owner else stringToLabels l.owner)
    else stringToLabels (absolute (l.suffix d) (l.ownerText d))
  ttl := if d.ttl = 0 then l.ttlValue d else d.ttl

end Groot.Spec
