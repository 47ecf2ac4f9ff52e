import Verif.Model.Json
import Mathlib.Data.List.Forall2

/-!
# Reading JSON (RFC 8259)

A reader for the part of JSON without fractions, exponents, `true`, `false` and escapes beyond ASCII, written after the grammar of RFC 8259.
It serves to say what a text means, independently of the program that writes it.
-/

namespace Groot.Spec.JsonText

/-- White space (RFC 8259, section 2). -/
def isWs (c : Char) : Bool := c == ' ' || c == '\t' || c == '\n' || c == '\r'

/-- The text after white space. -/
def skip (s : Str) : Str := s.dropWhile isWs

/-- A decimal digit. -/
def isDec (c : Char) : Bool := 48 ≤ c.toNat && c.toNat ≤ 57

/-- The number a sequence of decimal digits stands for. -/
def decimal (ds : Str) : Nat := ds.foldl (fun n c => 10 * n + (c.toNat - 48)) 0

/-- An integer without sign: no leading zeros (section 6). -/
def readNat (s : Str) : Option (Nat × Str) :=
  let ds := s.takeWhile isDec
  if ds = [] ∨ (ds.head? = some '0' ∧ ds.length ≠ 1) then none else some (decimal ds, s.dropWhile isDec)

/-- The value of a hexadecimal digit. -/
def hexValue (c : Char) : Option Nat :=
  if 48 ≤ c.toNat ∧ c.toNat ≤ 57 then some (c.toNat - 48)
  else if 97 ≤ c.toNat ∧ c.toNat ≤ 102 then some (c.toNat - 87)
  else if 65 ≤ c.toNat ∧ c.toNat ≤ 70 then some (c.toNat - 55)
  else none

/-- The character an escape sequence of two characters stands for (section 7). -/
def escaped : Char → Option Char
  | '"' => some '"'
  | '\\' => some '\\'
  | '/' => some '/'
  | 'b' => some (Char.ofNat 8)
  | 'f' => some (Char.ofNat 12)
  | 'n' => some (Char.ofNat 10)
  | 'r' => some (Char.ofNat 13)
  | 't' => some (Char.ofNat 9)
  | _ => none

/-- The characters of a string up to the closing quote, and what follows. -/
def readChars : Str → Option (Str × Str)
  | '"' :: s => some ([], s)
  | '\\' :: 'u' :: a :: b :: c :: d :: s =>
    match hexValue a, hexValue b, hexValue c, hexValue d with
    | some a, some b, some c, some d =>
      let n := ((a * 16 + b) * 16 + c) * 16 + d
      if n < 128 then (readChars s).map (fun r => (Char.ofNat n :: r.1, r.2)) else none
    | _, _, _, _ => none
  | '\\' :: e :: s =>
    match escaped e with
    | some c => (readChars s).map (fun r => (c :: r.1, r.2))
    | none => none
  | c :: s => if c.toNat < 32 ∨ c = '\\' then none else (readChars s).map (fun r => (c :: r.1, r.2))
  | [] => none

mutual

/-- A value at the beginning of the text, and what follows; the first argument bounds the depth of the recursion. -/
def readValue : Nat → Str → Option (Json × Str)
  | 0, _ => none
  | n + 1, s =>
    match s with
    | 'n' :: 'u' :: 'l' :: 'l' :: s => some (.null, s)
    | '"' :: s => (readChars s).map (fun r => (.str r.1, r.2))
    | '-' :: s => (readNat s).map (fun r => (.int (-(r.1 : Int)), r.2))
    | '[' :: s => match skip s with
      | ']' :: s => some (.arr [], s)
      | s => (readElements n s).map (fun r => (.arr r.1, r.2))
    | '{' :: s => match skip s with
      | '}' :: s => some (.obj [], s)
      | s => (readMembers n s).map (fun r => (.obj r.1, r.2))
    | s => (readNat s).map (fun r => (.int r.1, r.2))

/-- The elements of an array, up to the closing bracket. -/
def readElements : Nat → Str → Option (List Json × Str)
  | 0, _ => none
  | n + 1, s => do
    let (x, s) ← readValue n (skip s)
    match skip s with
    | ']' :: s => some ([x], s)
    | ',' :: s => (readElements n s).map (fun r => (x :: r.1, r.2))
    | _ => none

/-- The members of an object, up to the closing brace. -/
def readMembers : Nat → Str → Option (List (Str × Json) × Str)
  | 0, _ => none
  | n + 1, s =>
    match skip s with
    | '"' :: s => do
      let (k, s) ← readChars s
      match skip s with
      | ':' :: s => do
        let (x, s) ← readValue n (skip s)
        match skip s with
        | '}' :: s => some ([(k, x)], s)
        | ',' :: s => (readMembers n s).map (fun r => ((k, x) :: r.1, r.2))
        | _ => none
      | _ => none
    | _ => none

end

/-- The value a text stands for: white space, one value, white space. -/
def parse (s : Str) : Option Json :=
  match readValue (s.length + 1) (skip s) with
  | some (j, r) => if skip r = [] then some j else none
  | none => none

end Groot.Spec.JsonText

namespace Groot.Spec

/-! ### What the JSON object of a violation says -/

/-- A step into a JSON value: a member of an object or an element of an array. -/
inductive JStep where
  | key (k : Str)
  | idx (i : Nat)
  deriving DecidableEq

mutual

/-- The values in a JSON value that have no parts, each with the way to it. -/
def leaves : Json → List (List JStep × Json)
  | .arr [] => [([], .arr [])]
  | .arr (x :: xs) => leavesArr 0 (x :: xs)
  | .obj [] => [([], .obj [])]
  | .obj (x :: xs) => leavesObj (x :: xs)
  | .null => [([], .null)]
  | .int n => [([], .int n)]
  | .str s => [([], .str s)]

/-- The leaves of the elements, numbered from `i`. -/
def leavesArr : Nat → List Json → List (List JStep × Json)
  | _, [] => []
  | i, x :: xs => (leaves x).map (fun p => (.idx i :: p.1, p.2)) ++ leavesArr (i + 1) xs

/-- The leaves of the members. -/
def leavesObj : List (Str × Json) → List (List JStep × Json)
  | [] => []
  | (k, x) :: m => (leaves x).map (fun p => (.key k :: p.1, p.2)) ++ leavesObj m

end

/-- The string `s` under the key `k`. -/
def field (k : String) (s : Str) : List JStep × Json := ([.key k.toList], .str s)

/-- The string `s` under the key `k` of the member "Violation". -/
def detail (k : String) (s : Str) : List JStep × Json := ([.key "Violation".toList, .key k.toList], .str s)

/-- The number `n` under the key `k` of the member "Violation". -/
def number (k : String) (n : Int) : List JStep × Json := ([.key "Violation".toList, .key k.toList], .int n)

/-- Entries below element `i` of the array under the key `k`. -/
def inElement (k : String) (i : Nat) (l : List (List JStep × Json)) : List (List JStep × Json) :=
  l.map (fun p => (.key k.toList :: .idx i :: p.1, p.2))

/-- The strings of an array under a key. -/
def listed (k : Str) (l : List Str) : List (List JStep × Json) :=
  l.zipIdx.map (fun p => ([.key k, .idx p.2], .str p.1))

/-- An array assigned but never extended is null. -/
def orNull (k : String) {α : Type} (l : List α) (e : List (List JStep × Json)) : List (List JStep × Json) :=
  match l with
  | [] => [([.key k.toList], .null)]
  | _ => e

/-- The number of an answer's tag: ANS, REWRITE, REF, NX, REFUSED, NSNOTFOUND and YX are 0 to 6. -/
def tagNumber (t : Tag) : Int := ([Tag.ANS, .REWRITE, .REF, .NX, .REFUSED, .NSNOTFOUND, .YX].idxOf t : Nat)

/-- What is said about a pair of servers that disagree. -/
def pairEntries (p : PairDiff) : List (List JStep × Json) :=
  [([.key (p.roleA ++ " NS".toList)], .str p.serverA), ([.key (p.roleB ++ " NS".toList)], .str p.serverB)] ++
  listed "Common NS Records".toList p.nsDiff.1 ++
  listed ("Exclusive ".toList ++ p.roleA ++ " NS Records".toList) p.nsDiff.2.1 ++
  listed ("Exclusive ".toList ++ p.roleB ++ " NS Records".toList) p.nsDiff.2.2 ++
  listed "Common Glue Records".toList ((p.glueDiff.map (·.1)).getD []) ++
  listed ("Exclusive ".toList ++ p.roleA ++ " Glue Records".toList) ((p.glueDiff.map (·.2.1)).getD []) ++
  listed ("Exclusive ".toList ++ p.roleB ++ " Glue Records".toList) ((p.glueDiff.map (·.2.2)).getD [])

/-- What the JSON object of a violation says: every entry with its place.  `ord` is the order in which the records of an infinite
rewriting are numbered. -/
def entries (ord : List Str → List Str) : Violation → List (List JStep × Json)
  | .loop nodes => orNull "Loop" nodes (nodes.zipIdx.flatMap (fun n => inElement "Loop" n.2
        ((n.1.tag.map (fun t => ([JStep.key "AnswerTag".toList], Json.int (tagNumber t)))).toList ++ [field "NS" n.1.ns, field "Query" n.1.query]))) ++
      [field "Property" "Cyclic Zone Dependency".toList]
  | .responseReturned q t ns => [field "Property" "ResponseReturned".toList, field "Query" q, detail "Nameserver" ns, detail "Types" t]
  | .responseValue e ms => field "Expected" e :: orNull "Mismatches" ms (ms.zipIdx.flatMap (fun m =>
        inElement "Mismatches" m.2 [field "Found" m.1.1, field "Nameserver" m.1.2.2, field "Query" m.1.2.1])) ++
      [field "Property" "Response Value".toList]
  | .responseConsistency q => [field "Property" "Response Consistency".toList, field "Query" q]
  | .zeroTTL q ns r => [field "Property" "Zero TTL".toList, field "Query" q, detail "Nameserver" ns, detail "Record" r]
  | .alias q c => [field "Canonical Name" c, field "Property" "All Aliases".toList, field "Query" q]
  | .infiniteDname q1 q2 used => [field "Property" "Infinite DName Recursion".toList, field "Query1" q1, field "Query2" q2] ++
      ((if used = [] then [] else ord used).zipIdx 1).map (fun r => ([.key "RRsUsed".toList, .key ('R' :: 'R' :: Nat.toDigits 10 r.2)], .str r.1))
  | .delegation q n1 n2 glue => [field "Property" "Delegation Consistency".toList, field "Query" q,
      detail "InconsistencyType" (if glue then "Glue".toList else "NS".toList), detail "Nameserver1" n1, detail "Nameserver2" n2]
  | .lame q n1 n2 => [field "Property" "Lame Delegation".toList, field "Query" q, detail "Nameserver1" n1, detail "Nameserver2" n2]
  | .dnameLength q t ns => [field "Property" "DNAME Substitution exceeds length".toList, field "Query" q, detail "Nameserver" ns, detail "RewriteTarget" t]
  | .nsContact q ns a => [field "Property" "Name Server Contact".toList, field "Query" q, detail "AllowedDomains" a, detail "ExternalNameserver" ns]
  | .hops q n m => [field "Property" "Hops".toList, field "Query" q, number "ActualHops" n, number "MaxAllowedHops" m]
  | .rewrites q n m => [field "Property" "Rewrites".toList, field "Query" q, number "ActualRewrites" n, number "MaxAllowedRewrites" m]
  | .queryRewrite q t ns a => [field "Property" "Query Rewrite".toList, field "Query" q, detail "ExpectedUnder" a, detail "Nameserver" ns,
      detail "RewriteTarget" t]
  | .blackhole q t ns => [field "Property" "Rewrite Blackholing".toList, field "Query" q, detail "BlackholeNameserver" ns, detail "RewriteTarget" t]
  | .structural d pairs => field "Domain Name" d :: orNull "Inconsistent Pairs" pairs (pairs.zipIdx.flatMap (fun p =>
        inElement "Inconsistent Pairs" p.2 (pairEntries p.1))) ++
      [field "Property" "Structural Delegation Consistency".toList]
  | .allAliases groups => orNull "Canonical Name and their Aliases" groups (groups.zipIdx.flatMap (fun g =>
        inElement "Canonical Name and their Aliases" g.2 ((if g.1.2 = [] then [([.key "Aliases".toList], .arr [])]
          else listed "Aliases".toList g.1.2) ++ [field "Canonical Name" g.1.1]))) ++
      [field "Property" "All Aliases".toList]

/-- The roles of the two servers of a pair, as written in the report. -/
def roles : List (Str × Str) :=
  [("parent".toList, "child".toList), ("parent-a".toList, "parent-b".toList), ("child-a".toList, "child-b".toList)]

/-- The pairs of a structural violation have the roles written by the program. -/
def RolesOk : Violation → Prop
  | .structural _ pairs => ∀ p ∈ pairs, (p.roleA, p.roleB) ∈ roles
  | _ => True

/-- Two pairs say the same: no glue records to compare, or none found, is the same. -/
def SamePair (p q : PairDiff) : Prop :=
  p.roleA = q.roleA ∧ p.roleB = q.roleB ∧ p.serverA = q.serverA ∧ p.serverB = q.serverB ∧ p.nsDiff = q.nsDiff ∧
    p.glueDiff.getD ([], [], []) = q.glueDiff.getD ([], [], [])

/-- Two violations say the same: up to the order of the records used, and `SamePair`. -/
inductive SameReport : Violation → Violation → Prop where
  | refl (v : Violation) : SameReport v v
  | used (q1 q2 : Str) (a b : List Str) (h : a.Perm b) : SameReport (.infiniteDname q1 q2 a) (.infiniteDname q1 q2 b)
  | pairs (d : Str) (a b : List PairDiff) (h : List.Forall₂ SamePair a b) : SameReport (.structural d a) (.structural d b)

/-- What the JSON object of an issue found while reading a file says. -/
def issueEntries (file : Str) (i : Parser.Issue) : List (List JStep × Json) :=
  [field "Current Record" i.current, field "File Name" file, ([.key "Line Number".toList], .int i.line)] ++
    (if i.previous = [] then [] else [field "Previous Record" i.previous]) ++ [field "Violation" i.violation]

/-- What the JSON object of a missing glue record says. -/
def glueEntries (i : Zone.GlueIssue) : List (List JStep × Json) :=
  [field "Resource Record" i.record, field "Server" i.server, field "Violation" "Missing Glue Record".toList, field "Zone" i.zone]

/-! ### UTF-8 (RFC 3629) -/

/-- A Unicode scalar value. -/
def Scalar (n : Nat) : Prop := n < 0xD800 ∨ (0xE000 ≤ n ∧ n ≤ 0x10FFFF)

/-- The bytes of a scalar value (RFC 3629, section 3). -/
def utf8 (n : Nat) : List Nat :=
  if n < 0x80 then [n]
  else if n < 0x800 then [0xC0 + n / 64, 0x80 + n % 64]
  else if n < 0x10000 then [0xE0 + n / 4096, 0x80 + n / 64 % 64, 0x80 + n % 64]
  else [0xF0 + n / 262144, 0x80 + n / 4096 % 64, 0x80 + n / 64 % 64, 0x80 + n % 64]

/-- The bytes of a text. -/
def Utf8 (s : Str) : Prop := ∃ cs : List Nat, (∀ c ∈ cs, Scalar c) ∧ s.map Char.toNat = cs.flatMap utf8

/-- Every string and key of a JSON value is the encoding of a text. -/
def AllUtf8 (j : Json) : Prop :=
  ∀ p ∈ leaves j, (∀ k, JStep.key k ∈ p.1 → Utf8 k) ∧ ∀ s, p.2 = .str s → Utf8 s

/-- Every string in a list of entries is the encoding of a text. -/
def TextEntries (l : List (List JStep × Json)) : Prop := ∀ p ∈ l, ∀ s, p.2 = .str s → Utf8 s

end Groot.Spec
