import Verif.Model.Main

/-!
# JSON values, their order and their text (nlohmann::json as used by src/driver.cpp, src/properties.cpp, src/utils.cpp)

Only the kinds of values the program writes are modelled: null, integers, strings, arrays and objects.
-/

namespace Groot

/-- `nlohmann::json`.  An object is a `std::map`: its members are kept in ascending order of the keys. -/
inductive Json where
  | null
  | int (n : Int)
  | str (s : Str)
  | arr (l : List Json)
  | obj (m : List (Str × Json))
  deriving Repr, Inhabited

namespace Json

/-- `std::map::operator[](k) = v`: insert or overwrite. -/
def mapSet (k : Str) (v : Json) : List (Str × Json) → List (Str × Json)
  | [] => [(k, v)]
  | (a, x) :: m => if strLt k a then (k, v) :: (a, x) :: m else if strLt a k then (a, x) :: mapSet k v m else (a, v) :: m

/-- `j[k] = v`: null becomes an object first; anything else throws and does not occur here. -/
def set (j : Json) (k : Str) (v : Json) : Json :=
  match j with
  | .null => .obj [(k, v)]
  | .obj m => .obj (mapSet k v m)
  | j => j

/-- A new `json` after a sequence of assignments `j[k] = v`. -/
def assigned (l : List (Str × Json)) : Json := l.foldl (fun j p => j.set p.1 p.2) .null

/-- A member assigned `{}` (null) and then extended by `push_back`: null becomes an array with the first element. -/
def pushed : List Json → Json
  | [] => .null
  | l => .arr l

/-- The rank of the type in nlohmann's `operator<(value_t, value_t)`: null, numbers, objects, arrays, strings. -/
def rank : Json → Nat
  | .null => 0
  | .int _ => 2
  | .obj _ => 3
  | .arr _ => 4
  | .str _ => 5

/-- Three-way comparison of strings. -/
def cmpStr (a b : Str) : Ordering := if strLt a b then .lt else if strLt b a then .gt else .eq

mutual

/-- nlohmann's `operator<` as a three-way comparison (`a < b` is `.lt`, `b < a` is `.gt`): values of the same type by value, arrays and
objects lexicographically, members by key and then value; other values by type. -/
def cmp : Json → Json → Ordering
  | .int a, .int b => compare a b
  | .str a, .str b => cmpStr a b
  | .arr a, .arr b => cmpArr a b
  | .obj a, .obj b => cmpObj a b
  | .null, b => compare 0 b.rank
  | .int _, b => compare 2 b.rank
  | .obj _, b => compare 3 b.rank
  | .arr _, b => compare 4 b.rank
  | .str _, b => compare 5 b.rank

/-- Lexicographic comparison of arrays. -/
def cmpArr : List Json → List Json → Ordering
  | [], [] => .eq
  | [], _ :: _ => .lt
  | _ :: _, [] => .gt
  | a :: as, b :: bs => match cmp a b with
    | .eq => cmpArr as bs
    | o => o

/-- Lexicographic comparison of objects. -/
def cmpObj : List (Str × Json) → List (Str × Json) → Ordering
  | [], [] => .eq
  | [], _ :: _ => .lt
  | _ :: _, [] => .gt
  | (k, a) :: as, (l, b) :: bs => match cmpStr k l with
    | .eq => match cmp a b with
      | .eq => cmpObj as bs
      | o => o
    | o => o

end

/-- `std::set<json>::insert` (src/driver.cpp:69, 82): the elements in ascending order. -/
def setInsert (j : Json) : List Json → List Json
  | [] => [j]
  | x :: xs => match cmp j x with
    | .lt => j :: x :: xs
    | .eq => x :: xs
    | .gt => x :: setInsert j xs

/-- The hexadecimal digit of a number below 16, as printed by `%04x`. -/
def hexDigit (n : Nat) : Char := "0123456789abcdef".toList.getD n '0'

/-- `serializer::dump_escaped` for one character of valid UTF-8 text, `ensure_ascii` off. -/
def escape (c : Char) : Str :=
  if c = Char.ofNat 8 then ['\\', 'b']
  else if c = Char.ofNat 9 then ['\\', 't']
  else if c = Char.ofNat 10 then ['\\', 'n']
  else if c = Char.ofNat 12 then ['\\', 'f']
  else if c = Char.ofNat 13 then ['\\', 'r']
  else if c = '"' then ['\\', '"']
  else if c = '\\' then ['\\', '\\']
  else if c.toNat < 32 then ['\\', 'u', '0', '0', hexDigit (c.toNat / 16), hexDigit (c.toNat % 16)]
  else [c]

/-- A string in quotes. -/
def quoted (s : Str) : Str := '"' :: (s.flatMap escape ++ ['"'])

/-- The decimal digits of a number, most significant first; the first argument bounds their number. -/
def digits : Nat → Nat → Str
  | 0, _ => []
  | f + 1, n => if n < 10 then [Char.ofNat (48 + n)] else digits f (n / 10) ++ [Char.ofNat (48 + n % 10)]

/-- The text of a number (`serializer::dump_integer`, `std::to_string`). -/
def natText (n : Nat) : Str := digits (n + 1) n

/-- `serializer::dump_integer`. -/
def intText (n : Int) : Str := if n < 0 then '-' :: natText n.natAbs else natText n.natAbs

/-- `n` spaces of indentation. -/
def spaces (n : Nat) : Str := List.replicate n ' '

mutual

/-- `serializer::dump` with pretty printing and `indent_step` 4; `ind` is the current indentation.  The text of strings is assumed to be
valid UTF-8, see `dump?`. -/
def dump (ind : Nat) : Json → Str
  | .null => "null".toList
  | .int n => intText n
  | .str s => quoted s
  | .arr [] => "[]".toList
  | .arr (x :: xs) => "[\n".toList ++ spaces (ind + 4) ++ dump (ind + 4) x ++ dumpRest (ind + 4) xs ++ "\n".toList ++ spaces ind ++ "]".toList
  | .obj [] => "{}".toList
  | .obj ((k, x) :: m) => "{\n".toList ++ spaces (ind + 4) ++ quoted k ++ ": ".toList ++ dump (ind + 4) x ++ dumpMembers (ind + 4) m ++
      "\n".toList ++ spaces ind ++ "}".toList

/-- The elements of an array after the first. -/
def dumpRest (ind : Nat) : List Json → Str
  | [] => []
  | x :: xs => ",\n".toList ++ spaces ind ++ dump ind x ++ dumpRest ind xs

/-- The members of an object after the first. -/
def dumpMembers (ind : Nat) : List (Str × Json) → Str
  | [] => []
  | (k, x) :: m => ",\n".toList ++ spaces ind ++ quoted k ++ ": ".toList ++ dump ind x ++ dumpMembers ind m

end

/-- A continuation byte. -/
def isCont (c : Char) : Bool := 0x80 ≤ c.toNat && c.toNat ≤ 0xBF

/-- The automaton `serializer::decode` runs over the bytes of a string accepts (ends in `UTF8_ACCEPT`): the well-formed byte sequences of
the Unicode standard, table 3-7.  The table of the automaton itself is not reproduced. -/
def utf8Ok : Str → Bool
  | [] => true
  | a :: s =>
    if a.toNat < 0x80 then utf8Ok s
    else if 0xC2 ≤ a.toNat ∧ a.toNat ≤ 0xDF then
      match s with
      | b :: s => isCont b && utf8Ok s
      | _ => false
    else if 0xE0 ≤ a.toNat ∧ a.toNat ≤ 0xEF then
      match s with
      | b :: c :: s => isCont b && isCont c && !(a.toNat == 0xE0 && b.toNat < 0xA0) && !(a.toNat == 0xED && 0x9F < b.toNat) && utf8Ok s
      | _ => false
    else if 0xF0 ≤ a.toNat ∧ a.toNat ≤ 0xF4 then
      match s with
      | b :: c :: d :: s => isCont b && isCont c && isCont d && !(a.toNat == 0xF0 && b.toNat < 0x90) && !(a.toNat == 0xF4 && 0x8F < b.toNat) && utf8Ok s
      | _ => false
    else false

mutual

/-- All strings and keys are valid UTF-8. -/
def textOk : Json → Bool
  | .null => true
  | .int _ => true
  | .str s => utf8Ok s
  | .arr l => textOkArr l
  | .obj m => textOkObj m

/-- All strings and keys of the elements are valid UTF-8. -/
def textOkArr : List Json → Bool
  | [] => true
  | x :: xs => textOk x && textOkArr xs

/-- All strings and keys of the members are valid UTF-8. -/
def textOkObj : List (Str × Json) → Bool
  | [] => true
  | (k, x) :: m => utf8Ok k && textOk x && textOkObj m

end

/-- `json::dump(4)`: throws `type_error` 316 if a string is not valid UTF-8 (error handler `strict`). -/
def dump? (j : Json) : Res Str := if textOk j then .ok (dump 0 j) else .throw

end Json

/-- `enum class ReturnTag` (src/zone-graph.h:12) converted to an integer, as `json` does. -/
def Tag.number : Tag → Int
  | .ANS => 0
  | .REWRITE => 1
  | .REF => 2
  | .NX => 3
  | .REFUSED => 4
  | .NSNOTFOUND => 5
  | .YX => 6

namespace Violation

open Json

/-- A string literal or a string as a JSON value. -/
def strs (l : List Str) : List Json := l.map Json.str

/-- A node of a loop (src/interpretation-graph.cpp:300-305). -/
def loopNode (n : LoopNode) : Json :=
  assigned ([("NS".toList, .str n.ns), ("Query".toList, .str n.query)] ++
    match n.tag with
    | none => []
    | some t => [("AnswerTag".toList, .int t.number)])

/-- A member that is only assigned if the list is not empty (src/label-graph.cpp:332-349, 351-367). -/
def records (key : Str) (l : List Str) : List (Str × Json) := if l = [] then [] else [(key, pushed (strs l))]

/-- `ConstructOutputNS` (src/label-graph.cpp:313-371): one element of "Inconsistent Pairs". -/
def pairDiff (p : PairDiff) : Json :=
  assigned ([(p.roleA ++ " NS".toList, .str p.serverA), (p.roleB ++ " NS".toList, .str p.serverB)] ++
    records "Common NS Records".toList p.nsDiff.1 ++
    records ("Exclusive ".toList ++ p.roleA ++ " NS Records".toList) p.nsDiff.2.1 ++
    records ("Exclusive ".toList ++ p.roleB ++ " NS Records".toList) p.nsDiff.2.2 ++
    match p.glueDiff with
    | none => []
    | some g => records "Common Glue Records".toList g.1 ++
        records ("Exclusive ".toList ++ p.roleA ++ " Glue Records".toList) g.2.1 ++
        records ("Exclusive ".toList ++ p.roleB ++ " Glue Records".toList) g.2.2)

/-- The numbering of "RRsUsed" (src/properties.cpp:291-298): the keys "RR1", "RR2", ... -/
def numbered : Nat → List Str → List (Str × Json)
  | _, [] => []
  | i, r :: rs => ("RR".toList ++ natText i, .str r) :: numbered (i + 1) rs

/-- The JSON object put on the queue for a violation (the lines cited at each constructor of `Violation`), with the assignments in the order
of the code.  `ord` is the order in which the `unordered_map` of src/properties.cpp:273 lists the records used. -/
def toJson (ord : List Str → List Str) : Violation → Json
  | .loop nodes => assigned [("Property".toList, .str "Cyclic Zone Dependency".toList), ("Loop".toList, pushed (nodes.map loopNode))]
  | .responseReturned q t ns => assigned [("Property".toList, .str "ResponseReturned".toList), ("Query".toList, .str q),
      ("Violation".toList, assigned [("Types".toList, .str t), ("Nameserver".toList, .str ns)])]
  | .responseValue e ms => assigned [("Mismatches".toList, pushed (ms.map (fun m =>
        assigned [("Found".toList, .str m.1), ("Query".toList, .str m.2.1), ("Nameserver".toList, .str m.2.2)]))),
      ("Expected".toList, .str e), ("Property".toList, .str "Response Value".toList)]
  | .responseConsistency q => assigned [("Property".toList, .str "Response Consistency".toList), ("Query".toList, .str q)]
  | .zeroTTL q ns r => assigned [("Property".toList, .str "Zero TTL".toList), ("Query".toList, .str q),
      ("Violation".toList, assigned [("Nameserver".toList, .str ns), ("Record".toList, .str r)])]
  | .alias q c => assigned [("Property".toList, .str "All Aliases".toList), ("Query".toList, .str q), ("Canonical Name".toList, .str c)]
  | .infiniteDname q1 q2 used => assigned ([("Property".toList, .str "Infinite DName Recursion".toList), ("Query1".toList, .str q1),
      ("Query2".toList, .str q2)] ++ (if used = [] then [] else [("RRsUsed".toList, assigned (numbered 1 (ord used)))]))
  | .delegation q n1 n2 glue => assigned [("Property".toList, .str "Delegation Consistency".toList), ("Query".toList, .str q),
      ("Violation".toList, assigned [("Nameserver1".toList, .str n1), ("Nameserver2".toList, .str n2),
        ("InconsistencyType".toList, .str (if glue then "Glue".toList else "NS".toList))])]
  | .lame q n1 n2 => assigned [("Property".toList, .str "Lame Delegation".toList), ("Query".toList, .str q),
      ("Violation".toList, assigned [("Nameserver1".toList, .str n1), ("Nameserver2".toList, .str n2)])]
  | .dnameLength q t ns => assigned [("Property".toList, .str "DNAME Substitution exceeds length".toList), ("Query".toList, .str q),
      ("Violation".toList, assigned [("RewriteTarget".toList, .str t), ("Nameserver".toList, .str ns)])]
  | .nsContact q ns a => assigned [("Property".toList, .str "Name Server Contact".toList), ("Query".toList, .str q),
      ("Violation".toList, assigned [("ExternalNameserver".toList, .str ns), ("AllowedDomains".toList, .str a)])]
  | .hops q n m => assigned [("Property".toList, .str "Hops".toList), ("Query".toList, .str q),
      ("Violation".toList, assigned [("ActualHops".toList, .int n), ("MaxAllowedHops".toList, .int m)])]
  | .rewrites q n m => assigned [("Property".toList, .str "Rewrites".toList), ("Query".toList, .str q),
      ("Violation".toList, assigned [("ActualRewrites".toList, .int n), ("MaxAllowedRewrites".toList, .int m)])]
  | .queryRewrite q t ns a => assigned [("Property".toList, .str "Query Rewrite".toList), ("Query".toList, .str q),
      ("Violation".toList, assigned [("RewriteTarget".toList, .str t), ("Nameserver".toList, .str ns), ("ExpectedUnder".toList, .str a)])]
  | .blackhole q t ns => assigned [("Property".toList, .str "Rewrite Blackholing".toList), ("Query".toList, .str q),
      ("Violation".toList, assigned [("RewriteTarget".toList, .str t), ("BlackholeNameserver".toList, .str ns)])]
  | .structural d pairs => assigned [("Inconsistent Pairs".toList, pushed (pairs.map pairDiff)),
      ("Property".toList, .str "Structural Delegation Consistency".toList), ("Domain Name".toList, .str d)]
  | .allAliases groups => assigned [("Property".toList, .str "All Aliases".toList), ("Canonical Name and their Aliases".toList,
      pushed (groups.map (fun g => assigned [("Canonical Name".toList, .str g.1), ("Aliases".toList, .arr (strs g.2))])))]

end Violation

namespace Driver

/-- `property_violations_` as the set of JSON values it is (src/driver.h:26), in the order in which it is traversed. -/
def violationSet (ord : List Str → List Str) (vs : List Violation) : List Json :=
  vs.foldl (fun s v => Json.setInsert (v.toJson ord) s) []

/-- The loop of `WriteViolationsToFile` (src/driver.cpp:455-461): what has been written and whether the loop ended without an exception. -/
def writeLoop : Str → Nat → List Json → Str × Bool
  | out, _, [] => (out, true)
  | out, c, j :: js =>
    let out := if c ≠ 0 then out ++ ",\n".toList else out
    match Json.dump? j with
    | .ok d => writeLoop (out ++ d) (c + 1) js
    | _ => (out, false)

/-- `WriteViolationsToFile` (src/driver.cpp:448-465): the contents of the output file, and whether it was written to the end. -/
def writeViolations (ord : List Str → List Str) (vs : List Violation) : Str × Bool :=
  let r := writeLoop "[\n".toList 0 (violationSet ord vs)
  if r.2 then (r.1 ++ "\n]".toList, true) else r

/-- `WriteRRIssueToFile` (src/utils.cpp:213-232): the JSON object of an issue found while reading a file (`file`: see `loadZone`). -/
def issueJson (file : Str) (i : Parser.Issue) : Json :=
  Json.assigned ([("File Name".toList, .str file), ("Line Number".toList, .int i.line), ("Current Record".toList, .str i.current),
    ("Violation".toList, .str i.violation)] ++ if i.previous.length ≠ 0 then [("Previous Record".toList, .str i.previous)] else [])

/-- `CheckGlueRecordsPresence` (src/zone-graph.cpp:75-80): the JSON object of a missing glue record. -/
def glueJson (i : Zone.GlueIssue) : Json :=
  Json.assigned [("Server".toList, .str i.server), ("Zone".toList, .str i.zone), ("Violation".toList, .str "Missing Glue Record".toList),
    ("Resource Record".toList, .str i.record)]

/-- The issues of a run with linting on, in the order in which they are written: file after file, then the missing glue records. -/
def lintObjects (d : Loaded) (glue : List Zone.GlueIssue) : List Json :=
  d.issues.flatMap (fun f => f.2.map (issueJson f.1)) ++ glue.map glueJson

/-- What a run leaves on disk. -/
structure Files where
  /-- the output file -/
  output : Str
  /-- the output file was written to the end: no exception -/
  finished : Bool
  /-- lint.json, with linting on -/
  lint : Option Str
  deriving Repr

/-- The program from the contents of its inputs to its output files (bin/groot.cpp:14-66, 149-172), everything in turn as in `main`.
Simplified: an issue whose text cannot be dumped ends the program as soon as it is found; here it does so after loading, and what has
been written to lint.json by then is left out.  `.throw` is an exception before the output file is opened: the program says
"Exception" and stops.  `Process.process` models the writes in their order, and there an exception in a thread aborts the process. -/
def program (ord : List Str → List Str) (fuel thr : Nat) (lint : Bool) (read : Str → Str) (exists_ : Str → Bool) (m : Meta)
    (jobs : Option (List UJob)) : Res Files := do
  let d ← setContext thr lint read exists_ m
  let glue ← if lint then glueCheck thr d else .ok []
  if lint && !(lintObjects d glue).all Json.textOk then .throw
  else do
    let t ← main fuel thr lint read exists_ m jobs
    let w := writeViolations ord t.violations
    let body := ((lintObjects d glue).map (Json.dump 0)).foldl writeIssue "[\n".toList
    .ok { output := w.1, finished := w.2, lint := if lint then some (if w.2 then body ++ "\n]".toList else body) else none }

end Driver

end Groot
