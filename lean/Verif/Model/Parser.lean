import Verif.Model.Lexer
import Verif.Model.Driver

/-!
# The zone-file parser and loader (src/zone-file-parser.cpp:42-450, src/driver.cpp:174-210)
-/

namespace Groot

namespace Parser

/-- A call of `LintUtils::WriteRRIssueToFile` (src/utils.cpp:213-232). -/
structure Issue where
  line : Nat
  current : Str
  violation : Str
  previous : Str
  deriving Repr, DecidableEq

/-- The mutable state of the parser (src/zone-file-parser.cpp:46-55,394-398).  Of `default_values` only the
name and TTL are used.  `counts` lists the keys of `type_to_count` (src/zone-file-parser.cpp:19) that were incremented, in order. -/
structure PState where
  line : Nat := 0
  paren : Int := 0
  suffix : Str := []
  defName : Name := []
  defTtl : Nat := 0
  cur : List Str := []
  lg : LGraph
  zone : Zone
  foundSOA : Bool := false
  rrsParsed : Nat := 0
  lint : Bool := false
  issues : List Issue := []
  counts : List Str := []
  deriving Repr

/-- The list of `GetTypeIndex` (src/zone-file-parser.cpp:335-336). -/
def typeNames : List Str :=
  ["A", "MX", "NS", "CNAME", "SOA", "PTR", "TXT", "AAAA", "SRV", "DNAME", "RRSIG", "NSEC", "DS", "SPF"].map
    String.toList

/-- A field recognised as a record type (src/zone-file-parser.cpp:341-344). -/
def isTypeField (f : Str) : Bool := decide (f.length < 6) && typeNames.contains (toUpper f)

/-- `GetTypeIndex` (src/zone-file-parser.cpp:333-351); `none` for -1. -/
def typeIndex (rec_ : List Str) : Option Nat := rec_.findIdx? isTypeField

/-- `isdigit`. -/
def isDigit (c : Char) : Bool := '0' ≤ c && c ≤ '9'

/-- Value of a string of digits. -/
def digitsVal (s : Str) : Nat := s.foldl (fun n c => n * 10 + (c.toNat - '0'.toNat)) 0

/-- `isspace` in the C locale. -/
def isSpace (c : Char) : Bool :=
  c == ' ' || c == '\t' || c == '\n' || c == '\x0b' || c == '\x0c' || c == '\r'

/-- The text after an optional sign. -/
def afterSign : Str → Str
  | '-' :: t => t
  | '+' :: t => t
  | t => t

/-- `strtol(s, &p, 10)` on a C string: the value (unless no digits) and the unread rest.  Saturation on
overflow is not modelled, the callers only use the value through `stoi`. -/
def strtol (s : Str) : Option Int × Str :=
  let s' := (s.takeWhile (· != '\x00')).dropWhile isSpace
  let body := afterSign s'
  let ds := body.takeWhile isDigit
  let v : Int := digitsVal ds
  if ds.isEmpty then (none, s.takeWhile (· != '\x00'))
  else (some (if s'.head? = some '-' then -v else v), body.dropWhile isDigit)

/-- `std::stoi`: throws without digits and outside the range of `int`. -/
def stoi (s : Str) : Res Int :=
  match (strtol s).1 with
  | none => .throw
  | some v => if -2147483648 ≤ v ∧ v ≤ 2147483647 then .ok v else .throw

/-- Conversion of an `int` to `uint32_t`. -/
def toU32 (v : Int) : Nat := (v % 4294967296).toNat

/-- `isInteger` (src/zone-file-parser.cpp:353-360). -/
def isInteger (s : Str) : Bool :=
  match s with
  | [] => false
  | c :: _ => (isDigit c || c == '-' || c == '+') && (strtol s).2.isEmpty

/-- `boost::iequals`. -/
def iequals (a : Str) (b : String) : Bool := toUpper a == toUpper b.toList

/-- Variables of the loop over the fields (src/zone-file-parser.cpp:119,144-147). -/
structure FState where
  name : Str := []
  rdata : Str := []
  cls : Nat := 1
  ttl : Nat
  defName : Name
  defTtl : Nat
  deriving Repr

/-- The loop over the fields of a record (src/zone-file-parser.cpp:156-187); `i` is the index of the next
field.  The Boolean is false after the early return "not following the DNS grammar". -/
def fieldLoop (ti : Nat) : Nat → List Str → FState → Res (FState × Bool)
  | _, [], f => .ok (f, true)
  | i, field :: rest, f =>
    if i > ti then fieldLoop ti (i + 1) rest { f with rdata := f.rdata ++ field ++ [' '] }
    else if i < ti then
      if i = 0 then
        if field.length > 0 then
          fieldLoop ti (i + 1) rest { f with name := field, defName := stringToLabels field }
        else fieldLoop ti (i + 1) rest f
      else if iequals field "CH" then fieldLoop ti (i + 1) rest { f with cls := 3 }
      else if iequals field "IN" then fieldLoop ti (i + 1) rest { f with cls := 1 }
      else if isInteger field then do
        let v ← stoi field
        let ttl := toU32 v
        fieldLoop ti (i + 1) rest { f with ttl := ttl, defTtl := if f.defTtl = 0 then ttl else f.defTtl }
      else .ok (f, false)
    else fieldLoop ti (i + 1) rest f

/-- `boost::algorithm::ends_with(s, ".")`. -/
def endsDot (s : Str) : Bool := s.getLast? == some '.'

/-- `LintUtils::WriteRRIssueToFile` (src/utils.cpp:213-232). -/
def addIssue (st : PState) (cur violation prev : Str) : PState :=
  if st.lint then { st with issues := st.issues ++ [⟨st.line, cur, violation, prev⟩] } else st

/-- `mc.type_to_count[k]++`. -/
def PState.count (st : PState) (k : Str) : PState := { st with counts := st.counts ++ [k] }

/-- The lint report for an over-long owner or target (src/zone-file-parser.cpp:226-235, 242-252);
`RR.toString()` is evaluated whether or not linting is on. -/
def lengthIssue (st : PState) (rr : RR) (label long total : Str) : Res PState := do
  let s ← rr.toStr
  .ok (if label.length > 0 then addIssue (st.count "Label Length Exceeded".toList) s (label ++ long) []
    else addIssue (st.count "Domain Length Exceeded".toList) s total [])

/-- Handling of a rejected record (src/zone-file-parser.cpp:266-310). -/
def rejected (st : PState) (rr : RR) (code : AddCode) (node : Option Nat) : Res PState := do
  match code with
  | .SUCCESS => .ok st
  | .DUPLICATE => do
    let s ← rr.toStr
    .ok (addIssue (st.count "Duplicate-Records".toList) s "Duplicate Record".toList [])
  | c =>
    match node with
    | none => .ub
    | some v =>
      match st.zone.rrsAt v with
      | [] => .ub
      | first :: _ => do
        let p ← first.toStr
        let s ← rr.toStr
        let msg := match c with
          | .CNAME_MULTIPLE => "MULTIPLE CNAMEs".toList
          | .CNAME_OTHER => "CNAME AND OTHER TYPES".toList
          | _ => "MULTIPLE DNAMEs".toList
        .ok (addIssue (st.count "CNAME/DNAME Errors".toList) s msg p)

/-- The text of the type field of a parsed record, in upper case: "DS" is the only one that is no `RRType`. -/
def typeKey (t : RRType) : Str := typeToStringTable.getD t.idx "DS".toList

/-- The counters incremented for a record that was added (src/zone-file-parser.cpp:262-265).  The code looks at the texts of the type
field and of the owner; both can be read off the record (`keptKeys_text`, `complete_owner`). -/
def keptKeys (rr : RR) : List Str :=
  typeKey rr.type :: (if rr.name.getLast? = some ['*'] then ["Wildcard".toList] else [])

/-- Adding a complete record to the zone and the label graph (src/zone-file-parser.cpp:222-320). -/
def addRR (thr : Nat) (st : PState) (rr : RR) : Res PState := do
  let st := { st with rrsParsed := st.rrsParsed + 1 }
  let lc := lengthCheck rr.name
  if !lc.1 then
    lengthIssue st rr lc.2 " - length exceedes max length (63)".toList
      "Domain length exceedes max length (255)".toList
  else do
    let isTarget := decide (rr.type = .NS ∨ rr.type = .CNAME ∨ rr.type = .DNAME)
    let tc := lengthCheck (stringToLabels rr.rdata)
    if isTarget && !tc.1 then
      lengthIssue st rr tc.2 " - length exceedes 63".toList
        "Target domain length exceedes max length (255)".toList
    else do
      let inZone ← st.zone.membership rr
      if inZone then
        let r := st.zone.addRecord thr rr
        let st := { st with zone := r.1 }
        match r.2.1, r.2.2 with
        | .SUCCESS, some v => .ok { st with lg := st.lg.addRecord thr rr st.zone.id v, counts := st.counts ++ keptKeys rr }
        | code, node => rejected st rr code node
      else do
        let s ← rr.toStr
        .ok (addIssue (st.count "Out-of-Zone-Records".toList) s "OUT OF ZONE RECORD".toList [])

/-- Name, suffix and rdata completion (src/zone-file-parser.cpp:188-221), for a record whose type field is
`type`: the record to add, and the state with updated suffix, default name and `found_SOA`. -/
def complete (st : PState) (type : Str) (f : FState) : PState × RR :=
  let rdata := f.rdata.dropLast
  let st := { st with defName := f.defName, defTtl := f.defTtl }
  let (st, name) :=
    if f.name.length = 0 then (st, labelsToString f.defName)
    else if type = "SOA".toList then
      ({ st with foundSOA := true, suffix := if st.suffix.length = 0 then f.name else st.suffix }, f.name)
    else (st, f.name)
  let (st, name) :=
    if !endsDot name then
      let n := name ++ ['.'] ++ st.suffix
      ({ st with defName := stringToLabels n }, n)
    else (st, name)
  let rdata :=
    if (type = "NS".toList ∨ type = "CNAME".toList ∨ type = "DNAME".toList ∨ type = "MX".toList)
        ∧ !endsDot rdata then rdata ++ ['.'] ++ st.suffix
    else rdata
  (st, mkRR (toLower name) type f.cls f.ttl (toLower rdata))

/-- The record part of `case ID_EOL` (src/zone-file-parser.cpp:134-321). -/
def processRecord (thr : Nat) (st : PState) : Res PState :=
  match typeIndex st.cur with
  | none => .ok { st with cur := [] }
  | some ti =>
    if ti > 3 then .ok { st with cur := [] }
    else do
      let type := toUpper (st.cur.getD ti [])
      let (f, good) ← fieldLoop ti 0 st.cur { ttl := st.defTtl, defName := st.defName, defTtl := st.defTtl }
      if !good then .ok { st with cur := [], defName := f.defName, defTtl := f.defTtl }
      else do
        let (st, rr) := complete st type f
        let st ← addRR thr st rr
        .ok { st with cur := [] }

/-- `case ID_EOL` when a record is complete (src/zone-file-parser.cpp:98-321).  The Boolean is the return
value (false stops the tokenizer). -/
def endOfRecord (thr : Nat) (st : PState) : Res (PState × Bool) :=
  match st.cur with
  | [] => .ok (st, true)
  | first :: rest =>
    if first = "$ORIGIN".toList then
      match rest with
      | [] => .ub
      | s :: _ => .ok ({ st with suffix := toLower s, cur := [] }, true)
    else if first = "$INCLUDE".toList then .ok (st, false)
    else if first = "$TTL".toList then
      match rest with
      | [] => .ub
      | s :: _ => do
        let v ← stoi s
        .ok ({ st with defTtl := toU32 v, cur := [] }, true)
    else if first = "@".toList then
      if st.suffix.length > 0 then do
        let st ← processRecord thr { st with cur := st.suffix :: rest, defName := stringToLabels st.suffix }
        .ok (st, true)
      else .ok (st, false)
    else do
      let st ← processRecord thr st
      .ok (st, true)

/-- `Parser::operator()` (src/zone-file-parser.cpp:46-331). -/
def step (thr : Nat) (st : PState) (t : Tok) : Res (PState × Bool) :=
  match t.id with
  | .LPAREN => .ok ({ st with paren := st.paren + 1 }, true)
  | .RPAREN =>
    if st.paren - 1 < 0 then .ok ({ st with paren := st.paren - 1 }, false)
    else .ok ({ st with paren := st.paren - 1 }, true)
  | .TEXT_WORD | .WORD => .ok ({ st with cur := st.cur ++ [t.text] }, true)
  | .WHITESPACE => .ok (if st.cur.length = 0 then { st with cur := [[]] } else st, true)
  | .EOL =>
    let st := { st with line := st.line + 1 }
    if st.paren = 0 ∧ st.cur.length > 0 then endOfRecord thr st else .ok (st, true)
  | .COMMENT | .OTHER => .ok (st, true)

/-- `lex::tokenize` with the parser as callback (src/zone-file-parser.cpp:405): stops when the callback
returns false. -/
def run (thr : Nat) : PState → List Tok → Res PState
  | st, [] => .ok st
  | st, t :: ts => do
    let r ← step thr st t
    if r.2 then run thr r.1 ts else .ok r.1

end Parser

/-- The state of the driver relevant to loading: label graph, context (`counts` is its `type_to_rr_count`), lint issues per file. -/
structure Loaded where
  lg : LGraph := LGraph.init
  ctx : Context := {}
  issues : List (Str × List Parser.Issue) := []
  rrCount : Nat := 0
  counts : List (Str × Nat) := []
  deriving Repr

/-- `m[k] += v` on a map of counters; a missing entry counts as zero.  The maps are unordered (src/zone-file-parser.cpp:19,
src/context.h:11): the order of the list has no meaning. -/
def addCount (k : Str) (v : Nat) : List (Str × Nat) → List (Str × Nat)
  | [] => [(k, v)]
  | (a, n) :: m => if a = k then (a, n + v) :: m else (a, n) :: addCount k v m

/-- `type_to_count` after these increments. -/
def tally (keys : List Str) : List (Str × Nat) := keys.foldl (fun m k => addCount k 1 m) []

/-- The counters of a file added to those of the context (src/zone-file-parser.cpp:407-413). -/
def mergeCounts (total file : List (Str × Nat)) : List (Str × Nat) := file.foldl (fun m p => addCount p.1 p.2 m) total

/-- Append an id to the entry of a name server, creating the entry if needed
(src/zone-file-parser.cpp:431-441). -/
def pushZone (ns : Str) (id : Nat) : List (Str × List Nat) → List (Str × List Nat)
  | [] => [(ns, [id])]
  | (k, ids) :: rest => if k = ns then (k, ids ++ [id]) :: rest else (k, ids) :: pushZone ns id rest

/-- `ParseZoneFileAndExtendGraphs` (src/zone-file-parser.cpp:375-450) on the contents of the file.  `file` is the name as metadata.json has
it; the code gives the issues the path, that is the directory and this name. -/
def loadZone (thr : Nat) (lint : Bool) (d : Loaded) (file contents ns origin : Str) : Res Loaded := do
  let id := d.ctx.counter + 1
  let st ← Parser.run thr { suffix := origin, lg := d.lg, zone := Zone.init id, lint := lint }
    (Lexer.tokens contents)
  let ctx := { d.ctx with counter := id }
  let ctx :=
    if st.foundSOA then
      { ctx with zones := ctx.zones ++ [(id, st.zone)]
                 nsZones := pushZone ns id ctx.nsZones
                 zoneNs := ctx.zoneNs ++ [(id, ns)] }
    else ctx
  .ok { lg := st.lg, ctx := ctx, issues := d.issues ++ [(file, st.issues)], rrCount := d.rrCount + st.rrsParsed,
        counts := mergeCounts d.counts (tally st.counts) }

/-- `SetContext` (src/driver.cpp:174-210) on metadata that passed the sanity check: the server list, then
all zone files in order.  `read` gives the contents of a file.  The lint pass over the zones is
`Zone.glueIssues`. -/
def setContext (thr : Nat) (lint : Bool) (read : Str → Str) (exists_ : Str → Bool) (m : Driver.Meta) :
    Res Loaded := do
  Driver.sanityCheck exists_ m
  let d : Loaded := { ctx := { top := (m.topNameServers.getD []).map toLower } }
  (m.zoneFiles.getD []).foldlM (fun d z =>
    let f := z.fileName.getD []
    loadZone thr lint d f (read f) (toLower (z.nameServer.getD [])) (toLower (z.origin.getD []))) d

end Groot
