import Verif.Model.Json

/-!
# The contents of metadata.json and of the job file, as JSON values (src/driver.cpp:114-192, 212-260; bin/groot.cpp:21-43)

The text of the files is read by nlohmann::json, which is not modelled; the model starts from the values it gives.
-/

namespace Groot

/-- A value read by `nlohmann::json`.  The members of an object are in ascending order of the keys, none twice (`std::map`).  `flt n` is a
floating-point number (or an integer beyond 64 bits) with integer part `n`: the program never uses more of it. -/
inductive JVal where
  | null
  | bool (b : Bool)
  | int (n : Int)
  | flt (n : Int)
  | str (s : Str)
  | arr (l : List JVal)
  | obj (m : List (Str × JVal))
  deriving Repr, Inhabited

namespace JVal

/-- What a range-based `for` over a `json` runs through (nlohmann's `begin`, `end`): the elements of an array, the values of an object,
nothing for null, and any other value once. -/
def items : JVal → List JVal
  | .null => []
  | .arr l => l
  | .obj m => m.map (·.2)
  | j => [j]

/-- `j.find(k)`, `j.count(k)`: a member of an object; other values have none. -/
def find (j : JVal) (k : String) : Option JVal :=
  match j with
  | .obj m => m.lookup k.toList
  | _ => none

/-- `j.count(k)`. -/
def count (j : JVal) (k : String) : Nat := if (j.find k).isSome then 1 else 0

/-- `j[k]` on a `const json`: throws (type_error 305) unless `j` is an object, undefined if there is no such member. -/
def member (j : JVal) (k : String) : Res JVal :=
  match j with
  | .obj m => match m.lookup k.toList with
    | some v => .ok v
    | none => .ub
  | _ => .throw

/-- Conversion to `string`: throws (type_error 302) for other values. -/
def getStr : JVal → Res Str
  | .str s => .ok s
  | _ => .throw

/-- Conversion to `bool`: throws (type_error 302) for other values. -/
def getBool : JVal → Res Bool
  | .bool b => .ok b
  | _ => .throw

/-- `static_cast<int>` of a 64-bit integer: modulo 2^32. -/
def toI32 (n : Int) : Int := (n + 2147483648) % 4294967296 - 2147483648

/-- Conversion to `int` (nlohmann's `from_json` for arithmetic types): numbers and booleans; a floating-point number out of range is undefined;
other values throw. -/
def getInt : JVal → Res Int
  | .int n => .ok (toI32 n)
  | .bool b => .ok (if b then 1 else 0)
  | .flt n => if -2147483648 ≤ n ∧ n ≤ 2147483647 then .ok n else .ub
  | _ => .throw

/-- Every element converted to a string, in turn. -/
def getStrs : List JVal → Res (List Str)
  | [] => .ok []
  | j :: js => do
    let s ← j.getStr
    let r ← getStrs js
    .ok (s :: r)

/-- `for (string v : j)`. -/
def strings (j : JVal) : Res (List Str) := getStrs j.items

end JVal

namespace Driver

open JVal

/-- `property["Value"]`, by what becomes of it: the strings if it is run through (src/driver.cpp:255-257, 305-308, 323-326, 344-347), the number
if it is converted to `int` (src/driver.cpp:272-284).  That these are the results is `strsOf_uval` and `numFn_uval`. -/
def uval (j : JVal) : UVal :=
  match j.find "Value" with
  | none => .missing
  | some (.int n) => .int (toI32 n)
  | some (.bool b) => .int (if b then 1 else 0)
  | some (.flt n) => if -2147483648 ≤ n ∧ n ≤ 2147483647 then .int n else .huge
  | some v => match v.strings with
    | .ok l => .strs l
    | _ => .other

/-- Body of the loop over "Properties" (src/driver.cpp:225-373): the name, the types, then `setProp`.  Simplified: all of "Types" is converted
before the first type is set; both fail by an exception. -/
def setPropJ (job : Job) (j : JVal) : Res Job := do
  let n ← j.member "PropertyName"
  let name ← n.getStr
  match j.find "Types" with
  | none => setProp job { name := name, types := none, value := uval j }
  | some t => do
    let ts ← t.strings
    setProp job { name := name, types := some ts, value := uval j }

/-- `SetJob(const json &)` (src/driver.cpp:212-374). -/
def setJobJ (prev : Job) (j : JVal) : Res Job := do
  let d ← j.member "Domain"
  let domain ← d.getStr
  let s ← j.member "SubDomain"
  let sub ← s.getBool
  let ps ← j.member "Properties"
  ps.items.foldlM setPropJ { domain := toLower domain, subdomains := sub, structural := prev.structural }

/-- The loop over "ZoneFiles" in `MetadataSanityCheck` (src/driver.cpp:133-159): the name servers. -/
def zoneServersJ (exists_ : Str → Bool) : List JVal → Res (List Str)
  | [] => .ok []
  | z :: zs =>
    if z.count "FileName" ≠ 1 then .exit
    else if z.count "NameServer" ≠ 1 then .exit
    else do
      let n ← z.member "NameServer"
      let ns ← n.getStr
      let f ← z.member "FileName"
      let file ← f.getStr
      if !exists_ file then .exit
      else do
        let r ← zoneServersJ exists_ zs
        .ok (toLower ns :: r)

/-- `MetadataSanityCheck` (src/driver.cpp:114-172). -/
def sanityCheckJ (exists_ : Str → Bool) (j : JVal) : Res Unit :=
  if j.count "TopNameServers" ≠ 1 then .exit
  else do
    let t ← j.member "TopNameServers"
    let tops ← t.strings
    if j.count "ZoneFiles" ≠ 1 then .exit
    else do
      let z ← j.member "ZoneFiles"
      let servers ← zoneServersJ exists_ z.items
      if (tops.map toLower).any (fun t => servers.contains t) then .ok () else .exit

/-- Body of the loop over "ZoneFiles" in `SetContext` (src/driver.cpp:186-194). -/
def loadZoneJ (thr : Nat) (lint : Bool) (read : Str → Str) (d : Loaded) (z : JVal) : Res Loaded := do
  let f ← z.member "FileName"
  let file ← f.getStr
  let n ← z.member "NameServer"
  let ns ← n.getStr
  match z.find "Origin" with
  | none => loadZone thr lint d file (read file) (toLower ns) (toLower [])
  | some o => do
    let origin ← o.getStr
    loadZone thr lint d file (read file) (toLower ns) (toLower origin)

/-- `SetContext` (src/driver.cpp:174-210) without the lint pass over the zones. -/
def setContextJ (thr : Nat) (lint : Bool) (read : Str → Str) (exists_ : Str → Bool) (j : JVal) : Res Loaded := do
  sanityCheckJ exists_ j
  let t ← j.member "TopNameServers"
  let tops ← t.strings
  let z ← j.member "ZoneFiles"
  z.items.foldlM (loadZoneJ thr lint read) { ctx := { top := tops.map toLower } }

/-- The loop over the jobs of the job file (bin/groot.cpp:43-52). -/
def jobLoopJ (fuel thr : Nat) (ctx : Context) : LGraph → Job → Totals → List JVal → Res Totals
  | _, _, t, [] => .ok t
  | lg, job, t, u :: us => do
    let job ← setJobJ job u
    let r ← runJob fuel thr ctx lg t job
    jobLoopJ fuel thr ctx r.1 job r.2 us

/-- `Main` up to `WriteViolationsToFile` (bin/groot.cpp:14-65), from the values of the two files. -/
def mainJ (fuel thr : Nat) (lint : Bool) (read : Str → Str) (exists_ : Str → Bool) (m : JVal) (jobs : Option JVal) : Res Totals := do
  let d ← setContextJ thr lint read exists_ m
  let _ ← if lint then glueCheck thr d else .ok []
  match jobs with
  | some us => jobLoopJ fuel thr d.ctx d.lg {} {} us.items
  | none => do
    let r ← runJob fuel thr d.ctx d.lg {} (setDefaultJob {} ".".toList)
    .ok r.2

/-- The program from the values of the two files to its output files (bin/groot.cpp:14-66, 149-172), with the simplifications of `program`. -/
def programJ (ord : List Str → List Str) (fuel thr : Nat) (lint : Bool) (read : Str → Str) (exists_ : Str → Bool) (m : JVal)
    (jobs : Option JVal) : Res Files := do
  let d ← setContextJ thr lint read exists_ m
  let glue ← if lint then glueCheck thr d else .ok []
  if lint && !(lintObjects d glue).all Json.textOk then .throw
  else do
    let t ← mainJ fuel thr lint read exists_ m jobs
    let w := writeViolations ord t.violations
    let body := ((lintObjects d glue).map (Json.dump 0)).foldl writeIssue "[\n".toList
    .ok { output := w.1, finished := w.2, lint := if lint then some (if w.2 then body ++ "\n]".toList else body) else none }

end Driver

end Groot
