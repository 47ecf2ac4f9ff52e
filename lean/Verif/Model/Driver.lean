import Verif.Model.Checks
import Verif.Model.LabelGraph

/-!
# `Driver` (src/driver.cpp), without zone-file parsing and without the threads

The concurrent part of `GenerateECsAndCheckProperties` is in `Verif.Model.Concurrency`.
-/

namespace Groot

/-- The value of the "Value" key of a property in the job file.  `huge` is a number that no `int` holds, `other` a JSON value that is neither
a number nor a list of strings. -/
inductive UVal where
  | missing
  | int (n : Int)
  | strs (l : List Str)
  | huge
  | other
  deriving Repr, DecidableEq

/-- One element of "Properties" in a job (src/driver.cpp:225-235).  `types` is the list under "Types" if the
key is present. -/
structure UProp where
  name : Str
  types : Option (List Str) := none
  value : UVal := .missing
  deriving Repr, DecidableEq

/-- A job of the job file (src/driver.cpp:212-225). -/
structure UJob where
  domain : Str
  subdomain : Bool
  properties : List UProp
  deriving Repr, DecidableEq

/-- The part of `struct Job` (src/job.h:12-24) set by `SetJob`. -/
structure Job where
  domain : Str := []
  subdomains : Bool := false
  structural : Bool := false
  pathFns : List PathFn := []
  nodeFns : List NodeFn := []
  types : TypeSet := 0
  deriving Repr, DecidableEq

namespace Driver

/-- A list value; a missing key of a const `json` is undefined behaviour, another JSON type throws. -/
def strsOf : UVal → Res (List Str)
  | .strs l => .ok l
  | .missing => .ub
  | .int _ => .throw
  | .huge => .throw
  | .other => .throw

/-- The check stored for an integer value (src/driver.cpp:272-284): the key has to be there, but the value is converted only when the check is called. -/
def numFn (f : Int → PathFn) : UVal → Res PathFn
  | .int n => .ok (f n)
  | .missing => .ub
  | .huge => .ok (.misfit true)
  | .strs _ => .ok (.misfit false)
  | .other => .ok (.misfit false)

/-- The loop over "Types" (src/driver.cpp:229-232): `types_req` and `propertyTypes`. -/
def addTypes (tr pt : TypeSet) : List Str → Res (TypeSet × TypeSet)
  | [] => .ok (tr, pt)
  | t :: ts => do
    let tr ← TypeSet.setChecked tr (stringToType t)
    let pt ← TypeSet.setChecked pt (stringToType t)
    addTypes tr pt ts

/-- The value as a list of lower-cased domain names (src/driver.cpp:304-308, 322-326, 343-347). -/
def domainsOf (v : UVal) : Res (List Name) := do
  let l ← strsOf v
  .ok (l.map (fun s => stringToLabels (toLower s)))

/-- Body of the loop over "Properties" (src/driver.cpp:225-373). -/
def setProp (job : Job) (p : UProp) : Res Job := do
  let (tr, pt) ← match p.types with
    | some ts => addTypes job.types 0 ts
    | none => .ok (job.types.add .NS, 0)
  let job := { job with types := tr }
  if p.name = "ResponseConsistency".toList then
    .ok { job with nodeFns := job.nodeFns ++ [.consistency pt] }
  else if p.name = "ResponseReturned".toList then
    .ok { job with nodeFns := job.nodeFns ++ [.returned pt] }
  else if p.name = "ResponseValue".toList then do
    let l ← strsOf p.value
    let values := Check.strSet l
    if values.length ≠ 0 then .ok { job with nodeFns := job.nodeFns ++ [.value pt values] } else .ok job
  else if p.name = "Hops".toList then do
    let f ← numFn .hops p.value
    .ok { job with pathFns := job.pathFns ++ [f] }
  else if p.name = "Rewrites".toList then do
    let f ← numFn .rewrites p.value
    .ok { job with pathFns := job.pathFns ++ [f] }
  else if p.name = "DelegationConsistency".toList then
    .ok { job with pathFns := job.pathFns ++ [.delegation] }
  else if p.name = "InfiniteDNameRec".toList then
    .ok { job with pathFns := job.pathFns ++ [.infiniteDname] }
  else if p.name = "LameDelegation".toList then
    .ok { job with pathFns := job.pathFns ++ [.lame] }
  else if p.name = "QueryRewrite".toList then do
    let d ← domainsOf p.value
    if d.length > 0 then .ok { job with pathFns := job.pathFns ++ [.queryRewrite d] } else .ok job
  else if p.name = "NameserverContact".toList then do
    let d ← domainsOf p.value
    if d.length > 0 then .ok { job with pathFns := job.pathFns ++ [.nsContact d] } else .ok job
  else if p.name = "RewriteBlackholing".toList then
    .ok { job with pathFns := job.pathFns ++ [.blackholing] }
  else if p.name = "AllAliases".toList then do
    let d ← domainsOf p.value
    if d.length > 0 then .ok { job with pathFns := job.pathFns ++ [.allAliases d] } else .ok job
  else if p.name = "ZeroTTL".toList then
    .ok { job with nodeFns := job.nodeFns ++ [.zeroTTL pt] }
  else if p.name = "StructuralDelegationConsistency".toList then
    .ok { job with structural := true }
  else if p.name = "DNAMESubstitutionCheck".toList then
    .ok { job with pathFns := job.pathFns ++ [.dnameLength] }
  else .ok job

/-- `SetJob(const json &)` (src/driver.cpp:212-374), from the previous job: `check_structural_delegations`
is the only field not reset. -/
def setJob (prev : Job) (u : UJob) : Res Job :=
  u.properties.foldlM setProp
    { domain := toLower u.domain, subdomains := u.subdomain, structural := prev.structural }

/-- `SetJob(string &)` (src/driver.cpp:376-427). -/
def setDefaultJob (prev : Job) (domain : Str) : Job :=
  let d := toLower domain
  { domain := d, subdomains := true, structural := prev.structural, types := TypeSet.add 0 .NS
    nodeFns := []
    pathFns := [.hops 2, .rewrites 1, .delegation, .lame, .queryRewrite [stringToLabels d], .blackholing] }

/-- The part of the job read by `GenerateECs`. -/
def req (job : Job) : LGraph.Req :=
  { domain := job.domain, subdomains := job.subdomains, structural := job.structural, types := job.types }

/-- `Task::Process` (src/ec-task.cpp:9-21, src/structural-task.cpp:12-17): the violations enqueued. -/
def process (fuel thr : Nat) (ctx : Context) (lg : LGraph) (job : Job) : Task → Res (List Violation)
  | .ec q => do
    let r ← processEC fuel thr ctx job.pathFns job.nodeFns q
    .ok r.1
  | .structural node domain => LGraph.structuralCheck thr lg ctx domain node

/-- One job run without threads: generate the tasks, then process them in order
(src/driver.cpp:11-107 for the schedule in which everything happens in turn). -/
def runSequential (fuel thr : Nat) (ctx : Context) (lg : LGraph) (job : Job) :
    Res (LGraph × List Task × List Violation) := do
  let r ← LGraph.generateECs fuel lg (req job)
  let v ← concatM (process fuel thr ctx r.1 job) r.2
  .ok (r.1, r.2, v)

/-- One entry of "ZoneFiles" in metadata.json (src/driver.cpp:133-159). -/
structure UZone where
  fileName : Option Str
  nameServer : Option Str
  origin : Option Str := none
  deriving Repr, DecidableEq

/-- metadata.json (src/driver.cpp:114-172). -/
structure Meta where
  topNameServers : Option (List Str)
  zoneFiles : Option (List UZone)
  deriving Repr, DecidableEq

/-- The loop over "ZoneFiles" in `MetadataSanityCheck` (src/driver.cpp:133-159): the name servers. -/
def zoneServers (exists_ : Str → Bool) : List UZone → Res (List Str)
  | [] => .ok []
  | z :: zs =>
    match z.fileName with
    | none => .exit
    | some f =>
      match z.nameServer with
      | none => .exit
      | some ns =>
        if !exists_ f then .exit
        else do
          let r ← zoneServers exists_ zs
          .ok (toLower ns :: r)

/-- `MetadataSanityCheck` (src/driver.cpp:114-172).  `exists_` says which file names exist in the
directory. -/
def sanityCheck (exists_ : Str → Bool) (m : Meta) : Res Unit :=
  match m.topNameServers with
  | none => .exit
  | some tops =>
    match m.zoneFiles with
    | none => .exit
    | some zs => do
      let servers ← zoneServers exists_ zs
      if (tops.map toLower).any (fun t => servers.contains t) then .ok () else .exit

/-- `WriteViolationsToFile` (src/driver.cpp:448-465): the bytes written for the dumped entries. -/
def violationsFile (dumps : List Str) : Str :=
  "[\n".toList ++
  (dumps.foldl (fun (st : Str × Nat) d => ((if st.2 ≠ 0 then st.1 ++ ",\n".toList else st.1) ++ d, st.2 + 1))
    ([], 0)).1 ++
  "\n]".toList

/-- The number of times `getline` succeeds on a file (src/utils.cpp:196-200, without the early stop):
the number of newline-terminated lines, plus one if text follows the last newline. -/
def lineCount : Str → Nat
  | [] => 0
  | c :: cs => if c = '\n' then lineCount cs + 1 else (if cs.isEmpty then 1 else
      -- the line continues; it is counted at its newline or at the end of the file
      lineCount cs)

/-- `LintUtils::WriteIssueToFile` with linting on (src/utils.cpp:188-211): the new contents of lint.json. -/
def writeIssue (file : Str) (dump : Str) : Str :=
  (if lineCount file > 3 then file ++ ",\n".toList else file) ++ dump

/-- lint.json after a whole run: bin/groot.cpp:153-159, the issues, bin/groot.cpp:166-171. -/
def lintFile (dumps : List Str) : Str :=
  dumps.foldl writeIssue "[\n".toList ++ "\n]".toList

end Driver

end Groot
