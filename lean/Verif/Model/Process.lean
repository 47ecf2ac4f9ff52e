import Verif.Model.Input

/-!
# The process: arguments, files on disk and exit status (bin/groot.cpp:14-66, 88-177)

What the run does to the disk is a list of writes, in the order in which they are made, so that the disk can be looked at after any number of
them.  Simplified: files can be opened and written; the files read are not the ones written (otherwise the contents read would be those
written so far); two names are the same file only if they are equal; the parsing of the command line by docopt (which prints the usage and
ends the process itself) and the log file are left out.
-/

namespace Groot.Process

open Driver JVal

/-- A write: opening a file for output empties it; text is added at the end. -/
inductive Write where
  | create (file : Str)
  | append (file : Str) (text : Str)
  deriving Repr, DecidableEq

/-- The contents of the files there are. -/
abbrev Disk := Str → Option Str

/-- The disk after a write. -/
def Disk.write (d : Disk) : Write → Disk
  | .create f => fun g => if g = f then some [] else d g
  | .append f s => fun g => if g = f then some ((d f).getD [] ++ s) else d g

/-- The disk after a list of writes. -/
def Disk.after (d : Disk) (ws : List Write) : Disk := ws.foldl Disk.write d

/-- How the process ends. -/
inductive Ending where
  /-- `return 0` (bin/groot.cpp:172) -/
  | returned
  /-- an exception caught in `main`, which then ends without a return value: status 0 (bin/groot.cpp:173-177) -/
  | caught
  /-- `exit(EXIT_FAILURE)` -/
  | failure
  /-- an exception in a thread of src/driver.cpp:21-107, which nobody catches: `std::terminate` -/
  | aborted
  /-- undefined behaviour -/
  | undefined
  /-- the recursion budget of the model ran out -/
  | unknown
  deriving Repr, DecidableEq

/-- The exit status; none if a signal ends the process or the model does not say. -/
def Ending.status : Ending → Option Nat
  | .returned => some 0
  | .caught => some 0
  | .failure => some 1
  | _ => none

/-- The arguments, after docopt (bin/groot.cpp:131-152).  The zone directory is in `Env.path`. -/
structure Args where
  /-- the option --jobs -/
  jobs : Option Str := none
  /-- the option --output -/
  output : Option Str := none
  /-- the option --lint -/
  lint : Bool := false
  deriving Repr

/-- What the process finds. -/
structure Env where
  /-- the files -/
  disk : Disk
  /-- `boost::filesystem::path{directory} / name` -/
  path : Str → Str
  /-- `stream >> json`: the value at the beginning of the text; none if there is none (an exception) -/
  json : Str → Option JVal
  /-- as in `Violation.toJson` -/
  ord : List Str → List Str

/-- bin/groot.cpp:154, 168; src/utils.cpp:192, 204. -/
def lintName : Str := "lint.json".toList

/-- A part of the program that adds to lint.json: from the pieces of text added so far to those added afterwards, and how it came out. -/
def Act (α : Type) := List Str → List Str × Except Ending α

namespace Act

/-- Sequencing. -/
def bind {α β : Type} (x : Act α) (f : α → Act β) : Act β := fun l =>
  match x l with
  | (l, .ok a) => f a l
  | (l, .error e) => (l, .error e)

instance : Monad Act where
  pure a := fun l => (l, .ok a)
  bind := bind

/-- A part that writes nothing, in the main thread: exceptions are caught in `main`. -/
def lift {α : Type} (r : Res α) : Act α := fun l =>
  match r with
  | .ok a => (l, .ok a)
  | .exit => (l, .error .failure)
  | .throw => (l, .error .caught)
  | .ub => (l, .error .undefined)
  | .oof => (l, .error .unknown)

/-- A part that writes nothing, in another thread: nobody catches its exceptions. -/
def thread {α : Type} (r : Res α) : Act α := fun l =>
  match r with
  | .throw => (l, .error .aborted)
  | r => lift r l

end Act

/-- `WriteIssueToFile` with linting on (src/utils.cpp:188-211): the lines of the file are counted, a comma is written after the first issue,
and then the issue, if it can be dumped. -/
def writeIssue (j : Json) : Act Unit := fun l =>
  let l := if lineCount l.flatten > 3 then l ++ [",\n".toList] else l
  match Json.dump? j with
  | .ok d => (l ++ [d], .ok ())
  | _ => (l, .error .caught)

/-- Issues, one after the other. -/
def writeIssues : List Json → Act Unit
  | [] => pure ()
  | j :: js => do
    writeIssue j
    writeIssues js

/-- `Parser.run` with its issues written as they are found (src/zone-file-parser.cpp:46-331, 405).  Every issue is the last thing done for its
token, so that nothing depends on whether it is written before or after the rest of the step. -/
def parse (thr : Nat) (file : Str) : Parser.PState → List Tok → Act Parser.PState
  | st, [] => pure st
  | st, t :: ts => do
    let r ← Act.lift (Parser.step thr st t)
    writeIssues ((r.1.issues.drop st.issues.length).map (issueJson file))
    if r.2 then parse thr file r.1 ts else pure r.1

/-- The end of `ParseZoneFileAndExtendGraphs` (src/zone-file-parser.cpp:406-450), as in `loadZone`. -/
def enter (d : Loaded) (file ns : Str) (st : Parser.PState) : Loaded :=
  let ctx := { d.ctx with counter := d.ctx.counter + 1 }
  let ctx :=
    if st.foundSOA then
      { ctx with zones := ctx.zones ++ [(d.ctx.counter + 1, st.zone)]
                 nsZones := pushZone ns (d.ctx.counter + 1) ctx.nsZones
                 zoneNs := ctx.zoneNs ++ [(d.ctx.counter + 1, ns)] }
    else ctx
  { lg := st.lg, ctx := ctx, issues := d.issues ++ [(file, st.issues)], rrCount := d.rrCount + st.rrsParsed,
    counts := mergeCounts d.counts (tally st.counts) }

/-- `ParseZoneFileAndExtendGraphs` (src/zone-file-parser.cpp:375-450). -/
def loadZone (thr : Nat) (lint : Bool) (d : Loaded) (file contents ns origin : Str) : Act Loaded := do
  let st ← parse thr file { suffix := origin, lg := d.lg, zone := Zone.init (d.ctx.counter + 1), lint := lint } (Lexer.tokens contents)
  pure (enter d file ns st)

/-- The loop over "ZoneFiles" in `SetContext` (src/driver.cpp:185-194). -/
def loadZones (thr : Nat) (lint : Bool) (read : Str → Str) : Loaded → List JVal → Act Loaded
  | d, [] => pure d
  | d, z :: zs => do
    let f ← Act.lift (z.member "FileName")
    let file ← Act.lift f.getStr
    let n ← Act.lift (z.member "NameServer")
    let ns ← Act.lift n.getStr
    let origin ← match z.find "Origin" with
      | none => pure []
      | some o => Act.lift o.getStr
    let d ← loadZone thr lint d file (read file) (toLower ns) (toLower origin)
    loadZones thr lint read d zs

/-- The check for missing glue records (src/driver.cpp:204-208, src/zone-graph.cpp:66-88), its issues written as they are found. -/
def glueCheck (thr : Nat) (zoneNs : List (Nat × Str)) : List (Nat × Zone) → Act Unit
  | [] => pure ()
  | (id, z) :: zs => do
    let ns ← Act.lift (match zoneNs.lookup id with | some ns => Res.ok ns | none => Res.throw)
    let issues ← Act.lift (z.glueIssues thr ns)
    writeIssues (issues.map glueJson)
    glueCheck thr zoneNs zs

/-- `SetContext` (src/driver.cpp:174-210). -/
def setContext (thr : Nat) (lint : Bool) (read : Str → Str) (exists_ : Str → Bool) (m : JVal) : Act Loaded := do
  Act.lift (sanityCheckJ exists_ m)
  let t ← Act.lift (m.member "TopNameServers")
  let tops ← Act.lift t.strings
  let z ← Act.lift (m.member "ZoneFiles")
  let d ← loadZones thr lint read { ctx := { top := tops.map toLower } } z.items
  if lint then glueCheck thr d.ctx.zoneNs d.ctx.zones
  pure d

/-- The loop over the jobs (bin/groot.cpp:43-52). -/
def jobLoop (fuel thr : Nat) (ctx : Context) : LGraph → Job → Totals → List JVal → Act Totals
  | _, _, t, [] => pure t
  | lg, job, t, u :: us => do
    let job ← Act.lift (setJobJ job u)
    let r ← Act.thread (runJob fuel thr ctx lg t job)
    jobLoop fuel thr ctx r.1 job r.2 us

/-- Reading a JSON file (bin/groot.cpp:21-24, 38-40): a file that is not there reads as an empty one. -/
def readJson (env : Env) (name : Str) : Act JVal :=
  Act.lift (match env.json ((env.disk name).getD []) with | some v => Res.ok v | none => Res.throw)

/-- `Main` up to `WriteViolationsToFile` (bin/groot.cpp:14-65). -/
def work (fuel thr : Nat) (env : Env) (args : Args) : Act Totals := do
  let m ← readJson env (env.path "metadata.json".toList)
  let d ← setContext thr args.lint (fun f => (env.disk (env.path f)).getD []) (fun f => (env.disk (env.path f)).isSome) m
  let jobsFile := args.jobs.getD []
  if jobsFile.length ≠ 0 then do
    let us ← readJson env jobsFile
    jobLoop fuel thr d.ctx d.lg {} {} us.items
  else do
    let r ← Act.thread (runJob fuel thr d.ctx d.lg {} (setDefaultJob {} ".".toList))
    pure r.2

/-- The name of the output file (bin/groot.cpp:146-150). -/
def outputName (args : Args) : Str := args.output.getD "output.json".toList

/-- `main` (bin/groot.cpp:88-177): the writes it makes and how it ends. -/
def process (fuel thr : Nat) (env : Env) (args : Args) : List Write × Ending :=
  let r := work fuel thr env args (if args.lint then ["[\n".toList] else [])
  let lint := if args.lint then .create lintName :: r.1.map (.append lintName) else []
  match r.2 with
  | .error e => (lint, e)
  | .ok t =>
    let w := writeViolations env.ord t.violations
    let out := [.create (outputName args), .append (outputName args) w.1]
    if w.2 then (lint ++ out ++ (if args.lint then [.append lintName "\n]".toList] else []), .returned)
    else (lint ++ out, .caught)

end Groot.Process
