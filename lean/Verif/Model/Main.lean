import Verif.Model.Concurrency
import Verif.Model.Parser

/-!
# The whole program: `Main` (bin/groot.cpp:14-66)

Reading metadata.json and the job file as JSON text is not modelled: the model starts from their contents.  Logging and timing are left out.
-/

namespace Groot.Driver

/-- What `Main` keeps across jobs: `property_violations_` (src/driver.h:26, a `std::set`: the order of the list has no meaning) and
`total_ecs` (bin/groot.cpp:34). -/
structure Totals where
  violations : List Violation := []
  ecs : Nat := 0
  deriving Repr

/-- `stats.ec_count` after a job (src/driver.cpp:109-112): reset by `SetJob` (src/driver.cpp:216, 379), incremented once for each
class processed (src/ec-task.cpp:18). -/
def ecCount (ts : List Task) : Nat := ts.countP (fun t => match t with | .ec _ => true | .structural _ _ => false)

/-- `GenerateECsAndCheckProperties` and the count of classes for the current job (bin/groot.cpp:46-47, 58-59), with everything in turn as in
`runSequential`: the label graph and the totals after it. -/
def runJob (fuel thr : Nat) (ctx : Context) (lg : LGraph) (t : Totals) (job : Job) : Res (LGraph × Totals) := do
  let r ← runSequential fuel thr ctx lg job
  .ok (r.1, { violations := collect t.violations r.2.2, ecs := t.ecs + ecCount r.2.1 })

/-- The loop over the jobs of the job file (bin/groot.cpp:43-52). -/
def jobLoop (fuel thr : Nat) (ctx : Context) : LGraph → Job → Totals → List UJob → Res Totals
  | _, _, t, [] => .ok t
  | lg, job, t, u :: us => do
    let job ← setJob job u
    let r ← runJob fuel thr ctx lg t job
    jobLoop fuel thr ctx r.1 job r.2 us

/-- The check for missing glue records at the end of `SetContext`, with linting on (src/driver.cpp:204-208): its issues, appended to
lint.json.  `zoneId_nameserver_map.at` throws if there is no entry. -/
def glueCheck (thr : Nat) (d : Loaded) : Res (List Zone.GlueIssue) :=
  d.ctx.zones.foldlM (fun acc p =>
    match d.ctx.zoneNs.lookup p.1 with
    | none => .throw
    | some ns => do
      let r ← p.2.glueIssues thr ns
      .ok (acc ++ r)) []

/-- `Main` up to `WriteViolationsToFile` (bin/groot.cpp:14-65).  `jobs` is the contents of the job file, if one is given; without one the
default job on "." is run (bin/groot.cpp:53-61). -/
def main (fuel thr : Nat) (lint : Bool) (read : Str → Str) (exists_ : Str → Bool) (m : Meta) (jobs : Option (List UJob)) : Res Totals := do
  let d ← setContext thr lint read exists_ m
  let _ ← if lint then glueCheck thr d else .ok []
  match jobs with
  | some us => jobLoop fuel thr d.ctx d.lg {} {} us
  | none => do
    let r ← runJob fuel thr d.ctx d.lg {} (setDefaultJob {} ".".toList)
    .ok r.2

end Groot.Driver
