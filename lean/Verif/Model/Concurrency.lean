import Verif.Model.Driver
import Mathlib.Logic.Function.Basic

/-!
# The threads of `GenerateECsAndCheckProperties` (src/driver.cpp:11-107)

An interleaving transition system.  One step is one visible action of one thread: a queue operation, a read
or a write of `finished_ec_generation`, a read or an increment of `done_consumers`.  What a thread does
between two such actions touches only its own variables (and, for the producers, the label graph, for the
consumers, the constant context).

Simplifications:
* memory is sequentially consistent (the flags are `std::atomic`, src/job.h:17, src/driver.cpp:24);
* a queue is a list; `enqueue` (which may allocate) always succeeds; `try_dequeue` may take any element: no
  order between elements is assumed;
* `try_dequeue` on the task queue may fail although the queue is not empty, as moodycamel's queue allows,
  except for a consumer that has seen the end of the generation when all other consumers have stopped: then
  every enqueue happened before and nobody else is dequeuing.  The JSON and statistics queues have one
  consumer each: `try_dequeue` may fail on a non-empty queue only while not all consumers have been seen to
  be done;
* what processing a task puts on the JSON and statistics queues is a function `emit` of the task; that
  `Task::Process` may call `exit` or throw is left to the theorems about `Driver.process`.
-/

namespace Groot.Conc

open Sum

variable {N : Nat} {T V A : Type}

/-- Where a consumer thread is in its loop (src/driver.cpp:38-55).  `left` is `itemsLeft`, `saw` the value
of `finished_ec_generation` read in this pass, `pending` what is still to be put on the output queues by
`item->Process`. -/
inductive Pc (V A : Type) where
  | top
  | scan (left saw : Bool)
  | work (pending : List (V ⊕ A)) (saw : Bool)
  | check (left : Bool)
  | stopped
  deriving DecidableEq

/-- Where the JSON consumer (src/driver.cpp:58-71) or the statistics collector (src/driver.cpp:88-99) is.
`saw` says that `done_consumers` was seen above the number of consumers in this pass. -/
inductive DPc where
  | top
  | scan (left saw : Bool)
  | check (left : Bool)
  | stopped
  deriving DecidableEq

/-- The shared state and the program counters.  `taken` records, for the statements only, the tasks whose
processing has begun; `collected` is what the JSON consumer has taken off its queue and `stats` what the
statistics collector has. -/
structure State (N : Nat) (T V A : Type) where
  /-- the tasks each producer thread has still to enqueue (src/label-graph.cpp:593-602) -/
  todo : List (List T)
  finished : Bool := false
  ecq : List T := []
  jsonq : List V := []
  attrq : List A := []
  done : Nat := 0
  cons : Fin N → Pc V A := fun _ => .top
  jpc : DPc := .top
  spc : DPc := .top
  taken : List T := []
  collected : List V := []
  stats : List A := []

/-- The threads: the generator with its producers and the main thread, the consumers, the two collectors. -/
inductive Thread (N : Nat) where
  | gen
  | cons (i : Fin N)
  | json
  | stats
  deriving DecidableEq

/-- All consumers other than `i` have ended. -/
def othersStopped (c : Fin N → Pc V A) (i : Fin N) : Prop := ∀ j, j ≠ i → c j = .stopped

/-- One action of one thread. -/
inductive Step (emit : T → List (V ⊕ A)) : Thread N → State N T V A → State N T V A → Prop where
  /-- a producer thread enqueues its next task (src/label-graph.cpp:502, 530, 549, 629, and `NodeEC`) -/
  | enqueue {s} (a b : List (List T)) (t : T) (ts : List T) (h : s.todo = a ++ (t :: ts) :: b) :
      Step emit .gen s { s with todo := a ++ ts :: b, ecq := s.ecq ++ [t] }
  /-- the flag is set when all producers have been joined (src/label-graph.cpp:600-602, 636,
  src/driver.cpp:101-102) -/
  | finish {s} (h : ∀ l ∈ s.todo, l = []) (hf : s.finished = false) :
      Step emit .gen s { s with finished := true }
  /-- `itemsLeft = !finished_ec_generation` (src/driver.cpp:43) -/
  | enter {s} (i : Fin N) (h : s.cons i = .top) :
      Step emit (.cons i) s { s with cons := Function.update s.cons i (.scan (!s.finished) s.finished) }
  /-- `try_dequeue` succeeds (src/driver.cpp:44-45) -/
  | take {s} (i : Fin N) (left saw : Bool) (h : s.cons i = .scan left saw) (a b : List T) (t : T)
      (hq : s.ecq = a ++ t :: b) :
      Step emit (.cons i) s { s with cons := Function.update s.cons i (.work (emit t) saw), ecq := a ++ b, taken := s.taken ++ [t] }
  /-- `try_dequeue` fails (src/driver.cpp:44) -/
  | empty {s} (i : Fin N) (left saw : Bool) (h : s.cons i = .scan left saw)
      (hq : s.ecq = [] ∨ saw = false ∨ ¬ othersStopped s.cons i) :
      Step emit (.cons i) s { s with cons := Function.update s.cons i (.check left) }
  /-- `Process` enqueues a violation (src/ec-task.cpp:13,19, src/structural-task.cpp) -/
  | violation {s} (i : Fin N) (v : V) (p : List (V ⊕ A)) (saw : Bool) (h : s.cons i = .work (.inl v :: p) saw) :
      Step emit (.cons i) s { s with cons := Function.update s.cons i (.work p saw), jsonq := s.jsonq ++ [v] }
  /-- `Process` enqueues the size of a graph (src/ec-task.cpp:15-17) -/
  | size {s} (i : Fin N) (x : A) (p : List (V ⊕ A)) (saw : Bool) (h : s.cons i = .work (.inr x :: p) saw) :
      Step emit (.cons i) s { s with cons := Function.update s.cons i (.work p saw), attrq := s.attrq ++ [x] }
  /-- `Process` returns; `itemsLeft` has been set (src/driver.cpp:45) -/
  | processed {s} (i : Fin N) (saw : Bool) (h : s.cons i = .work [] saw) :
      Step emit (.cons i) s { s with cons := Function.update s.cons i (.scan true saw) }
  /-- the loop condition is true because of `itemsLeft` (src/driver.cpp:52) -/
  | again {s} (i : Fin N) (h : s.cons i = .check true) :
      Step emit (.cons i) s { s with cons := Function.update s.cons i .top }
  /-- `done_consumers.fetch_add(1) + 1 == kECConsumerCount` (src/driver.cpp:52) -/
  | count {s} (i : Fin N) (h : s.cons i = .check false) :
      Step emit (.cons i) s { s with done := s.done + 1, cons := Function.update s.cons i (if s.done + 1 = N then .top else .stopped) }
  /-- `itemsLeft = done_consumers.load() <= kECConsumerCount` (src/driver.cpp:63) -/
  | jEnter {s} (h : s.jpc = .top) : Step emit .json s { s with jpc := .scan (decide (s.done ≤ N)) (decide (N < s.done)) }
  | jTake {s} (left saw : Bool) (h : s.jpc = .scan left saw) (a b : List V) (v : V) (hq : s.jsonq = a ++ v :: b) :
      Step emit .json s { s with jpc := .scan true saw, jsonq := a ++ b, collected := s.collected ++ [v] }
  | jEmpty {s} (left saw : Bool) (h : s.jpc = .scan left saw) (hq : s.jsonq = [] ∨ saw = false) :
      Step emit .json s { s with jpc := .check left }
  | jEnd {s} (left : Bool) (h : s.jpc = .check left) :
      Step emit .json s { s with jpc := if left then .top else .stopped }
  /-- the same loop for the statistics (src/driver.cpp:88-99) -/
  | sEnter {s} (h : s.spc = .top) : Step emit .stats s { s with spc := .scan (decide (s.done ≤ N)) (decide (N < s.done)) }
  | sTake {s} (left saw : Bool) (h : s.spc = .scan left saw) (a b : List A) (x : A) (hq : s.attrq = a ++ x :: b) :
      Step emit .stats s { s with spc := .scan true saw, attrq := a ++ b, stats := s.stats ++ [x] }
  | sEmpty {s} (left saw : Bool) (h : s.spc = .scan left saw) (hq : s.attrq = [] ∨ saw = false) :
      Step emit .stats s { s with spc := .check left }
  | sEnd {s} (left : Bool) (h : s.spc = .check left) :
      Step emit .stats s { s with spc := if left then .top else .stopped }

/-- The state when the threads have been created (src/driver.cpp:18-99) and nothing has run yet. -/
def start (producers : List (List T)) : State N T V A := { todo := producers }

/-- A thread has nothing left to do; `GenerateECsAndCheckProperties` joins all of them
(src/driver.cpp:101-107). -/
def Ended (s : State N T V A) : Thread N → Prop
  | .gen => s.finished = true
  | .cons i => s.cons i = .stopped
  | .json => s.jpc = .stopped
  | .stats => s.spc = .stopped

/-- `kECConsumerCount` (src/driver.h:17). -/
def consumerCount : Nat := 8

end Groot.Conc

namespace Groot.Driver

/-- What `Task::Process` puts on the two queues, in order (src/ec-task.cpp:9-21, src/structural-task.cpp:12-17):
violations on the left, graph sizes on the right. -/
def outputs (fuel thr : Nat) (ctx : Context) (lg : LGraph) (job : Job) : Task → Res (List (Violation ⊕ (Nat × Nat)))
  | .ec q => do
    let g ← buildIG fuel thr ctx q
    let l ← g.checkLoops fuel 0 []
    let v ← checkProperties fuel g job.pathFns job.nodeFns
    .ok (l.toList.map .inl ++ [.inr (g.verts.length, g.edges.length)] ++ v.map .inl)
  | .structural node domain => do
    let v ← LGraph.structuralCheck thr lg ctx domain node
    .ok (v.map .inl)

/-- `aliases[canonical].insert(query)` (src/driver.cpp:65-69).  The map is unordered: the order of the list
has no meaning. -/
def addAlias (canonical query : Str) : List (Str × List Str) → List (Str × List Str)
  | [] => [(canonical, [query])]
  | (c, qs) :: rest => if c = canonical then (c, setInsert query qs) :: rest else (c, qs) :: addAlias canonical query rest

/-- What the JSON consumer does with one item (src/driver.cpp:64-73): the violations to insert and the map
of aliases. -/
def collectOne (st : List Violation × List (Str × List Str)) : Violation → List Violation × List (Str × List Str)
  | .alias query canonical => (st.1, addAlias canonical query st.2)
  | v => (if v ∈ st.1 then st.1 else st.1 ++ [v], st.2)

/-- The JSON consumer (src/driver.cpp:58-86): `property_violations_` after the items of one job, given the
set before.  The order of the list has no meaning (the code keeps a `std::set`). -/
def collect (before : List Violation) (items : List Violation) : List Violation :=
  let st := items.foldl collectOne (before, [])
  if st.2.length ≠ 0 then (if Violation.allAliases st.2 ∈ st.1 then st.1 else st.1 ++ [.allAliases st.2]) else st.1

/-- The loop over the jobs of the job file (bin/groot.cpp:41-52), each run as in `runSequential`: the label graph, the last
job and `property_violations_`. -/
def runJobs (fuel thr : Nat) (ctx : Context) : LGraph → Job → List Violation → List UJob → Res (LGraph × Job × List Violation)
  | lg, job, vs, [] => .ok (lg, job, vs)
  | lg, job, vs, u :: us => do
    let job ← setJob job u
    let r ← runSequential fuel thr ctx lg job
    runJobs fuel thr ctx r.1 job (collect vs r.2.2) us

end Groot.Driver
