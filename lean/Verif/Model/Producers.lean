import Verif.Model.Concurrency

/-!
# The producer threads of `GenerateECs` (src/label-graph.cpp:586-602)

One thread runs `SubDomainECGeneration` (src/label-graph.cpp:456-533) for each closest encloser.  The threads share the label
graph and write the scratch field `len` of its vertices without synchronisation.  One step of a thread makes at most one access
to a `len` field, or enqueues one task.

Simplification: memory is sequentially consistent.  (`len` is a plain `int16_t`, so by the C++ standard two threads that
access the same field have undefined behaviour; the theorems about lost classes need only ordinary interleavings.)
-/

namespace Groot.Prod

/-- The arguments of a call of `SubDomainECGeneration` (src/label-graph.cpp:456-462). -/
structure Call where
  start : Nat
  parent : Name
  skip : Bool
  structural : Bool
  deriving Repr, DecidableEq

/-- The local variable `name` of a call (src/label-graph.cpp:473-484). -/
def Call.name (c : Call) (g : LGraph) : Name := LGraph.ecName (g.vtx c.start).label c.parent c.skip

/-- Where an active call is, with its local variables. -/
inductive Frame where
  /-- about to test the length and `len` (src/label-graph.cpp:468) -/
  | entry (c : Call)
  /-- about to read `beforeLen` (src/label-graph.cpp:485) -/
  | save (c : Call)
  /-- about to write `len` (src/label-graph.cpp:493) -/
  | write (c : Call) (before : Int)
  /-- about to enqueue the structural task, if there is one (src/label-graph.cpp:498-501) -/
  | announce (c : Call) (before : Int)
  /-- in the loop over the out-edges (src/label-graph.cpp:503-513), or about to restore `len` (src/label-graph.cpp:514) -/
  | loop (c : Call) (before : Int) (rest : List (EdgeType × Nat)) (wild : Bool)
  /-- about to enqueue the class of the node (src/label-graph.cpp:515-518) -/
  | node (c : Call) (wild : Bool)
  /-- about to enqueue the last class (src/label-graph.cpp:520-532) -/
  | last (c : Call) (wild : Bool)
  deriving Repr, DecidableEq

/-- The call made for one out-edge (src/label-graph.cpp:504-512). -/
def callee (g : LGraph) (c : Call) (e : EdgeType × Nat) : Call :=
  if e.1 = .normal then ⟨e.2, c.name g, false, c.structural⟩ else ⟨e.2, c.name g, true, false⟩

/-- One step of a thread, whose call stack is the list (innermost call first): the graph, the stack and the task enqueued.
`none`: the thread has returned. -/
def step (types : TypeSet) (g : LGraph) : List Frame → Option (LGraph × List Frame × Option Task)
  | [] => none
  | .entry c :: k =>
    if LGraph.nameLen c.parent ≥ kMaxDomainLength ∨ ((LGraph.nameLen c.parent : Int) = (g.vtx c.start).data.len ∧ c.skip) then some (g, k, none)
    else some (g, .save c :: k, none)
  | .save c :: k =>
    if LGraph.nameLen (c.name g) ≥ kMaxDomainLength then some (g, k, none)
    else some (g, .write c (g.vtx c.start).data.len :: k, none)
  | .write c before :: k => some (LGraph.setLen g c.start (LGraph.nameLen (c.name g)), .announce c before :: k, none)
  | .announce c before :: k =>
    some (g, .loop c before (g.vtx c.start).edges false :: k,
      if c.structural then some (.structural c.start (labelsToString (c.name g))) else none)
  | .loop c before (e :: rest) wild :: k =>
    some (g, .entry (callee g c e) :: .loop c before rest (wild || (decide (e.1 = .normal) && (g.vtx e.2).label == ['*'])) :: k, none)
  | .loop c before [] wild :: k => some (LGraph.setLen g c.start before, .node c wild :: k, none)
  | .node c wild :: k => some (g, .last c wild :: k, if !c.skip then some (.ec { name := c.name g, types := types }) else none)
  | .last c wild :: k => some (g, k, some (.ec (LGraph.lastEC wild (c.name g) types)))

/-- The label graph and the call stacks of the producer threads. -/
structure Pool where
  graph : LGraph
  threads : List (List Frame)
  deriving DecidableEq

/-- A step of the `i`-th thread of a pool. -/
inductive Step (types : TypeSet) (i : Nat) : Pool → Option Task → Pool → Prop where
  | mk {p : Pool} {g : LGraph} (a b : List (List Frame)) (st st' : List Frame) (o : Option Task) (hp : p.threads = a ++ st :: b) (hi : a.length = i)
      (h : step types p.graph st = some (g, st', o)) : Step types i p o ⟨g, a ++ st' :: b⟩

/-- The threads started for the closest enclosers (src/label-graph.cpp:583-599). -/
def start (g : LGraph) (parent : Name) (structural : Bool) (enclosers : List Nat) : Pool :=
  ⟨g, enclosers.map (fun v => [.entry ⟨v, parent, false, structural⟩])⟩

/-- The threads of a job, given the closest enclosers found (src/label-graph.cpp:583-599). -/
def ofJob (g : LGraph) (job : LGraph.Req) (es : List (Nat × Int)) : Pool :=
  start g (stringToLabels job.domain).dropLast job.structural (es.map (·.1))

/-- All threads have returned, so that joining them succeeds (src/label-graph.cpp:600-602). -/
def Pool.Done (p : Pool) : Prop := ∀ st ∈ p.threads, st = []

end Groot.Prod

namespace Groot.Full

open Conc

variable {N : Nat}

/-- The producers together with the queues and the other threads.  The field `todo` of the second part is not used. -/
structure State (N : Nat) where
  pool : Prod.Pool
  rest : Conc.State N Task Violation (Nat × Nat)

/-- The threads: producers, generator (which joins the producers and sets the flag), consumers, collectors. -/
inductive Thread (N : Nat) where
  | prod (i : Nat)
  | gen
  | cons (i : Fin N)
  | json
  | stats
  deriving DecidableEq

/-- The threads other than the producers, as in `Verif.Model.Concurrency`. -/
def Thread.conc : Thread N → Option (Conc.Thread N)
  | .prod _ => none
  | .gen => none
  | .cons i => some (.cons i)
  | .json => some .json
  | .stats => some .stats

/-- One action of one thread of `GenerateECsAndCheckProperties` (src/driver.cpp:11-107). -/
inductive Step (types : TypeSet) (emit : Task → List (Violation ⊕ (Nat × Nat))) : Thread N → State N → State N → Prop where
  /-- a producer makes a step, and may enqueue a task -/
  | produce {s : State N} (i : Nat) (o : Option Task) (p : Prod.Pool) (h : Prod.Step types i s.pool o p) :
      Step types emit (.prod i) s ⟨p, { s.rest with ecq := s.rest.ecq ++ o.toList }⟩
  /-- the producers have been joined (src/label-graph.cpp:600-602, 636) -/
  | finish {s : State N} (h : s.pool.Done) (hf : s.rest.finished = false) :
      Step types emit .gen s ⟨s.pool, { s.rest with finished := true }⟩
  /-- a consumer or a collector makes a step -/
  | other {s : State N} (th : Thread N) (t : Conc.Thread N) (r : Conc.State N Task Violation (Nat × Nat)) (ht : th.conc = some t)
      (h : Conc.Step emit t s.rest r) : Step types emit th s ⟨s.pool, r⟩

/-- The state when the threads have been created. -/
def start (pool : Prod.Pool) : State N := ⟨pool, { todo := [] }⟩

/-- A thread has nothing left to do. -/
def Ended (s : State N) : Thread N → Prop
  | .prod i => ∀ st, s.pool.threads[i]? = some st → st = []
  | .gen => s.rest.finished = true
  | .cons i => s.rest.cons i = .stopped
  | .json => s.rest.jpc = .stopped
  | .stats => s.rest.spc = .stopped

end Groot.Full
