import Verif.Model.Context

/-!
# `interpretation::Graph` (src/interpretation-properties.h, src/interpretation-graph.cpp)

The mutually recursive C++ functions are run from an explicit stack of pending calls (`Work`): the call at
the head is executed and replaced by the calls it makes, so calls happen in the C++ order.
-/

namespace Groot

/-- `interpretation::Vertex` (src/interpretation-properties.h:17-21). -/
structure IVtx where
  ns : Str
  query : EC
  answer : Option (List Answer) := none
  deriving Repr, DecidableEq, Inhabited

/-- Edge with its `intermediate_query` (src/interpretation-properties.h:33-35). -/
structure IEdge where
  src : Nat
  dst : Nat
  side : Option Nat := none
  deriving Repr, DecidableEq

/-- `interpretation::Graph` (src/interpretation-properties.h:45-97).  `edges` is in insertion order;
`nsMap` is `nameserver_to_vertices_map_`.  The root is vertex 0. -/
structure IG where
  verts : List IVtx
  edges : List IEdge
  nsMap : List (Str × List Nat)
  deriving Repr, Inhabited

namespace IG

/-- `(*this)[v]` (out of range: a default vertex; descriptors are always in range). -/
def vtx (g : IG) (v : Nat) : IVtx := g.verts.getD v default

/-- `out_edges(v, *this)`. -/
def outEdges (g : IG) (v : Nat) : List IEdge := g.edges.filter (fun e => e.src == v)

/-- `(*this)[v].answer = a`. -/
def setAnswer (g : IG) (v : Nat) (a : List Answer) : IG :=
  { g with verts := g.verts.modify v (fun x : IVtx => { x with answer := some a }) }

/-- The search for an existing node with an equal query (src/interpretation-graph.cpp:129-135,421-427). -/
def findNode (g : IG) (ns : Str) (q : EC) : Option Nat :=
  match g.nsMap.lookup ns with
  | none => none
  | some vs => vs.find? (fun n => q.eqv (g.vtx n).query)

/-- `nameserver_to_vertices_map_[ns].push_back(v)`, creating the entry if needed. -/
def pushNs (ns : Str) (v : Nat) : List (Str × List Nat) → List (Str × List Nat)
  | [] => [(ns, [v])]
  | (k, vs) :: rest => if k = ns then (k, vs ++ [v]) :: rest else (k, vs) :: pushNs ns v rest

/-- A new vertex registered in the map (src/interpretation-graph.cpp:157-159,173 and 433-438). -/
def addVertex (g : IG) (ns : Str) (q : EC) : IG :=
  { g with verts := g.verts ++ [{ ns := ns, query := q }], nsMap := pushNs ns g.verts.length g.nsMap }

/-- `InsertNode` (src/interpretation-graph.cpp:120-180): the new node, or `none` if it existed.
`boost::add_edge` on `vecS` never fails. -/
def insertNode (g : IG) (ns : Str) (q : EC) (from_ : Nat) (side : Option Nat) : IG × Option Nat :=
  match g.findNode ns q with
  | some n => ({ g with edges := g.edges ++ [⟨from_, n, side⟩] }, none)
  | none =>
    let v := g.verts.length
    let g := g.addVertex ns q
    ({ g with edges := g.edges ++ [⟨from_, v, side⟩] }, some v)

/-- Constructor, up to the first call (src/interpretation-graph.cpp:62-78). -/
def start (q : EC) : IG := { verts := [{ ns := [], query := q }], edges := [], nsMap := [([], [0])] }

end IG

/-- The inner loop of `GetRelevantZone` (src/interpretation-graph.cpp:193-203): the number of labels
matched if the origin encloses the name. -/
def originMatch : Name → Name → Option Nat
  | [], _ => some 0
  | _ :: _, [] => none
  | o :: os, q :: qs => if o = q then (originMatch os qs).map (· + 1) else none

/-- State of `GetRelevantZone`: `max` and `bestMatch`, `none` while nothing was found.
A zone id without zone dereferences the end iterator (undefined). -/
def relevantStep (ctx : Context) (name : Name) (best : Option (Nat × Nat)) (zid : Nat) :
    Res (Option (Nat × Nat)) :=
  match ctx.zones.lookup zid with
  | none => .ub
  | some z =>
    match originMatch z.origin name with
    | none => .ok best
    | some i =>
      match best with
      | none => .ok (some (i, zid))
      | some (m, b) => if i > m then .ok (some (i, zid)) else .ok (some (m, b))

/-- `GetRelevantZone` (src/interpretation-graph.cpp:182-222). -/
def relevantZone (ctx : Context) (ns : Str) (name : Name) : Res (Option Nat) :=
  match ctx.nsZones.lookup ns with
  | none => .ok none
  | some ids => do
    let r ← ids.foldlM (relevantStep ctx name) none
    .ok (r.map (·.2))

/-- `MatchNsGlueRecords` (src/interpretation-graph.cpp:224-248): each NS record with the address records
that directly follow it. -/
def matchNsGlue : List RR → List (RR × List RR)
  | [] => []
  | r :: rest =>
    if r.type = .NS then
      (r, rest.takeWhile (fun x => x.type == .A || x.type == .AAAA)) :: matchNsGlue rest
    else matchNsGlue rest

/-- `ProcessCname` (src/interpretation-graph.cpp:311-318). -/
def processCname (record : RR) (q : EC) : EC :=
  { name := stringToLabels record.rdata, types := q.types.remove .CNAME }

/-- The first loop of `ProcessDname` (src/interpretation-graph.cpp:322-330): the labels below the DNAME
owner.  Reading past the end of the query name is undefined. -/
def dnameRest : Name → Name → Res Name
  | [], q => .ok q
  | _ :: _, [] => .ub
  | l :: ls, q :: qs => if l = q then dnameRest ls qs else .exit

/-- `ProcessDname` (src/interpretation-graph.cpp:320-341). -/
def processDname (record : RR) (q : EC) : Res EC := do
  let rest ← dnameRest record.name q.name
  .ok { name := stringToLabels record.rdata ++ rest, types := q.types, excluded := q.excluded }

/-- Pending calls. -/
inductive Work where
  /-- the iteration for one top server of `StartFromTopNameservers(from, q)` -/
  | top (ns : Str) (q : EC) (from_ : Nat)
  /-- `QueryResolver(zone, v)` -/
  | resolve (zid : Nat) (v : Nat)
  /-- one REWRITE answer in the loop of `QueryResolver` -/
  | rewrite (record : RR) (v : Nat)
  /-- one (NS, glue) pair in the loop of `QueryResolver` -/
  | refer (v : Nat) (ns : Str) (glue : List RR)
  /-- `NsSubRoutine(v, ns, side)` -/
  | nsSub (v : Nat) (ns : Str) (side : Option Nat)
  deriving Repr, DecidableEq

/-- `StartFromTopNameservers` (src/interpretation-graph.cpp:448-453): one iteration per top server. -/
def topWorks (ctx : Context) (q : EC) (from_ : Nat) : List Work :=
  ctx.top.map (fun ns => .top ns q from_)

/-- The calls made for one answer in `QueryResolver` (src/interpretation-graph.cpp:355-402). -/
def answerWorks (v : Nat) (a : Answer) : Res (List Work) :=
  match a.tag with
  | .REWRITE =>
    match a.rrs with
    | [] => .ub
    | r :: _ => .ok [.rewrite r v]
  | .REF => .ok ((matchNsGlue a.rrs).map (fun p => .refer v p.1.rdata p.2))
  | _ => .ok []

/-- The query for the address of a name server (src/interpretation-graph.cpp:393-396). -/
def sideEC (ns : Str) : EC :=
  { name := stringToLabels ns, types := TypeSet.add (TypeSet.single .A) .AAAA }

/-- Execute one pending call: the new graph and the calls it makes, in order. -/
def doWork (thr : Nat) (ctx : Context) (g : IG) : Work → Res (IG × List Work)
  -- src/interpretation-graph.cpp:453-471
  | .top ns q from_ => do
    let start ← relevantZone ctx ns q.name
    let (g, node) := g.insertNode ns q from_ none
    match node, start with
    | some v, some zid => .ok (g, [.resolve zid v])
    | some v, none => .ok (g.setAnswer v [⟨.REFUSED, q.types, []⟩], [])
    | none, _ => .ok (g, [])
  -- src/interpretation-graph.cpp:343-417
  | .resolve zid v =>
    match ctx.zones.lookup zid with
    | none => .ub
    | some z => do
      let r ← z.lookup thr (g.vtx v).query
      let ws ← r.1.foldlM (fun acc a => do
        let w ← answerWorks v a
        .ok (acc ++ w)) []
      .ok (g.setAnswer v r.1, ws)
  -- src/interpretation-graph.cpp:361-378 and 82-118
  | .rewrite record v => do
    let newQ ← if record.type = .CNAME then .ok (processCname record (g.vtx v).query)
               else processDname record (g.vtx v).query
    let ns := (g.vtx v).ns
    if (lengthCheck newQ.name).1 then do
      let start ← relevantZone ctx ns newQ.name
      match start with
      | some zid =>
        let (g, node) := g.insertNode ns newQ v none
        match node with
        | some u => .ok (g, [.resolve zid u])
        | none => .ok (g, [])
      | none => .ok (g, topWorks ctx newQ v)
    else
      let (g, node) := g.insertNode ns newQ v none
      match node with
      | some u => .ok (g.setAnswer u [⟨.YX, newQ.types, []⟩], [])
      | none => .ok (g, [])
  -- src/interpretation-graph.cpp:383-401 and 419-446
  | .refer v ns glue =>
    if glue.length ≠ 0 || ctx.top.contains ns then .ok (g, [.nsSub v ns none])
    else
      let q := sideEC ns
      match g.findNode [] q with
      | some n => .ok (g, [.nsSub v ns (some n)])
      | none =>
        let dummy := g.verts.length
        .ok (g.addVertex [] q, topWorks ctx q dummy ++ [.nsSub v ns (some dummy)])
  -- src/interpretation-graph.cpp:250-279
  | .nsSub v ns side => do
    let q := (g.vtx v).query
    let (g, node) := g.insertNode ns q v side
    match node with
    | none => .ok (g, [])
    | some u =>
      match ctx.nsZones.lookup ns with
      | none => .ok (g.setAnswer u [⟨.NSNOTFOUND, q.types, []⟩], [])
      | some _ => do
        let start ← relevantZone ctx ns q.name
        match start with
        | some zid => .ok (g, [.resolve zid u])
        | none => .ok (g.setAnswer u [⟨.REFUSED, q.types, []⟩], [])

/-- Run pending calls until none is left; the first argument bounds the number of calls. -/
def exec (thr : Nat) (ctx : Context) : Nat → IG → List Work → Res IG
  | _, g, [] => .ok g
  | 0, _, _ :: _ => .oof
  | fuel + 1, g, w :: ws => do
    let r ← doWork thr ctx g w
    exec thr ctx fuel r.1 (r.2 ++ ws)

/-- Constructor `interpretation::Graph::Graph(query, context)` (src/interpretation-graph.cpp:62-80). -/
def buildIG (fuel thr : Nat) (ctx : Context) (q : EC) : Res IG :=
  exec thr ctx fuel (IG.start q) (topWorks ctx q 0)

namespace IG

/-- First element of an answer, `answer.get()[0]`: undefined if absent or empty. -/
def answer0 (g : IG) (v : Nat) : Res Answer :=
  match (g.vtx v).answer with
  | some (a :: _) => .ok a
  | _ => .ub

/-- One node of `PrettyPrintLoop` (src/interpretation-graph.cpp:299-306). -/
def loopNode (g : IG) (v : Nat) : Res LoopNode :=
  match (g.vtx v).answer with
  | none => .ok ⟨(g.vtx v).ns, (g.vtx v).query.toStr, none⟩
  | some [] => .ub
  | some (a :: _) => .ok ⟨(g.vtx v).ns, (g.vtx v).query.toStr, some a.tag⟩

/-- `PrettyPrintLoop` (src/interpretation-graph.cpp:281-309). -/
def prettyLoop (g : IG) (start : Nat) (p : List Nat) : Res Violation := do
  let ns ← (p.dropWhile (fun v => v != start)).foldlM (fun acc v => do
    let n ← loopNode g v
    .ok (acc ++ [n])) []
  .ok (.loop ns)

/-- `CheckForLoops` (src/interpretation-graph.cpp:474-502): the violation if a loop was found.
The first argument is the recursion budget. -/
def checkLoops (g : IG) : Nat → Nat → List Nat → Res (Option Violation)
  | 0, _, _ => .oof
  | fuel + 1, v, p =>
    if p.contains v then do
      let x ← prettyLoop g v p
      .ok (some x)
    else
      (g.outEdges v).foldlM (fun (found : Option Violation) e =>
        match found with
        | some x => .ok (some x)
        | none => do
          let r ← match e.side with
            | some s => checkLoops g fuel s (p ++ [v])
            | none => .ok none
          match r with
          | some x => .ok (some x)
          | none => checkLoops g fuel e.dst (p ++ [v])) none

/-- What `EnumeratePathsAndReturnEndNodes` accumulates: end nodes, and the paths the path functions are
applied to, in order. -/
structure Enum where
  ends : List Nat := []
  paths : List (List Nat) := []
  deriving Repr, DecidableEq

/-- `end_nodes.push_back(v)` if absent (src/interpretation-graph.cpp:536-538, 565-567). -/
def Enum.addEnd (s : Enum) (v : Nat) : Enum :=
  if s.ends.contains v then s else { s with ends := s.ends ++ [v] }

/-- The CNAME end-node test (src/interpretation-graph.cpp:529-545). -/
def cnameEnd (g : IG) (v : Nat) : Res Bool :=
  if (g.vtx v).ns = [] then .ok false
  else
    match (g.vtx v).answer with
    | some (a :: _) =>
      if a.tag = .REWRITE then
        match a.rrs with
        | [] => .ub
        | r :: _ => .ok (r.type == .CNAME && (g.vtx v).query.types.has .CNAME)
      else .ok false
    | _ => .ok false

/-- `EnumeratePathsAndReturnEndNodes` (src/interpretation-graph.cpp:521-573).  The first argument is the
recursion budget. -/
def enumerate (g : IG) : Nat → Nat → List Nat → Enum → Res Enum
  | 0, _, _, _ => .oof
  | fuel + 1, v, p, s => do
    let c ← cnameEnd g v
    let s := if c then { s.addEnd v with paths := s.paths ++ [p ++ [v]] } else s
    if p.contains v then .ok s
    else do
      let s ← (g.outEdges v).foldlM (fun s e => enumerate g fuel e.dst (p ++ [v]) s) s
      if (g.outEdges v).length = 0 then
        .ok { s.addEnd v with paths := s.paths ++ [p ++ [v]] }
      else .ok s

end IG

end Groot
