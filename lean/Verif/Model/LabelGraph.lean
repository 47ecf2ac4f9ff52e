import Verif.Model.Context

/-!
# `label::Graph` (src/label-graph.{h,cpp})
-/

namespace Groot

/-- The data of a `label::Vertex` besides its label (src/label-graph.h:12-17).  `len` is an `int16_t`
scratch field; the values stored are below 253 for every name that passed the length check. -/
structure LData where
  len : Int := -1
  types : TypeSet := 0
  zv : List (Nat × Nat) := []
  deriving Repr, DecidableEq, Inhabited

/-- `label::Graph` (src/label-graph.h:42). -/
abbrev LGraph := Trie LData

/-- The tasks put on `ec_queue`: `ECTask` (src/ec-task.h) and `StructuralTask` (src/structural-task.h). -/
inductive Task where
  | ec (q : EC)
  | structural (node : Nat) (domain : Str)
  deriving Repr, DecidableEq

namespace LGraph

/-- Constructor (src/label-graph.cpp:6-10). -/
def init : LGraph := Trie.init {}

/-- `(*this)[v].len = n`. -/
def setLen (g : LGraph) (v : Nat) (n : Int) : LGraph :=
  g.setData v { (g.vtx v).data with len := n }

/-- The DNAME edge of `AddResourceRecord` (src/label-graph.cpp:130-147). -/
def addDnameEdge (g : LGraph) (src dst : Nat) : LGraph :=
  if (g.vtx src).edges.any (fun e => e.2 == dst && e.1 == .dname) then g
  else { g with verts := g.verts.modify src
                  (fun x : Vtx LData => { x with edges := x.edges ++ [(EdgeType.dname, dst)] }) }

/-- `AddResourceRecord` (src/label-graph.cpp:107-159). -/
def addRecord (thr : Nat) (g : LGraph) (record : RR) (zoneId vertexId : Nat) : LGraph :=
  if record.type = .N then g
  else
    let r := g.ensure thr record.name
    let main := r.2
    let g := r.1
    let g :=
      if record.type = .DNAME then
        let s := g.ensure thr (stringToLabels record.rdata)
        addDnameEdge s.1 main s.2
      else g
    let d := (g.vtx main).data
    let zv := if d.zv.any (fun e => e.1 == zoneId && e.2 == vertexId) then d.zv
              else d.zv ++ [(zoneId, vertexId)]
    g.setData main { d with zv := zv, types := d.types.add record.type }

/-- The normal-edge child used by `SearchNode` (src/label-graph.cpp:415-437). -/
def child (g : LGraph) (v : Nat) (l : Label) : Option Nat :=
  match g.maps.lookup v with
  | some m => m.lookup l
  | none => g.childByEdges v l

/-- The final filter of `SearchNode` (src/label-graph.cpp:439-453): keep the longest matches. -/
def keepMax (es : List (Nat × Int)) : List (Nat × Int) :=
  let m := es.foldl (fun (m : Int) r => if r.2 > m then r.2 else m) (-1)
  if m ≠ -1 then es.filter (fun r => r.2 == m) else []

/-- `SearchNode` (src/label-graph.cpp:383-454).  `rest` is the part of `labels` from `index` on.
The scratch field `len` is threaded through.  The first argument is the recursion budget. -/
def searchNode : Nat → LGraph → Nat → List Label → Nat → Res (LGraph × List (Nat × Int))
  | 0, _, _, _, _ => .oof
  | fuel + 1, g, v, rest, index =>
    match rest with
    | [] => .ok (g, [(v, (index : Int))])
    | l :: ls =>
      if (index : Int) = (g.vtx v).data.len then .ok (g, [(v, -1)])
      else do
        let before := (g.vtx v).data.len
        let g := setLen g v index
        let edges := (g.vtx v).edges
        let (g, es) ← edges.foldlM (fun (st : LGraph × List (Nat × Int)) e =>
            if e.1 = .dname then do
              let r ← searchNode fuel st.1 e.2 (l :: ls) index
              .ok (r.1, st.2 ++ r.2)
            else .ok st) (g, [(v, (index : Int))])
        let (g, es) ← match child g v l with
          | some u => do
            let r ← searchNode fuel g u ls (index + 1)
            .ok (r.1, es ++ r.2)
          | none => .ok (g, es)
        .ok (setLen g v before, keepMax es)

/-- `ClosestEnclosers` (src/label-graph.cpp:373-376). -/
def closestEnclosers (fuel : Nat) (g : LGraph) (labels : Name) : Res (LGraph × List (Nat × Int)) :=
  searchNode fuel g 0 labels 0

/-- The loops adding up label lengths in `SubDomainECGeneration` (src/label-graph.cpp:464-467,486-489). -/
def nameLen (n : Name) : Nat := n.foldl (fun s l => s + (l.length + 1)) 0

/-- The name of the current node in `SubDomainECGeneration` (src/label-graph.cpp:473-484). -/
def ecName (label : Label) (parent : Name) (skip : Bool) : Name :=
  if label = ['.'] then parent
  else if parent.length = 0 then parent ++ [label]
  else if !skip then parent ++ [label]
  else parent

/-- The class enqueued last by `SubDomainECGeneration` (src/label-graph.cpp:520-532, 535-550).  The
`children_labels` vector is always empty. -/
def lastEC (hasWildcard : Bool) (name : Name) (types : TypeSet) : EC :=
  if hasWildcard then { name := name, types := types, excluded := some [] }
  else { name := name, types := ~~~0, excluded := some [], nonExistent := true }

/-- `SubDomainECGeneration` (src/label-graph.cpp:456-533): the tasks enqueued, in order.  The first
argument is the recursion budget. -/
def subDomainECs (types : TypeSet) : Nat → LGraph → Nat → Name → Bool → Bool → Res (LGraph × List Task)
  | 0, _, _, _, _, _ => .oof
  | fuel + 1, g, start, parent, skip, structural =>
    let len := nameLen parent
    if len ≥ kMaxDomainLength ∨ ((len : Int) = (g.vtx start).data.len ∧ skip) then .ok (g, [])
    else
      let name := ecName (g.vtx start).label parent skip
      let before := (g.vtx start).data.len
      let nodeLen := nameLen name
      if nodeLen ≥ kMaxDomainLength then .ok (g, [])
      else do
        let g := setLen g start nodeLen
        let pre := if structural then [Task.structural start (labelsToString name)] else []
        let edges := (g.vtx start).edges
        let (g, ts, wild) ← edges.foldlM (fun (st : LGraph × List Task × Bool) e =>
            if e.1 = .normal then do
              let wild := st.2.2 || (st.1.vtx e.2).label == ['*']
              let r ← subDomainECs types fuel st.1 e.2 name false structural
              .ok (r.1, st.2.1 ++ r.2, wild)
            else do
              let r ← subDomainECs types fuel st.1 e.2 name true false
              .ok (r.1, st.2.1 ++ r.2, st.2.2)) (g, pre, false)
        let g := setLen g start before
        let node := if !skip then [Task.ec { name := name, types := types }] else []
        .ok (g, ts ++ node ++ [Task.ec (lastEC wild name types)])

/-- What `GenerateECs` reads from the job (src/job.h:12-24). -/
structure Req where
  domain : Str
  subdomains : Bool
  structural : Bool
  types : TypeSet
  deriving Repr, DecidableEq

/-- `GenerateECs` (src/label-graph.cpp:560-637): the tasks enqueued.  One producer thread is started for
each closest encloser; the model runs them one after the other (with a single encloser there is only one). -/
def generateECs (fuel : Nat) (g : LGraph) (job : Req) : Res (LGraph × List Task) :=
  let labels := stringToLabels job.domain
  if !(lengthCheck labels).1 then .ok (g, [])
  else do
    let (g, es) ← closestEnclosers fuel g labels
    match es with
    | [] => .exit
    | e :: _ =>
      let matched := e.2
      if es.any (fun r => r.2 != matched) then .exit
      else if (labels.length : Int) = matched then
        if job.subdomains then
          es.foldlM (fun (st : LGraph × List Task) r => do
            let x ← subDomainECs job.types fuel st.1 r.1 labels.dropLast false job.structural
            .ok (x.1, st.2 ++ x.2)) (g, [])
        else .ok (g, [Task.ec { name := labels, types := job.types }])
      else
        .ok (g, [Task.ec { name := labels.take matched.toNat, types := job.types, excluded := some [] }])

/-- `ZoneIdGlueNSRecords` (src/label-graph.h:53): zone id, glue records, NS records. -/
abbrev ZGN := Nat × Option (List RR) × List RR

/-- State of the first loop of `CheckStructuralDelegationConsistency` (src/label-graph.cpp:170-173). -/
structure SState where
  parents : List ZGN := []
  children : List ZGN := []
  childZone : Name := []
  longestParent : Name := []
  deriving Repr

/-- Body of the loop over `zoneId_vertexIds` (src/label-graph.cpp:174-229). -/
def structStep (thr : Nat) (ctx : Context) (st : SState) (zv : Nat × Nat) : Res SState :=
  match ctx.zones.lookup zv.1 with
  | none => .exit
  | some z =>
    let rrs := z.rrsAt zv.2
    let soa := rrs.any (fun r => r.type == .SOA)
    let ns := rrs.filter (fun r => r.type == .NS)
    if soa then
      let glue := if z.requireGlue ns then some (z.lookUpGlue thr ns) else none
      .ok { st with childZone := z.origin, children := st.children ++ [(zv.1, glue, ns)] }
    else
      let p : ZGN := (zv.1, some (z.lookUpGlue thr ns), ns)
      if st.longestParent.length ≠ 0 then
        if st.longestParent = z.origin then .ok { st with parents := st.parents ++ [p] }
        else if subDomainCheck st.longestParent z.origin then
          .ok { st with parents := [p], longestParent := z.origin }
        else .ok st
      else .ok { st with longestParent := z.origin, parents := st.parents ++ [p] }

/-- The removal of glue records outside the child zone (src/label-graph.cpp:232-245). -/
def trimGlue (childZone : Name) (p : ZGN) : ZGN :=
  if childZone.length ≠ 0 then
    (p.1, p.2.1.map (·.filter (fun r => subDomainCheck childZone r.name)), p.2.2)
  else p

/-- `ConstructOutputNS` (src/label-graph.cpp:313-371): `none` if the two sides agree.
All records here are NS, A or AAAA records, so `toString` does not throw. -/
def outputNS (nsDiff : List RR × List RR × List RR) (glueDiff : Option (List RR × List RR × List RR))
    (serverA serverB roleA roleB : Str) : Option PairDiff :=
  let agree (d : List RR × List RR × List RR) : Bool := d.2.1.isEmpty && d.2.2.isEmpty
  let str (d : List RR × List RR × List RR) := (d.1.map RR.str, d.2.1.map RR.str, d.2.2.map RR.str)
  if agree nsDiff && (match glueDiff with | some d => agree d | none => true) then none
  else some { roleA, roleB, serverA, serverB, nsDiff := str nsDiff, glueDiff := glueDiff.map str }

/-- All ordered pairs (earlier, later) of a list: the double loops of src/label-graph.cpp:277-294. -/
def allPairs {α : Type} : List α → List (α × α)
  | [] => []
  | x :: xs => xs.map (fun y => (x, y)) ++ allPairs xs

/-- One comparison of `CompareParentChildDelegationRecords` (src/label-graph.cpp:261-294).
`zoneId_nameserver_map.at` throws if the id is missing; `get()` on an absent glue list is undefined. -/
def comparePair (ctx : Context) (kind : Nat) (p c : ZGN) : Res (Option PairDiff) := do
  let nsDiff := compareRRs p.2.2 c.2.2
  let glueDiff ←
    if kind = 0 then
      match c.2.1, p.2.1 with
      | some cg, some pg => .ok (some (compareRRs pg cg))
      | some _, none => .ub
      | none, _ => .ok none
    else if kind = 1 then
      match p.2.1, c.2.1 with
      | some pg, some cg => .ok (some (compareRRs pg cg))
      | _, _ => .ub
    else .ok (some (compareRRs (p.2.1.getD []) (c.2.1.getD [])))
  let roles : Str × Str :=
    if kind = 0 then ("parent".toList, "child".toList)
    else if kind = 1 then ("parent-a".toList, "parent-b".toList)
    else ("child-a".toList, "child-b".toList)
  match ctx.zoneNs.lookup p.1, ctx.zoneNs.lookup c.1 with
  | some a, some b => .ok (outputNS nsDiff glueDiff a b roles.1 roles.2)
  | _, _ => .throw

/-- `CheckStructuralDelegationConsistency` with `CompareParentChildDelegationRecords`
(src/label-graph.cpp:161-311): the violations enqueued. -/
def structuralCheck (thr : Nat) (g : LGraph) (ctx : Context) (domain : Str) (node : Nat) :
    Res (List Violation) :=
  let d := (g.vtx node).data
  if d.types.has .NS then do
    let st ← d.zv.foldlM (structStep thr ctx) {}
    let parents := st.parents.map (trimGlue st.childZone)
    let children := st.children
    let jobs : List (Nat × ZGN × ZGN) :=
      (parents.flatMap (fun p => children.map (fun c => (0, p, c)))) ++
      (allPairs parents).map (fun x => (1, x.1, x.2)) ++
      (allPairs children).map (fun x => (2, x.1, x.2))
    let pairs ← jobs.foldlM (fun (acc : List PairDiff) j => do
      let r ← comparePair ctx j.1 j.2.1 j.2.2
      .ok (acc ++ r.toList)) []
    if pairs.isEmpty then .ok [] else .ok [.structural domain pairs]
  else .ok []

end LGraph

end Groot
