import Verif.Model.Trie

/-!
# `zone::Graph` (src/zone-graph.{h,cpp})
-/

namespace Groot

/-- `zone::Graph` (src/zone-graph.h:39-51).  The data of a vertex is its vector `rrs`. -/
structure Zone where
  id : Nat
  origin : Name
  g : Trie (List RR)
  deriving Repr, Inhabited

namespace Zone

/-- Constructor `zone::Graph::Graph(int)` (src/zone-graph.cpp:4-9). -/
def init (id : Nat) : Zone := { id := id, origin := [], g := Trie.init [] }

/-- `(*this)[v].rrs`. -/
def rrsAt (z : Zone) (v : Nat) : List RR := (z.g.vtx v).data

/-- `GetAncestor(root_, labels, index)` (src/zone-graph.cpp:181-188): vertex and `index`. -/
def ancestor (thr : Nat) (z : Zone) (n : Name) : Nat × Nat :=
  let r := z.g.getAncestor thr 0 n
  (r.1, r.2.1)

/-- The loop over the records already at the node in `AddResourceRecord`
(src/zone-graph.cpp:112-126): the first early return, if any. -/
def addCheck (record : RR) : List RR → AddCode
  | [] => .SUCCESS
  | rr :: rest =>
    if rr.type = record.type then
      if rr.ttl = record.ttl ∧ rr.rdata = record.rdata then .DUPLICATE
      else if record.type = .CNAME then .CNAME_MULTIPLE
      else if record.type = .DNAME then .DNAME_MULTIPLE
      else addCheck record rest
    else if rr.type = .CNAME ∨ record.type = .CNAME then .CNAME_OTHER
    else addCheck record rest

/-- `AddResourceRecord` (src/zone-graph.cpp:90-132): new zone, return code, returned vertex. -/
def addRecord (thr : Nat) (z : Zone) (record : RR) : Zone × AddCode × Option Nat :=
  let r := z.g.ensure thr record.name
  let g := r.1
  let node := r.2
  match addCheck record (g.vtx node).data with
  | .SUCCESS =>
    ({ id := z.id
       origin := if record.type = .SOA then record.name else z.origin
       g := g.setData node ((g.vtx node).data ++ [record]) }, .SUCCESS, some node)
  | .DUPLICATE => ({ z with g := g }, .DUPLICATE, none)
  | c => ({ z with g := g }, c, some node)

/-- `AddGlueRecords` (src/zone-graph.cpp:21-39). -/
def addGlue (thr : Nat) (z : Zone) (ns : List RR) : List RR :=
  ns.foldl (fun merged record =>
    let nsName := stringToLabels record.rdata
    let merged := merged ++ [record]
    let r := z.ancestor thr nsName
    if nsName.length = r.2 then
      merged ++ (z.rrsAt r.1).filter (fun x => x.type == .A || x.type == .AAAA)
    else merged) []

/-- `LookUpGlueRecords` (src/zone-graph.cpp:152-169). -/
def lookUpGlue (thr : Nat) (z : Zone) (ns : List RR) : List RR :=
  ns.foldl (fun ips record =>
    let nsName := stringToLabels record.rdata
    let r := z.ancestor thr nsName
    if nsName.length = r.2 then
      ips ++ (z.rrsAt r.1).filter (fun x => x.type == .A || x.type == .AAAA)
    else ips) []

/-- `GetNodeRRTypes` (src/zone-graph.cpp:270-277): `rrTypes[type] = 1` is undefined for `N`. -/
def nodeTypes (rrs : List RR) : Res TypeSet :=
  rrs.foldlM (fun ts r => TypeSet.setBit ts r.type) 0

/-- The next node in `GetClosestEncloser` (src/zone-graph.cpp:233-237,251-253): through the child map if
there is one, by linear search otherwise. -/
def child (z : Zone) (v : Nat) (l : Label) : Option Nat :=
  match z.g.maps.lookup v with
  | some m => m.lookup l
  | none => z.g.childByEdges v l

/-- `GetClosestEncloser` (src/zone-graph.cpp:224-268): the vertex and the number of labels matched. -/
def closestEncloser (z : Zone) : Nat → List Label → Res (Nat × Nat)
  | v, [] => .ok (v, 0)
  | v, l :: ls =>
    match z.child v l with
    | none => .ok (v, 0)
    | some u => do
      let ts ← nodeTypes (z.rrsAt u)
      if ts.has .NS && !ts.has .SOA then .ok (u, 1)
      else if ts.has .DNAME && !ls.isEmpty then .ok (u, 1)
      else do
        let r ← closestEncloser z u ls
        .ok (r.1, r.2 + 1)

/-- The loop over the wildcard node's records in `WildcardMatch` (src/zone-graph.cpp:290-308).
State: `matchingRRs`, `queryTypesFound`; `Sum.inl` is the early return with a CNAME. -/
def wildcardScan (query : EC) : List RR → List RR → TypeSet → Res (RR ⊕ (List RR × TypeSet))
  | [], m, q => .ok (.inr (m, q))
  | record :: rest, m, q =>
    if record.type = .CNAME then .ok (.inl record)
    else do
      let b ← TypeSet.getBit query.types record.type
      if b then do
        let q ← TypeSet.setChecked q record.type
        wildcardScan query rest (m ++ [record]) q
      else wildcardScan query rest m q

/-- The tail shared by `WildcardMatch` and the exact match (src/zone-graph.cpp:309-314, 436-441). -/
def ansOf (query : EC) (found : TypeSet) (rrs : List RR) : List Answer :=
  (if found.count ≠ 0 then [⟨.ANS, found, rrs⟩] else []) ++
  (if TypeSet.count (found ^^^ query.types) ≠ 0 then [⟨.ANS, found ^^^ query.types, []⟩] else [])

/-- The answer for a CNAME record (src/zone-graph.cpp:292-301, 409-418). -/
def cnameAns (query : EC) (types : TypeSet) (record : RR) : List Answer :=
  if query.types.has .CNAME && query.types.count = 1 then [⟨.ANS, types, [record]⟩]
  else [⟨.REWRITE, types, [record]⟩]

/-- `WildcardMatch` (src/zone-graph.cpp:279-319): `none` for `false`, otherwise the answers pushed.
The caller's `answers` is empty at both call sites. -/
def wildcardMatch (z : Zone) (ce : Nat) (types : TypeSet) (query : EC) : Res (Option (List Answer)) :=
  match (z.g.vtx ce).edges.find? (fun e => (z.g.vtx e.2).label == ['*']) with
  | none => .ok none
  | some e => do
    let r ← wildcardScan query (z.rrsAt e.2) [] 0
    match r with
    | .inl record => .ok (some (cnameAns query types record))
    | .inr (m, q) => .ok (some (ansOf query q m))

/-- The loop over the node's records for an exact match (src/zone-graph.cpp:400-420).
State: `matching_rrs`, `ns_records`, `query_types_found`; `Sum.inl` is the early return with a CNAME. -/
def exactScan (query : EC) :
    List RR → List RR → List RR → TypeSet → Res (RR ⊕ (List RR × List RR × TypeSet))
  | [], m, ns, q => .ok (.inr (m, ns, q))
  | record :: rest, m, ns, q =>
    if record.type = .NS then exactScan query rest m (ns ++ [record]) q
    else do
      let b ← TypeSet.getBit query.types record.type
      if b then do
        let q ← TypeSet.setChecked q record.type
        if record.type = .CNAME then .ok (.inl record)
        else exactScan query rest (m ++ [record]) ns q
      else if record.type = .CNAME then .ok (.inl record)
      else exactScan query rest m ns q

/-- The answers for DNAME records at the encloser (src/zone-graph.cpp:349-357, 378-384). -/
def dnameAns (types : TypeSet) (rrs : List RR) : List Answer :=
  (rrs.filter (fun r => r.type == .DNAME)).map (fun r => ⟨.REWRITE, types, [r]⟩)

/-- `QueryLookUpAtZone` (src/zone-graph.cpp:321-444): the answers and `complete_match`.
The C++ result is an optional that always holds a vector. -/
def lookup (thr : Nat) (z : Zone) (query : EC) : Res (List Answer × Bool) := do
  let r ← z.closestEncloser 0 query.name
  let rrs := z.rrsAt r.1
  let types ← nodeTypes rrs
  if query.name.length ≠ r.2 || query.excluded.isSome then
    if types.has .SOA then
      if types.has .DNAME then .ok (dnameAns types rrs, false)
      else do
        let w ← z.wildcardMatch r.1 types query
        match w with
        | some a => .ok (a, true)
        | none => .ok ([⟨.NX, query.types, []⟩], false)
    else if types.has .NS then
      let ns := rrs.filter (fun x => x.type == .NS)
      if ns.length ≠ 0 then .ok ([⟨.REF, types, z.addGlue thr ns⟩], false)
      else .ok ([], false)
    else if types.has .DNAME then .ok (dnameAns types rrs, false)
    else do
      let w ← z.wildcardMatch r.1 types query
      match w with
      | some a => .ok (a, true)
      | none => .ok ([⟨.NX, query.types, []⟩], false)
  else do
    let s ← exactScan query rrs [] [] 0
    match s with
    | .inl record => .ok (cnameAns query types record, true)
    | .inr (m, ns, q) =>
      let ns := if types.has .NS then z.addGlue thr ns else ns
      if types.has .NS && !types.has .SOA then .ok ([⟨.REF, types, ns⟩], true)
      else if query.types.has .NS && ns.length ≠ 0 then .ok (ansOf query (q.add .NS) (m ++ ns), true)
      else .ok (ansOf query q m, true)

/-- `RequireGlueRecords` (src/zone-graph.cpp:446-462). -/
def requireGlue (z : Zone) (ns : List RR) : Bool :=
  ns.any (fun record =>
    let nsName := stringToLabels record.rdata
    if nsName.length < z.origin.length then false
    else (List.range z.origin.length).all (fun i => z.origin[i]? == nsName[i]?))

/-- A line of the lint file for a missing glue record (src/zone-graph.cpp:75-80). -/
structure GlueIssue where
  server : Str
  zone : Str
  record : Str
  deriving Repr, DecidableEq

/-- The loop over one node's records in `CheckGlueRecordsPresence` (src/zone-graph.cpp:68-84). -/
def glueIssuesAt (thr : Nat) (z : Zone) (ns : Str) (rrs : List RR) : Res (List GlueIssue) :=
  rrs.foldlM (fun acc rr =>
    if rr.type = .NS ∧ z.requireGlue [rr] ∧ (z.addGlue thr [rr]).length = 1 then do
      let s ← rr.toStr
      .ok (acc ++ [⟨ns, labelsToString z.origin, s⟩])
    else .ok acc) []

/-- `CheckGlueRecordsPresence(start, ns)` (src/zone-graph.cpp:66-88).  Fuel bounds the recursion depth;
`glueIssues` supplies the number of vertices. -/
def glueIssuesFrom (thr : Nat) (z : Zone) (ns : Str) : Nat → Nat → Res (List GlueIssue)
  | 0, _ => .ok []
  | fuel + 1, v => do
    let here ← glueIssuesAt thr z ns (z.rrsAt v)
    (z.g.vtx v).edges.foldlM (fun acc e => do
      let r ← glueIssuesFrom thr z ns fuel e.2
      .ok (acc ++ r)) here

/-- `CheckGlueRecordsPresence(ns)` (src/zone-graph.cpp:134-137). -/
def glueIssues (thr : Nat) (z : Zone) (ns : Str) : Res (List GlueIssue) :=
  glueIssuesFrom thr z ns z.g.verts.length 0

/-- `CheckZoneMembership` (src/zone-graph.cpp:139-150). -/
def membership (z : Zone) (record : RR) : Res Bool :=
  if record.type = .SOA ∧ z.origin.length = 0 then .ok true
  else if z.origin.length = 0 then .exit
  else .ok (subDomainCheck z.origin record.name)

end Zone

end Groot
