import Verif.Model.Interp

/-!
# The property checks (src/properties.cpp)

Every check returns the violations it enqueues, in order.  Loops indexed by `i` that look at `p[i + 1]`
recurse on the rest of the path.
-/

namespace Groot

namespace Check

/-- `graph[v].answer && std::get<0>(graph[v].answer.get()[0]) == t` — undefined if the answer is present
but empty. -/
def answerIs (g : IG) (v : Nat) (t : Tag) : Res Bool :=
  match (g.vtx v).answer with
  | none => .ok false
  | some [] => .ub
  | some (a :: _) => .ok (a.tag == t)

/-- `(graph[vd].query.rrTypes & types).count() > 0`. -/
def asks (g : IG) (v : Nat) (ts : TypeSet) : Bool :=
  decide (TypeSet.count ((g.vtx v).query.types &&& ts) > 0)

/-- Loop of `CheckResponseReturned` over the answers of one node (src/properties.cpp:60-69). -/
def returnedAt (g : IG) (v : Nat) (ts : TypeSet) (as : List Answer) : List Violation :=
  (as.filter (fun a => a.rrs.isEmpty && TypeSet.count (a.types &&& ts) != 0)).map (fun a =>
    .responseReturned (g.vtx v).query.toStr (typesToString (a.types &&& ts)) (g.vtx v).ns)

/-- `CheckResponseReturned` (src/properties.cpp:37-78). -/
def responseReturned (g : IG) (ts : TypeSet) : List Nat → Res (List Violation)
  | [] => .ok []
  | v :: rest =>
    if (g.vtx v).query.nonExistent then .ok []
    else if asks g v ts && (g.vtx v).ns != [] then
      match (g.vtx v).answer with
      | none => responseReturned g ts rest
      | some [] => .ub
      | some (a :: as) => do
        let here := if a.tag = .REFUSED ∨ a.tag = .NSNOTFOUND then [] else returnedAt g v ts (a :: as)
        let r ← responseReturned g ts rest
        .ok (here ++ r)
    else responseReturned g ts rest

/-- `std::set<string>` with the given members: sorted, without duplicates. -/
def strSet (l : List Str) : List Str := l.foldl (fun acc x => setInsert x acc) []

/-- The values found at a node (src/properties.cpp:98-103); `types_requested[type]` is undefined for the
unsupported type. -/
def rdataSet (ts : TypeSet) : List RR → Res (List Str)
  | [] => .ok []
  | r :: rs => do
    let b ← TypeSet.getBit ts r.type
    let s ← rdataSet ts rs
    .ok (if b then setInsert r.rdata s else s)

/-- Loop of `CheckResponseValue` (src/properties.cpp:94-117): the mismatches. -/
def valueMismatches (g : IG) (ts : TypeSet) (values : List Str) : List Nat → Res (List (Str × Str × Str))
  | [] => .ok []
  | v :: rest =>
    if asks g v ts then do
      let a ← g.answer0 v
      let entry (found : List Str) := (found.flatten, (g.vtx v).query.toStr, (g.vtx v).ns)
      if a.tag = .ANS ∨ a.tag = .REWRITE then do
        let s ← rdataSet ts a.rrs
        let r ← valueMismatches g ts values rest
        .ok (if s ≠ values then entry s :: r else r)
      else if a.tag = .NX ∨ a.tag = .YX then do
        let r ← valueMismatches g ts values rest
        .ok (entry [] :: r)
      else valueMismatches g ts values rest
    else valueMismatches g ts values rest

/-- `CheckResponseValue` (src/properties.cpp:80-124); `values` is a sorted set. -/
def responseValue (g : IG) (ts : TypeSet) (values : List Str) (ends : List Nat) : Res (List Violation) := do
  let m ← valueMismatches g ts values ends
  .ok (if m.isEmpty then [] else [.responseValue values.flatten m])

/-- The two difference lists are not both empty. -/
def differ (a b : List RR) : Bool :=
  let d := compareRRs a b
  d.2.1.length != 0 || d.2.2.length != 0

/-- First loop of `CheckSameResponseReturned` (src/properties.cpp:145-173).
State: the first informative answer, whether a difference was found, the CNAME end nodes. -/
def sameLoop (g : IG) (ts : TypeSet) :
    List Nat → Option Answer → Bool → List Nat → Res (Bool × List Nat)
  | [], _, diff, cn => .ok (diff, cn)
  | v :: rest, resp, diff, cn =>
    if asks g v ts && (g.vtx v).ns != [] then
      match (g.vtx v).answer with
      | none => sameLoop g ts rest resp diff cn
      | some [] => .ub
      | some (a :: _) =>
        if a.tag = .REFUSED ∨ a.tag = .NSNOTFOUND then sameLoop g ts rest resp diff cn
        else
          let cn := if (g.vtx v).query.types.has .CNAME then cn ++ [v] else cn
          match resp with
          | none => sameLoop g ts rest (some a) diff cn
          | some b => sameLoop g ts rest resp (diff || differ a.rrs b.rrs) cn
    else sameLoop g ts rest resp diff cn

/-- Second loop of `CheckSameResponseReturned` (src/properties.cpp:174-191). -/
def cnameLoop (g : IG) : List Nat → Option Answer → Bool → Res Bool
  | [], _, diff => .ok diff
  | v :: rest, none, diff => do
    let a ← g.answer0 v
    cnameLoop g rest (some a) diff
  | v :: rest, some b, diff => do
    let a ← g.answer0 v
    cnameLoop g rest (some b) (diff || (a.tag != b.tag || differ a.rrs b.rrs))

/-- `CheckSameResponseReturned` (src/properties.cpp:126-199). -/
def responseConsistency (g : IG) (ts : TypeSet) (ends : List Nat) : Res (List Violation) := do
  let (diff, cn) ← sameLoop g ts ends none false []
  let diff ← cnameLoop g cn none diff
  if diff then
    match ends with
    | [] => .ub
    | v :: _ => .ok [.responseConsistency (g.vtx v).query.toStr]
  else .ok []

/-- Records with TTL zero of one node (src/properties.cpp:219-229). -/
def zeroAt (g : IG) (first v : Nat) : List RR → Res (List Violation)
  | [] => .ok []
  | r :: rs =>
    if r.ttl = 0 then do
      let s ← r.toStr
      let t ← zeroAt g first v rs
      .ok (.zeroTTL (g.vtx first).query.toStr (g.vtx v).ns s :: t)
    else zeroAt g first v rs

/-- Loop of `ZeroTTL` (src/properties.cpp:211-238); `first` is `end_nodes[0]`. -/
def zeroLoop (g : IG) (ts : TypeSet) (first : Nat) : List Nat → Res (List Violation)
  | [] => .ok []
  | v :: rest =>
    if asks g v ts && (g.vtx v).ns != [] then
      match (g.vtx v).answer with
      | none => zeroLoop g ts first rest
      | some [] => .ub
      | some (a :: _) => do
        let here ← if a.tag = .REFUSED ∨ a.tag = .NSNOTFOUND then .ok [] else zeroAt g first v a.rrs
        let r ← zeroLoop g ts first rest
        .ok (here ++ r)
    else zeroLoop g ts first rest

/-- `ZeroTTL` (src/properties.cpp:201-239). -/
def zeroTTL (g : IG) (ts : TypeSet) (ends : List Nat) : Res (List Violation) :=
  match ends with
  | [] => .ok []
  | first :: _ => zeroLoop g ts first ends

/-- `AllAliases` (src/properties.cpp:241-267). -/
def allAliases (g : IG) (names : List Name) : List Nat → Res (List Violation)
  | [] => .ok []
  | v :: rest => do
    let b ← answerIs g v .REWRITE
    let here : List Violation :=
      if b then
        (rest.filter (fun u => names.contains (g.vtx u).query.name && !(g.vtx u).query.excluded.isSome)).map
          (fun u => .alias (g.vtx v).query.toStr (g.vtx u).query.toStr)
      else []
    let r ← allAliases g names rest
    .ok (here ++ r)

/-- `DMap` of `InfiniteDName`: record, size of the query name, printed query; keys are compared with
`ResourceRecord::operator==` and kept in insertion order. -/
abbrev DMap := List (RR × Nat × Str)

/-- `DMap.find`. -/
def DMap.find (m : DMap) (r : RR) : Option (Nat × Str) := (List.find? (fun e => r.eqv e.1) m).map (·.2)

/-- `DMap[rr] = x` for a present key. -/
def DMap.set (m : DMap) (r : RR) (x : Nat × Str) : DMap :=
  m.map (fun e => if r.eqv e.1 then (e.1, x) else e)

/-- Body of the innermost loop of `InfiniteDName` (src/properties.cpp:284-310): either the violation
(`inl`) or the new map. -/
def dnameStep (g : IG) (v : Nat) (m : DMap) (r : RR) : Res (Violation ⊕ DMap) :=
  let size := (g.vtx v).query.name.length
  let q := (g.vtx v).query.toStr
  match m.find r with
  | some (s, q1) =>
    if size ≥ s then do
      let used ← m.foldlM (fun acc e => do
        let x ← e.1.toStr
        .ok (acc ++ [x])) []
      .ok (.inl (.infiniteDname q1 q used))
    else .ok (.inr (m.set r (size, q)))
  | none => .ok (.inr (m ++ [(r, size, q)]))

/-- The two inner loops of `InfiniteDName` over all records of all answers of a node. -/
def dnameNode (g : IG) (v : Nat) : DMap → List RR → Res (Violation ⊕ DMap)
  | m, [] => .ok (.inr m)
  | m, r :: rs => do
    let x ← dnameStep g v m r
    match x with
    | .inl w => .ok (.inl w)
    | .inr m => dnameNode g v m rs

/-- `InfiniteDName` (src/properties.cpp:269-314), on the rest of the path. -/
def infiniteDnameLoop (g : IG) : DMap → List Nat → Res (List Violation)
  | _, [] => .ok []
  | m, v :: rest => do
    let b ← answerIs g v .REWRITE
    if b then do
      let x ← dnameNode g v m ((((g.vtx v).answer.getD []).map (·.rrs)).flatten)
      match x with
      | .inl w => .ok [w]
      | .inr m => infiniteDnameLoop g m rest
    else infiniteDnameLoop g m rest

/-- `InfiniteDName` (src/properties.cpp:269-314). -/
def infiniteDname (g : IG) (p : List Nat) : Res (List Violation) := infiniteDnameLoop g [] p

/-- `GetNSGlueRecords` (src/properties.cpp:22-35). -/
def nsGlue (rrs : List RR) : List RR × List RR :=
  (rrs.filter (fun r => r.type == .NS), rrs.filter (fun r => r.type == .A || r.type == .AAAA))

/-- The search for the last parent/child pair in `CheckDelegationConsistency`
(src/properties.cpp:333-347); `best` is the pair found so far. -/
def lastDelegation (g : IG) (name : Name) : Option (Nat × Nat) → List Nat → Res (Option (Nat × Nat))
  | best, [] => .ok best
  | best, v :: rest => do
    let b ← answerIs g v .REF
    match b, rest with
    | true, u :: _ =>
      match (g.vtx u).answer with
      | none => lastDelegation g name best rest
      | some [] => .ub
      | some (a :: _) =>
        if a.tag = .ANS ∧ a.types.has .NS ∧ a.rrs.length > 0 ∧ name = (g.vtx u).query.name then
          lastDelegation g name (some (v, u)) rest
        else lastDelegation g name best rest
    | _, _ => lastDelegation g name best rest

/-- The comparison in `CheckDelegationConsistency` (src/properties.cpp:348-394). -/
def compareDelegation (g : IG) (q : EC) (v u : Nat) : Res (List Violation) := do
  let pa ← g.answer0 v
  let ca ← g.answer0 u
  let p := nsGlue pa.rrs
  let c := nsGlue ca.rrs
  let different := match p.1, c.1 with
    | x :: _, y :: _ => x.name != y.name
    | _, _ => false
  if different then .ok []
  else
    let pglue := match c.1 with
      | y :: _ => p.2.filter (fun r => subDomainCheck y.name r.name)
      | [] => p.2
    .ok ((if differ p.1 c.1 then [.delegation q.toStr (g.vtx v).ns (g.vtx u).ns false] else []) ++
         (if differ pglue c.2 then [.delegation q.toStr (g.vtx v).ns (g.vtx u).ns true] else []))

/-- `CheckDelegationConsistency` (src/properties.cpp:316-402). -/
def delegationConsistency (g : IG) (p : List Nat) : Res (List Violation) :=
  match p with
  | v0 :: _ =>
    if p.length > 2 ∧ (g.vtx v0).ns = [] then do
      let q := (g.vtx v0).query
      let b ← lastDelegation g q.name none p
      match b with
      | none => .ok []
      | some (v, u) => compareDelegation g q v u
    else .ok []
  | [] => .ok []

/-- Loop of `CheckLameDelegation` (src/properties.cpp:419-438). -/
def lameLoop (g : IG) (q : EC) : List Nat → Res (List Violation)
  | [] => .ok []
  | v :: rest => do
    let b ← answerIs g v .REF
    match b, rest with
    | true, u :: _ =>
      match (g.vtx u).answer with
      | none => lameLoop g q rest
      | some [] => .ub
      | some (a :: _) => do
        let r ← lameLoop g q rest
        if a.tag = .REFUSED ∧ q.name = (g.vtx u).query.name then
          .ok (.lame q.toStr (g.vtx v).ns (g.vtx u).ns :: r)
        else .ok r
    | _, _ => lameLoop g q rest

/-- `CheckLameDelegation` (src/properties.cpp:404-446). -/
def lameDelegation (g : IG) (p : List Nat) : Res (List Violation) :=
  match p with
  | v0 :: _ =>
    if p.length > 2 ∧ (g.vtx v0).ns = [] then lameLoop g (g.vtx v0).query p else .ok []
  | [] => .ok []

/-- `DNAMESubstitutionExceedesLength` (src/properties.cpp:448-464); an empty path reads `p[-1]`. -/
def dnameLength (g : IG) (p : List Nat) : Res (List Violation) :=
  match p.head?, p.getLast? with
  | some v0, some v => do
    let b ← answerIs g v .YX
    .ok (if b then [.dnameLength (g.vtx v0).query.toStr (g.vtx v).query.toStr (g.vtx v).ns] else [])
  | _, _ => .ub

/-- `NameServerContact` (src/properties.cpp:466-487). -/
def nsContact (g : IG) (allowed : List Name) : List Nat → Res (List Violation)
  | [] => .ok []
  | v :: rest =>
    if (g.vtx v).ns ≠ [] ∧ !subDomainCheckAny allowed (stringToLabels (g.vtx v).ns) then do
      let a ← labelListToString allowed
      let r ← nsContact g allowed rest
      .ok (.nsContact (g.vtx v).query.toStr (g.vtx v).ns a :: r)
    else nsContact g allowed rest

/-- Loop of `NumberOfHops` (src/properties.cpp:501-509): the vector `nameServers`. -/
def hopServers (g : IG) : List Str → List Nat → Res (List Str)
  | acc, [] => .ok acc
  | acc, v :: rest =>
    if (g.vtx v).ns ≠ [] ∧ (acc.length = 0 ∨ some (g.vtx v).ns ≠ acc.getLast?) then do
      let _ ← g.answer0 v
      hopServers g (acc ++ [(g.vtx v).ns]) rest
    else hopServers g acc rest

/-- `NumberOfHops` (src/properties.cpp:489-518).  `nameServers.size() > num_hops` compares as unsigned, so a
negative bound is never exceeded. -/
def hops (g : IG) (n : Int) (p : List Nat) : Res (List Violation) := do
  let s ← hopServers g [] p
  if 0 ≤ n ∧ (s.length : Int) > n then
    match p with
    | [] => .ub
    | v0 :: _ => .ok [.hops (g.vtx v0).query.toStr s.length n]
  else .ok []

/-- Loop of `NumberOfRewrites` (src/properties.cpp:531-541). -/
def rewriteCount (g : IG) : List Nat → Res Nat
  | [] => .ok 0
  | v :: rest =>
    if (g.vtx v).ns ≠ [] then do
      let a ← g.answer0 v
      let r ← rewriteCount g rest
      .ok (if a.tag = .REWRITE then r + 1 else r)
    else rewriteCount g rest

/-- `NumberOfRewrites` (src/properties.cpp:520-551). -/
def rewrites (g : IG) (n : Int) (p : List Nat) : Res (List Violation) := do
  let c ← rewriteCount g p
  if (c : Int) > n then
    match p with
    | [] => .ub
    | v0 :: _ => .ok [.rewrites (g.vtx v0).query.toStr c n]
  else .ok []

/-- `QueryRewrite` (src/properties.cpp:553-584). -/
def queryRewrite (g : IG) (domain : List Name) : List Nat → Res (List Violation)
  | [] => .ok []
  | v :: rest => do
    let b ← answerIs g v .REWRITE
    match b, rest with
    | true, u :: _ =>
      if !subDomainCheckAny domain (g.vtx u).query.name then do
        let a ← labelListToString domain
        let r ← queryRewrite g domain rest
        .ok (.queryRewrite (g.vtx v).query.toStr (g.vtx u).query.toStr (g.vtx v).ns a :: r)
      else queryRewrite g domain rest
    | _, _ => queryRewrite g domain rest

/-- Loop of `RewriteBlackholing` (src/properties.cpp:597-631); `last` is the last node of the path. -/
def blackholeLoop (g : IG) (last : Nat) : List Nat → Res (List Violation)
  | [] => .ok []
  | v :: rest => do
    let b ← answerIs g v .REWRITE
    if b then
      if rest.length > 0 then do
        let a ← g.answer0 last
        .ok (if a.tag = .NX then
              [.blackhole (g.vtx v).query.toStr (g.vtx last).query.toStr (g.vtx last).ns] else [])
      else .ok []
    else blackholeLoop g last rest

/-- `RewriteBlackholing` (src/properties.cpp:586-632). -/
def blackholing (g : IG) (p : List Nat) : Res (List Violation) :=
  match p.getLast? with
  | none => .ok []
  | some last => blackholeLoop g last p

end Check

/-- The path functions installed by `SetJob` (src/driver.cpp:271-372, 390-425). -/
inductive PathFn where
  | hops (n : Int)
  | rewrites (n : Int)
  | delegation
  | infiniteDname
  | lame
  | queryRewrite (allowed : List Name)
  | nsContact (allowed : List Name)
  | blackholing
  | allAliases (names : List Name)
  | dnameLength
  /-- `Hops` or `Rewrites` with a value that is not a number an `int` can hold: the value is kept as JSON and converted when the check is called
  (src/driver.cpp:272-284), which throws, or is undefined for a floating-point number out of range -/
  | misfit (undefined : Bool)
  deriving Repr, DecidableEq

/-- The end-node functions installed by `SetJob` (src/driver.cpp:236-264, 360-367). -/
inductive NodeFn where
  | consistency (ts : TypeSet)
  | returned (ts : TypeSet)
  | value (ts : TypeSet) (values : List Str)
  | zeroTTL (ts : TypeSet)
  deriving Repr, DecidableEq

/-- Apply a path function. -/
def PathFn.run (g : IG) (p : List Nat) : PathFn → Res (List Violation)
  | .hops n => Check.hops g n p
  | .rewrites n => Check.rewrites g n p
  | .delegation => Check.delegationConsistency g p
  | .infiniteDname => Check.infiniteDname g p
  | .lame => Check.lameDelegation g p
  | .queryRewrite d => Check.queryRewrite g d p
  | .nsContact d => Check.nsContact g d p
  | .blackholing => Check.blackholing g p
  | .allAliases d => Check.allAliases g d p
  | .dnameLength => Check.dnameLength g p
  | .misfit undefined => if undefined then .ub else .throw

/-- Apply an end-node function. -/
def NodeFn.run (g : IG) (ends : List Nat) : NodeFn → Res (List Violation)
  | .consistency ts => Check.responseConsistency g ts ends
  | .returned ts => Check.responseReturned g ts ends
  | .value ts v => Check.responseValue g ts v ends
  | .zeroTTL ts => Check.zeroTTL g ts ends

/-- Concatenate the results of a monadic map. -/
def concatM {α β : Type} (f : α → Res (List β)) : List α → Res (List β)
  | [] => .ok []
  | x :: xs => do
    let a ← f x
    let b ← concatM f xs
    .ok (a ++ b)

/-- `CheckPropertiesOnEC` (src/interpretation-graph.cpp:509-519).  The C++ applies the path functions while
enumerating; since they only read the graph and append to the queue, applying them to the enumerated paths
in order is the same. -/
def checkProperties (fuel : Nat) (g : IG) (pf : List PathFn) (nf : List NodeFn) : Res (List Violation) := do
  let s ← g.enumerate fuel 0 [] {}
  let a ← concatM (fun p => concatM (PathFn.run g p) pf) s.paths
  let b ← concatM (NodeFn.run g s.ends) nf
  .ok (a ++ b)

/-- `ECTask::Process` (src/ec-task.cpp:9-21): the violations enqueued and (vertices, edges). -/
def processEC (fuel thr : Nat) (ctx : Context) (pf : List PathFn) (nf : List NodeFn) (q : EC) :
    Res (List Violation × Nat × Nat) := do
  let g ← buildIG fuel thr ctx q
  let l ← g.checkLoops fuel 0 []
  let v ← checkProperties fuel g pf nf
  .ok (l.toList ++ v, g.verts.length, g.edges.length)

end Groot
