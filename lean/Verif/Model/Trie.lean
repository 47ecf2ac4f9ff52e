import Verif.Model.Records

/-!
# The two labelled graphs

`zone::Graph` and `label::Graph` are both `boost::adjacency_list<vecS, vecS, directedS, Vertex, ..>` with
a `vertex_to_child_map_` that speeds up the search among many children.  The functions `GetAncestor`,
`AddNodes` and `ConstructChildLabelsToVertexDescriptorMap` of the two classes are the same line for line,
except that `label::Graph` edges carry a type and only `normal` edges are tree edges.  They are modelled
once; in a zone graph every edge is `normal`.
-/

namespace Groot

/-- `label::EdgeType` (src/label-graph.h:29). -/
inductive EdgeType where
  | normal | dname
  deriving Repr, DecidableEq, Inhabited

/-- A vertex with its bundled properties and its out-edges in insertion order
(`zone::Vertex` src/zone-graph.h:24-35, `label::Vertex` src/label-graph.h:12-27). -/
structure Vtx (α : Type) where
  label : Label
  edges : List (EdgeType × Nat)
  data : α
  deriving Repr, DecidableEq, Inhabited

/-- Graph plus `vertex_to_child_map_` (src/zone-graph.h:46-51, src/label-graph.h:42-53,101-102).
Vertex descriptors are positions in `verts`; the root is vertex 0.  In the child maps, looking up the first
binding of a key models the hash map (a later assignment is consed in front). -/
structure Trie (α : Type) where
  verts : List (Vtx α)
  maps : List (Nat × List (Label × Nat))
  deriving Repr, DecidableEq, Inhabited

namespace Trie

variable {α : Type} [Inhabited α]

/-- `(*this)[v]`. Descriptors handed out by the graph are always in range (proved); out of range the
model reads a default vertex. -/
def vtx (g : Trie α) (v : Nat) : Vtx α := g.verts.getD v ⟨[], [], default⟩

/-- Replace the bundled property of a vertex. -/
def setData (g : Trie α) (v : Nat) (d : α) : Trie α :=
  { g with verts := g.verts.modify v (fun x : Vtx α => { x with data := d }) }

/-- Constructors `zone::Graph(int)` and `label::Graph()` (src/zone-graph.cpp:4-9,
src/label-graph.cpp:6-10): a single root vertex named ".". -/
def init (d : α) : Trie α := { verts := [⟨['.'], [], d⟩], maps := [] }

/-- The linear search over out-edges in `GetAncestor` (src/zone-graph.cpp:213-219,
src/label-graph.cpp:44-52): the first `normal` edge whose target is named `l`. -/
def childByEdges (g : Trie α) (v : Nat) (l : Label) : Option Nat :=
  ((g.vtx v).edges.find? (fun e => e.1 == EdgeType.normal && (g.vtx e.2).label == l)).map (·.2)

/-- `GetAncestor` (src/zone-graph.cpp:190-222, src/label-graph.cpp:23-55).  Instead of an index into
`labels` the model recurses on the labels not yet matched.  Result: the vertex reached, the number of labels
matched (`index`), and `vertices_to_create_maps`.  `thr` is `kHashMapThreshold`. -/
def getAncestor (thr : Nat) (g : Trie α) : Nat → List Label → Nat × Nat × List Nat
  | v, [] => (v, 0, [])
  | v, l :: ls =>
    match g.maps.lookup v with
    | some m =>
      match m.lookup l with
      | some u => let r := getAncestor thr g u ls; (r.1, r.2.1 + 1, r.2.2)
      | none => (v, 0, [])
    | none =>
      let c := if (g.vtx v).edges.length > thr then [v] else []
      match g.childByEdges v l with
      | some u => let r := getAncestor thr g u ls; (r.1, r.2.1 + 1, c ++ r.2.2)
      | none => (v, 0, c)

/-- `ConstructChildLabelsToVertexDescriptorMap` (src/zone-graph.cpp:171-179,
src/label-graph.cpp:12-21); `insert` does not overwrite an existing map. -/
def constructMap (g : Trie α) (v : Nat) : Trie α :=
  let m := (g.vtx v).edges.foldl
    (fun (m : List (Label × Nat)) e => if e.1 = .normal then ((g.vtx e.2).label, e.2) :: m else m) []
  match g.maps.lookup v with
  | some _ => g
  | none => { g with maps := g.maps ++ [(v, m)] }

/-- One iteration of `AddNodes` (src/zone-graph.cpp:47-61, src/label-graph.cpp:87-102). -/
def addNode (g : Trie α) (ce : Nat) (l : Label) : Trie α :=
  let u := g.verts.length
  { verts := (g.verts ++ [(⟨l, [], default⟩ : Vtx α)]).modify ce
      (fun x : Vtx α => { x with edges := x.edges ++ [(EdgeType.normal, u)] })
    maps := g.maps.map (fun km => if km.1 = ce then (km.1, (l, u) :: km.2) else km) }

/-- `AddNodes` (src/zone-graph.cpp:41-64, src/label-graph.cpp:80-105), on the labels from `index` on.
`boost::add_edge` on `vecS` always succeeds, so the `exit` branch is dead. -/
def addNodes (g : Trie α) (ce : Nat) : List Label → Trie α × Nat
  | [] => (g, ce)
  | l :: ls => addNodes (g.addNode ce l) g.verts.length ls

/-- The common prefix of both `AddResourceRecord`s (src/zone-graph.cpp:103-110,
src/label-graph.cpp:113-121): find the closest ancestor, create the requested child maps, add the missing
nodes; returns the graph and the node for `labels`. -/
def ensure (thr : Nat) (g : Trie α) (labels : Name) : Trie α × Nat :=
  let r := getAncestor thr g 0 labels
  let g := r.2.2.foldl constructMap g
  addNodes g r.1 (labels.drop r.2.1)

end Trie

/-- `kHashMapThreshold` (src/node-label.h:29). -/
def kHashMapThreshold : Nat := 500

end Groot
