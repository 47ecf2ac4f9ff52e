import Verif.Spec.Checks
import Mathlib.Data.List.Chain

/-! # Vocabulary for paths and cycles of an interpretation graph -/

namespace Groot.Spec

/-- A resolution step: an edge from `v` to `w`. -/
def Edge (g : IG) (v w : Nat) : Prop := ∃ e ∈ g.edges, e.src = v ∧ e.dst = w

/-- A dependency: an edge from `v` to `w`, or an edge of `v` whose side query starts at `w`. -/
def Dep (g : IG) (v w : Nat) : Prop := ∃ e ∈ g.edges, e.src = v ∧ (e.dst = w ∨ e.side = some w)

/-- `v` can be reached from `v0` by dependencies. -/
def Reaches (g : IG) (v0 v : Nat) : Prop := Relation.ReflTransGen (Dep g) v0 v

/-- A cycle: a non-empty list of nodes, each depending on the next and the last on the first. -/
def IsCycle (g : IG) (c : List Nat) : Prop := ∃ x r, c = x :: r ∧ List.IsChain (Dep g) (c ++ [x])

/-- A walk along resolution steps starting at `v0`. -/
def WalkFrom (g : IG) (v0 : Nat) (p : List Nat) : Prop := p.head? = some v0 ∧ List.IsChain (Edge g) p

/-- A maximal repetition-free path: it ends at a node without successors. -/
def MaximalPath (g : IG) (v0 : Nat) (p : List Nat) : Prop :=
  WalkFrom g v0 p ∧ p.Nodup ∧ ∃ l, p.getLast? = some l ∧ ∀ w, ¬ Edge g l w

/-- The node rewrites the query by a CNAME although CNAME is a requested type. -/
def CnameStop (g : IG) (v : Nat) : Prop :=
  Server g v ∧ Answers g v .REWRITE ∧ (∃ r rs, ansRecords g v = r :: rs ∧ r.type = .CNAME) ∧
    Member (g.vtx v).query.types .CNAME

/-- A walk to a CNAME rewrite, repetition-free except perhaps for its last node. -/
def CnamePath (g : IG) (v0 : Nat) (p : List Nat) : Prop :=
  WalkFrom g v0 p ∧ p.dropLast.Nodup ∧ ∃ l, p.getLast? = some l ∧ CnameStop g l

/-- Structural sanity of a graph: edges join existing nodes, no node has an empty answer vector, rewriting answers
contain a record. -/
structure Sane (g : IG) : Prop where
  src : ∀ e ∈ g.edges, e.src < g.verts.length
  dst : ∀ e ∈ g.edges, e.dst < g.verts.length
  side : ∀ e ∈ g.edges, ∀ s, e.side = some s → s < g.verts.length
  answers : ∀ v, (g.vtx v).answer ≠ some []
  rewrites : ∀ v, Answers g v .REWRITE → ansRecords g v ≠ []

/-- What a loop report shows of a node. -/
def shownNode (g : IG) (v : Nat) : LoopNode :=
  ⟨(g.vtx v).ns, showQuery (g.vtx v).query, (firstAns g v).map (·.tag)⟩

end Groot.Spec
