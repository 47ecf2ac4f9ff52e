import Verif.Spec.Resolve
import Verif.Model.LabelGraph

/-!
# Specification of the label graph and of the generated classes

The label graph is specified by the list of the records put into it.  Nothing here mentions vertices, edges or scratch
fields.
-/

namespace Groot.Spec

/-- The label graph after adding records (each with a zone id and a vertex id) to the empty one. -/
def labelGraph (thr : Nat) (xs : List (RR × Nat × Nat)) : LGraph :=
  xs.foldl (fun g x => LGraph.addRecord thr g x.1 x.2.1 x.2.2) LGraph.init

/-- A known name: the root, or an ancestor-or-self of the owner of a supported record or of the target of a DNAME. -/
def Known (rs : List RR) (n : Name) : Prop :=
  n = [] ∨ ∃ r ∈ rs, r.type ≠ .N ∧ (AtOrBelow n r.name ∨ r.type = .DNAME ∧ AtOrBelow n (stringToLabels r.rdata))

instance (rs : List RR) (n : Name) : Decidable (Known rs n) := by unfold Known; infer_instance

/-- The node of a name: from the root, follow the tree edge to the node with the next label. -/
def nodeOf (g : LGraph) (n : Name) : Option Nat :=
  n.foldl (fun o l => o.bind (fun v => Trie.childByEdges g v l)) (some 0)

/-- The vertex of a name, by the tree edges from the root. -/
inductive TreePath (g : LGraph) : Name → Nat → Prop where
  | root : TreePath g [] 0
  | down (n : Name) (v u : Nat) (x y : Vtx LData) : TreePath g n v → g.verts[v]? = some x → (EdgeType.normal, u) ∈ x.edges → g.verts[u]? = some y →
      TreePath g (n ++ [y.label]) u

/-- A DNAME record redirects `n` to `t`. -/
def Alias (rs : List RR) (n t : Name) : Prop := ∃ r ∈ rs, r.type = .DNAME ∧ r.name = n ∧ stringToLabels r.rdata = t

/-- The known name `n` stands for the first `i` labels of the name looked for, following DNAMEs on the way. -/
inductive Matches (rs : List RR) (labels : Name) : Name → Nat → Prop where
  | root : Matches rs labels [] 0
  | down (n : Name) (i : Nat) (l : Label) : Matches rs labels n i → labels[i]? = some l → Known rs (n ++ [l]) →
      Matches rs labels (n ++ [l]) (i + 1)
  | redirect (n : Name) (i : Nat) (t : Name) : Matches rs labels n i → i < labels.length → Alias rs n t →
      Matches rs labels t i

/-- The known name `k` is visited under the query name `n` (`viaDname` if the last step followed a DNAME), starting
from the name `k0` visited under the query name `n0`. -/
inductive Visits (rs : List RR) (n0 k0 : Name) : Name → Name → Bool → Prop where
  | start : Visits rs n0 k0 n0 k0 false
  | down (n k : Name) (b : Bool) (l : Label) : Visits rs n0 k0 n k b → Known rs (k ++ [l]) →
      Visits rs n0 k0 (n ++ [l]) (k ++ [l]) false
  | redirect (n k : Name) (b : Bool) (t : Name) : Visits rs n0 k0 n k b → Alias rs k t → Visits rs n0 k0 n t true

/-- Number of bytes of the printed name (0 for the root). -/
def octets (n : Name) : Nat := (n.map (fun l => l.length + 1)).sum

/-- No label is a lone dot, and the root has no DNAME. -/
def Regular (rs : List RR) : Prop :=
  (∀ n, Known rs n → ['.'] ∉ n) ∧ (∀ t, ¬ Alias rs [] t)

/-- The names a class stands for, given the known names: its name; or the names strictly below whose next label is not
known there. -/
def Stands (rs : List RR) (q : EC) (m : Name) : Prop :=
  match q.excluded with
  | none => m = q.name
  | some _ => ∃ l rest, m = q.name ++ l :: rest ∧ ¬ Known rs (q.name ++ [l])

/-- The class of a single name. -/
def exactClass (n : Name) (ts : TypeSet) : EC := { name := n, types := ts }

/-- The class of the unknown names below `n`: with the requested types if there is a wildcard, otherwise all types,
marked non-existent. -/
def belowClass (wild : Prop) [Decidable wild] (n : Name) (ts : TypeSet) : EC :=
  if wild then { name := n, types := ts, excluded := some [] }
  else { name := n, types := ~~~0, excluded := some [], nonExistent := true }

/-- The classes among a list of tasks. -/
def classes (ts : List Task) : List EC := ts.filterMap (fun t => match t with | .ec q => some q | .structural _ _ => none)

/-- The zones (with vertex ids) holding supported records of a name, in order of first appearance. -/
def holders (xs : List (RR × Nat × Nat)) (n : Name) : List (Nat × Nat) :=
  ((xs.filter (fun x => decide (x.1.type ≠ .N ∧ x.1.name = n))).map (·.2)).foldl
    (fun acc p => if p ∈ acc then acc else acc ++ [p]) []

end Groot.Spec
