import Verif.Spec.Labels
import Verif.Spec.Checks

/-!
# Specification of the structural delegation check

At a name `n`, the zones holding records of `n` are compared: the ones with an SOA record at `n` are the children; among
the others, the ones with the longest origin are the parents.
-/

namespace Groot.Spec

/-- The label graph built from `xs` goes with the loaded zones: each entry is a record of the zone it names, stored at the
vertex it names; every record of a zone is there; and the server of each zone is known. -/
structure Registered (ctx : Context) (w : World) (xs : List (RR × Nat × Nat)) : Prop where
  stored : ∀ x ∈ xs, x.1 ∈ w.log x.2.1
  all : ∀ id, ∀ r ∈ w.log id, ∃ v, (r, id, v) ∈ xs
  vertex : ∀ x ∈ xs, ∃ z, ctx.zones.lookup x.2.1 = some z ∧ ∃ thr, z.ancestor thr x.1.name = (x.2.2, x.1.name.length)
  server : ∀ x ∈ xs, ctx.zoneNs.lookup x.2.1 ≠ none

/-- The elements of a list in order of first appearance. -/
def firsts {α : Type} [DecidableEq α] (l : List α) : List α := l.foldl (fun acc x => if x ∈ acc then acc else acc ++ [x]) []

/-- The zones holding records of `n`, in loading order. -/
def zonesWith (xs : List (RR × Nat × Nat)) (n : Name) : List Nat :=
  firsts ((xs.filter (fun x => decide (x.1.type ≠ .N ∧ x.1.name = n))).map (·.2.1))

/-- All pairs of an earlier and a later element. -/
def pairsOf {α : Type} : List α → List (α × α)
  | [] => []
  | x :: xs => xs.map (fun y => (x, y)) ++ pairsOf xs

section
variable (w : World) (n : Name) (ids : List Nat)

/-- The zones whose apex is `n`. -/
def childZones : List Nat := ids.filter (fun id => decide (HasType (w.log id) n .SOA))

/-- The other zones. -/
def outerZones : List Nat := ids.filter (fun id => decide (¬ HasType (w.log id) n .SOA))

/-- Those of them with the longest origin. -/
def parentZones : List Nat :=
  (outerZones w n ids).filter (fun id => decide (∀ j ∈ outerZones w n ids, (w.origin j).length ≤ (w.origin id).length))

/-- The addresses a zone holds for the servers it names for `n`. -/
def addressesFor (id : Nat) : List RR := (nsAt (w.log id) n).flatMap (glueFor (w.log id))

/-- The child needs glue for at least one of its servers. -/
def NeedsGlue (id : Nat) : Prop := ∃ r ∈ nsAt (w.log id) n, AtOrBelow (w.origin id) (stringToLabels r.rdata)

instance (id : Nat) : Decidable (NeedsGlue w n id) := by unfold NeedsGlue; infer_instance

/-- The parent's glue, without addresses of servers outside the child if there is a child. -/
def parentGlue (id : Nat) : List RR :=
  (addressesFor w n id).filter (fun r => decide (childZones w n ids = [] ∨ AtOrBelow n r.name))

/-- The child's glue. -/
def childGlue (id : Nat) : List RR := if NeedsGlue w n id then addressesFor w n id else []

/-- Two zones to be compared, with the NS records and the glue to compare (glue is left out if the child needs none). -/
structure Comparison where
  roleA : String
  roleB : String
  a : Nat
  b : Nat
  ns : List RR × List RR
  glue : Option (List RR × List RR)

/-- Every parent with every child, the parents among each other, the children among each other. -/
def comparisons : List Comparison :=
  (parentZones w n ids).flatMap (fun p => (childZones w n ids).map (fun c =>
    ⟨"parent", "child", p, c, (nsAt (w.log p) n, nsAt (w.log c) n),
      if NeedsGlue w n c then some (parentGlue w n ids p, addressesFor w n c) else none⟩)) ++
  (pairsOf (parentZones w n ids)).map (fun x =>
    ⟨"parent-a", "parent-b", x.1, x.2, (nsAt (w.log x.1) n, nsAt (w.log x.2) n), some (parentGlue w n ids x.1, parentGlue w n ids x.2)⟩) ++
  (pairsOf (childZones w n ids)).map (fun x =>
    ⟨"child-a", "child-b", x.1, x.2, (nsAt (w.log x.1) n, nsAt (w.log x.2) n), some (childGlue w n x.1, childGlue w n x.2)⟩)

end

/-- The two zones agree. -/
def Comparison.Agrees (c : Comparison) : Prop := SameRecords c.ns.1 c.ns.2 ∧ ∀ g ∈ c.glue, SameRecords g.1 g.2

instance (c : Comparison) : Decidable c.Agrees := by
  unfold Comparison.Agrees
  infer_instance

/-- How a disagreement is written down: the roles, the servers, the common and the exclusive records of either side. -/
def Comparison.report (server : Nat → Str) (c : Comparison) : PairDiff :=
  let strs := fun (x : List RR × List RR) => showSplit x.1 x.2
  { roleA := c.roleA.toList, roleB := c.roleB.toList, serverA := server c.a, serverB := server c.b, nsDiff := strs c.ns, glueDiff := c.glue.map strs }

end Groot.Spec

namespace Groot
open Spec

/-- The zones know where they are: a zone with an SOA at `n` has origin `n`; the others have an origin above. -/
def InZones (w : World) (n : Name) (ids : List Nat) : Prop :=
  ∀ id ∈ ids, (HasType (w.log id) n .SOA → w.origin id = n) ∧ (¬ HasType (w.log id) n .SOA → w.origin id ≠ [] ∧ AtOrBelow (w.origin id) n)

end Groot
