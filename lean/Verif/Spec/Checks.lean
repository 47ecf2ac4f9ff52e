import Verif.Spec.Names
import Verif.Model.Interp

/-!
# Vocabulary for the property checks

A path is a list of nodes of the interpretation graph; of a node only its server, its query and its answers are
used.
-/

namespace Groot.Spec

/-- The first answer of a node, if it has one. -/
def firstAns (g : IG) (v : Nat) : Option Answer := (g.vtx v).answer.bind List.head?

/-- The node's (first) answer is of the given kind. -/
def Answers (g : IG) (v : Nat) (t : Tag) : Prop := (firstAns g v).map (·.tag) = some t

instance (g : IG) (v : Nat) (t : Tag) : Decidable (Answers g v t) := by unfold Answers; infer_instance

/-- The records of the node's first answer. -/
def ansRecords (g : IG) (v : Nat) : List RR := ((firstAns g v).map (·.rrs)).getD []

/-- The node has been evaluated: a node of a real server has an answer, and answers are not empty vectors. -/
def Answered (g : IG) (v : Nat) : Prop :=
  (g.vtx v).answer ≠ some [] ∧ ((g.vtx v).ns ≠ [] → (g.vtx v).answer ≠ none)

/-- The node of a real server. -/
def Server (g : IG) (v : Nat) : Prop := (g.vtx v).ns ≠ []

instance (g : IG) (v : Nat) : Decidable (Server g v) := by unfold Server; infer_instance

/-- The nodes of a path with their successors. -/
def consecutive (p : List Nat) : List (Nat × Nat) := p.zip p.tail

/-- The number of maximal runs of equal elements. -/
def runs (l : List Str) : Nat :=
  if l = [] then 0 else 1 + ((l.zip l.tail).filter (fun x => decide (x.1 ≠ x.2))).length

/-- The servers contacted along a path. -/
def servers (g : IG) (p : List Nat) : List Str := (p.map (fun v => (g.vtx v).ns)).filter (fun s => decide (s ≠ []))

/-- The name lies under none of the domains. -/
def Outside (ds : List Name) (n : Name) : Prop := ∀ d ∈ ds, ¬ AtOrBelow d n

instance (ds : List Name) (n : Name) : Decidable (Outside ds n) := by unfold Outside; infer_instance

/-- How a list of domains is printed. -/
def printList (ds : List Name) : Str := ['['] ++ [',', ' '].intercalate (ds.map present) ++ [']']

/-- The node is asked for at least one of the types. -/
def AskedFor (g : IG) (v : Nat) (ts : TypeSet) : Prop :=
  ∃ t ∈ RRType.supported, Member (g.vtx v).query.types t ∧ Member ts t

instance (g : IG) (v : Nat) (ts : TypeSet) : Decidable (AskedFor g v ts) := by unfold AskedFor; infer_instance

/-- An end node whose answer counts: a server that is asked for a requested type and has information. -/
def Informative (g : IG) (ts : TypeSet) (v : Nat) : Prop :=
  Server g v ∧ AskedFor g v ts ∧ ¬ Answers g v .REFUSED ∧ ¬ Answers g v .NSNOTFOUND

instance (g : IG) (ts : TypeSet) (v : Nat) : Decidable (Informative g ts v) := by unfold Informative; infer_instance

/-- A path as the checks see it: it starts at a node without server and answer, and every later node is the node
of a real server with at least one answer. -/
def ResolutionPath (g : IG) (p : List Nat) : Prop :=
  ∃ v0 rest, p = v0 :: rest ∧ (g.vtx v0).ns = [] ∧ (g.vtx v0).answer = none ∧
    ∀ v ∈ rest, Server g v ∧ firstAns g v ≠ none

/-- The NS records of a list. -/
def nsOf (l : List RR) : List RR := l.filter (fun r => decide (r.type = .NS))

/-- The address records of a list. -/
def addressesOf (l : List RR) : List RR := l.filter (fun r => decide (r.type = .A ∨ r.type = .AAAA))

/-- The first NS records of the two lists, if any, belong to the same name. -/
def SameOwner (P C : List RR) : Prop := ∀ x ∈ P.head?, ∀ y ∈ C.head?, x.name = y.name

instance (P C : List RR) : Decidable (SameOwner P C) := by
  unfold SameOwner; cases P.head? <;> cases C.head? <;> simp <;> infer_instance

/-- The records lying in the domain that owns the NS records `C`. -/
def within (C l : List RR) : List RR :=
  match C with
  | [] => l
  | y :: _ => l.filter (fun r => decide (AtOrBelow y.name r.name))

instance (a b : List RR) : Decidable (SameRecords a b) := by unfold SameRecords; infer_instance

/-- Consecutive nodes `v`, `u`: `v` refers, and `u` answers the start name with NS records. -/
def Delegates (g : IG) (start : Name) (x : Nat × Nat) : Prop :=
  Answers g x.1 .REF ∧ Answers g x.2 .ANS ∧ (∃ a, firstAns g x.2 = some a ∧ Member a.types .NS) ∧
    ansRecords g x.2 ≠ [] ∧ (g.vtx x.2).query.name = start

instance (g : IG) (start : Name) (x : Nat × Nat) : Decidable (Delegates g start x) := by
  have : Decidable (∃ a, firstAns g x.2 = some a ∧ Member a.types .NS) :=
    match h : firstAns g x.2 with
    | none => isFalse (by simp)
    | some a => decidable_of_iff (Member a.types .NS) (by simp)
  unfold Delegates; infer_instance

/-- The value sets differ, or the name does not exist (or became too long) at an end node that was asked for a
requested type. -/
def WrongValue (g : IG) (ts : TypeSet) (values : List Str) (v : Nat) : Prop :=
  AskedFor g v ts ∧
    (Answers g v .NX ∨ Answers g v .YX ∨
      ((Answers g v .ANS ∨ Answers g v .REWRITE) ∧
        ¬ ∀ s, s ∈ values ↔ ∃ r ∈ ansRecords g v, Member ts r.type ∧ r.rdata = s))

/-- The parts of a node's answer that cover a requested type but have no records. -/
def missingTypes (g : IG) (ts : TypeSet) (v : Nat) : List Answer :=
  ((g.vtx v).answer.getD []).filter (fun a => decide (a.rrs = [] ∧ ∃ t ∈ RRType.supported, Member a.types t ∧ Member ts t))

/-- The informative end nodes, in order. -/
def informative (g : IG) (ts : TypeSet) (ends : List Nat) : List Nat :=
  ends.filter (fun v => decide (Informative g ts v))

/-- One use of a record by a rewriting node. -/
def uses (g : IG) (p : List Nat) : List (Nat × RR) :=
  (p.filter (fun v => decide (Answers g v .REWRITE))).flatMap (fun v =>
    (((g.vtx v).answer.getD []).flatMap (·.rrs)).map (fun r => (v, r)))

/-- Two uses of the same record with none in between, the later one for a name at least as long. -/
def Regrowth (g : IG) (us : List (Nat × RR)) (x y : Nat × RR) : Prop :=
  ∃ a b c, us = a ++ x :: b ++ y :: c ∧ key x.2 = key y.2 ∧ (∀ z ∈ b, key z.2 ≠ key y.2) ∧
    (g.vtx x.1).query.name.length ≤ (g.vtx y.1).query.name.length

/-- The records of these uses, each once. -/
def usedRecords (us : List (Nat × RR)) : List (Name × RRType × Str) := (us.map (fun z => key z.2)).eraseDups

end Groot.Spec
