import Mathlib.Logic.Relation
import Verif.Spec.Members
import Verif.Spec.Checks
import Verif.Spec.Labels
import Verif.Model.Driver

/-!
# Specification of verdicts: what happens while one name is resolved

A trail is a sequence of resolution steps starting from the question itself.  Nothing here mentions interpretation graphs,
equivalence classes or the label graph.
-/

namespace Groot.Spec

/-- A sequence of resolution steps: each with the server asked, the question put to it, and the address question (if any). -/
abbrev Trail := List (Str × Ask × Option Ask)

/-- The resolver with the question, then each server with the question put to it. -/
def visited (a0 : Ask) (p : Trail) : List (Str × Ask) := ([], a0) :: p.map (fun x => (x.1, x.2.1))

/-- The resolution of a question, without repeating itself, to a point from which no step leads on. -/
structure Complete (w : World) (a0 : Ask) (p : Trail) : Prop where
  route : Route w [] a0 p
  simple : (visited a0 p).Nodup
  ended : ∀ x, (visited a0 p).getLast? = some x → ∀ s' a' sd, ¬ Step w x.1 x.2 s' a' sd

/-- The (first) answer of the server to the question is of the given kind. -/
def Kind (w : World) (s : Str) (a : Ask) (t : Tag) : Prop := ∃ x as, Says w s a (x :: as) ∧ x.tag = t

/-- The server rewrites the question with the record. -/
def RewrittenWith (w : World) (s : Str) (a : Ask) (r : RR) : Prop := ∃ x as, Says w s a (x :: as) ∧ x.tag = .REWRITE ∧ r ∈ x.rrs

/-- The number of servers contacted one after the other, counting repeated contacts once. -/
def hopsOf (p : Trail) : Nat := runs (p.map (·.1))

open Classical in
/-- The number of steps answered by a rewriting. -/
noncomputable def rewritesOf (w : World) (p : Trail) : Nat := (p.filter (fun x => decide (Kind w x.1 x.2.1 .REWRITE))).length

/-- The resolution rewrites the question and then ends in a denial by the server `s`. -/
def Blackholed (w : World) (p : Trail) (s : Str) : Prop :=
  ∃ pre y, p = pre ++ [y] ∧ (∃ x ∈ pre, Kind w x.1 x.2.1 .REWRITE) ∧ Kind w y.1 y.2.1 .NX ∧ y.1 = s

/-- Some server rewrites the question to a name outside the domains. -/
def RewrittenAway (w : World) (ds : List Name) (p : Trail) (s : Str) : Prop :=
  ∃ pre x y post, p = pre ++ x :: y :: post ∧ x.1 = s ∧ Kind w x.1 x.2.1 .REWRITE ∧ Outside ds y.2.1.name

/-- A server whose name lies outside the domains is contacted. -/
def ContactedAway (ds : List Name) (p : Trail) (s : Str) : Prop := ∃ x ∈ p, x.1 = s ∧ Outside ds (stringToLabels s)

/-- The names a job is about: the domain; with subdomains, everything at or below it (up to 252 bytes). -/
def InScope (job : Job) (m : Name) : Prop :=
  if job.subdomains then AtOrBelow (stringToLabels job.domain) m ∧ octets m < 253 else m = stringToLabels job.domain

/-- Putting the question `b` to `s'` is the next thing done, or is needed, after putting `a` to `s`. -/
def Needs (w : World) (x y : Str × Ask) : Prop :=
  (∃ sd, Step w x.1 x.2 y.1 y.2 sd) ∨ ∃ s' a', Step w x.1 x.2 s' a' (some y.2) ∧ y.1 = []

/-- Resolving the question can come back to where it has been. -/
def Circular (w : World) (a0 : Ask) : Prop :=
  ∃ x, Relation.ReflTransGen (Needs w) ([], a0) x ∧ Relation.TransGen (Needs w) x x

/-- Some type other than CNAME is requested. -/
def AsksOther (ts : TypeSet) : Prop := ∃ t, t ≠ .CNAME ∧ Member ts t

end Groot.Spec
