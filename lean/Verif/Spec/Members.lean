import Verif.Spec.Resolve

/-!
# Members of a class of unknown names, and sequences of resolution steps
-/

namespace Groot.Spec

/-- The question for one member of a class of unknown names: the name of the class extended by `l :: rest`.  Other
questions stay as they are. -/
def Ask.member (l : Label) (rest : Name) (a : Ask) : Ask :=
  if a.below then ⟨a.name ++ l :: rest, a.types, false⟩ else a

/-- The question `a` is asked, or is the result of a rewriting, in the course of resolving `a0`. -/
def Arises (w : World) (a0 a : Ask) : Prop :=
  (∃ s, Reached w a0 s a) ∨ ∃ s b as x r, Reached w a0 s b ∧ s ≠ [] ∧ Says w s b as ∧ x ∈ as ∧ x.tag = .REWRITE ∧ r ∈ x.rrs ∧
    Rewritten r b a

/-- The label `l` is new below the name of every class that arises, in every zone; and no member overflows. -/
def Fresh (w : World) (a0 : Ask) (l : Label) (rest : Name) : Prop :=
  ∀ a, Arises w a0 a → a.below = true → Short (a.name ++ l :: rest) ∧ ∀ id, ¬ NameExists (w.log id) (a.name ++ [l])

/-- A sequence of resolution steps: the servers asked one after the other, with the question and the address question
(if any). -/
inductive Route (w : World) : Str → Ask → List (Str × Ask × Option Ask) → Prop where
  | done (s : Str) (a : Ask) : Route w s a []
  | step (s : Str) (a : Ask) (s' : Str) (a' : Ask) (side : Option Ask) (p : List (Str × Ask × Option Ask)) :
      Step w s a s' a' side → Route w s' a' p → Route w s a ((s', a', side) :: p)

end Groot.Spec
