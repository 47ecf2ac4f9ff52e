import Verif.Spec.Outcome

/-!
# Specification of final answers: where the resolution of one name ends

Nothing here mentions classes, interpretation graphs or paths without repetition.
-/

namespace Groot.Spec

/-- The resolution of `a0` can end at the visit `x`: a sequence of steps leads there, the server answers what `x` says, and either no step leads
on or the answer is an alias that was asked for. -/
structure Ending (w : World) (a0 : Ask) (x : Visit) : Prop where
  route : ∃ p side, Route w [] a0 (p ++ [(x.server, x.ask, side)])
  answers : Says w x.server x.ask x.said
  ended : (∀ s' a' side, ¬ Step w x.server x.ask s' a' side) ∨ x.Stops

/-- Below the longest known part of the name there is no wildcard, in a job that covers the subdomains of a known domain: nothing is
expected at such a name, and the program asks for all types there. -/
def Unexpected (job : Job) (rs : List RR) (m : Name) : Prop :=
  job.subdomains = true ∧ Known rs (stringToLabels job.domain) ∧
    ∃ n l rest, m = n ++ l :: rest ∧ Known rs n ∧ ¬ Known rs (n ++ [l]) ∧ ¬ Known rs (n ++ [['*']])

open Classical in
/-- The question about the name: for the types of the job, but for all types if the name is unexpected. -/
noncomputable def question (job : Job) (rs : List RR) (m : Name) : Ask := ⟨m, if Unexpected job rs m then ~~~0 else job.types, false⟩

end Groot.Spec
