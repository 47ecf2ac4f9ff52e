import Verif.Spec.File

/-!
# Specification of the statistics of loaded records ("RR Stats")

Every record offered by a zone file is counted once: under its type if it is kept, otherwise under the reason why it is not.  Kept records of
wildcards are counted under "Wildcard" as well.
-/

namespace Groot.Spec

/-- The counter of an over-long name. -/
def tooLongKey (n : Name) : Str :=
  if ∃ l ∈ n, 63 < l.length then "Label Length Exceeded".toList else "Domain Length Exceeded".toList

/-- The owner is a wildcard. -/
def OwnsWildcard (r : RR) : Prop := ∃ m : Name, r.name = m ++ ["*".toList]

instance (r : RR) : Decidable (OwnsWildcard r) :=
  decidable_of_iff (r.name ≠ [] ∧ r.name.getLast? = some "*".toList) (by
    unfold OwnsWildcard
    constructor
    · rintro ⟨h, e⟩
      rw [List.getLast?_eq_some_iff] at e
      exact e
    · rintro ⟨m, e⟩
      rw [e]
      simp)

/-- The counters of a record offered to a zone holding `log`. -/
def counters (log : List RR) (r : RR) : List Str :=
  if ¬ Short r.name then [tooLongKey r.name]
  else if Pointing r ∧ ¬ Short (stringToLabels r.rdata) then [tooLongKey (stringToLabels r.rdata)]
  else if ¬ Belongs log r then ["Out-of-Zone-Records".toList]
  else if Duplicate log r then ["Duplicate-Records".toList]
  else if ¬ Admissible log r then ["CNAME/DNAME Errors".toList]
  else typeText r.type :: (if OwnsWildcard r then ["Wildcard".toList] else [])

/-- The counters of all records offered to a zone holding `log`. -/
def countersFrom (log : List RR) : List (Nat × RR) → List Str
  | [] => []
  | (_, r) :: rs => counters log r ++ countersFrom (if refusal log r = none then log ++ [r] else log) rs

/-- The value of a counter; a counter that is not mentioned is zero. -/
def noted (m : List (Str × Nat)) (k : Str) : Nat := (m.lookup k).getD 0

/-- A table of counters: every key once, no counter is zero. -/
def Table (m : List (Str × Nat)) : Prop := (m.map (·.1)).Nodup ∧ ∀ e ∈ m, e.2 ≠ 0

/-- The text of the type of any record that can be loaded: DS is read, but is none of the supported types. -/
def typeField (t : RRType) : Str := if t = .N then "DS".toList else typeText t

end Groot.Spec
