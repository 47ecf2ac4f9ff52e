import Verif.Model.Main

/-!
# The statistics logged after each job (src/driver.cpp:86-112, 429-446)
-/

namespace Groot.Driver

/-- What the accumulator of `WriteStatsForAJob` (src/driver.cpp:435-446) holds: greatest and least sample (`none` if there was none: boost then
shows the least and the greatest `double`), their sum and their number (the mean is the quotient; `double`s represent these whole numbers exactly below
2^53).  The median, which boost estimates, is not modelled. -/
structure Summary where
  max : Option Nat := none
  min : Option Nat := none
  sum : Nat := 0
  count : Nat := 0
  deriving Repr, DecidableEq

/-- `acc(x)` (src/driver.cpp:436-437, 442). -/
def Summary.add (s : Summary) (x : Nat) : Summary where
  max := some (match s.max with | some m => if x > m then x else m | none => x)
  min := some (match s.min with | some m => if x < m then x else m | none => x)
  sum := s.sum + x
  count := s.count + 1

/-- `for_each(begin, end, ref(acc))` from an empty accumulator (src/driver.cpp:435-437, 441-442). -/
def summary (l : List Nat) : Summary := l.foldl Summary.add {}

/-- What `WriteStatsForAJob` (src/driver.cpp:429-446) logs. -/
structure JobStats where
  /-- "Number of ECs" -/
  ecs : Nat
  /-- "Interpretation Graph Vertices" -/
  vertices : Summary
  /-- "Interpretation Graph Edges" -/
  edges : Summary
  deriving Repr, DecidableEq

/-- `WriteStatsForAJob` (src/driver.cpp:429-446), from the tasks processed and what the collector of sizes has received (src/driver.cpp:91-97). -/
def jobStats (taken : List Task) (sizes : List (Nat × Nat)) : JobStats :=
  ⟨ecCount taken, summary (sizes.map (·.1)), summary (sizes.map (·.2))⟩

end Groot.Driver
