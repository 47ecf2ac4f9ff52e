import Verif.Model.Zone

/-!
# Context and violations (src/context.h and the JSON objects enqueued in src/properties.cpp)
-/

namespace Groot

/-- `struct Context` (src/context.h:6-13).  The unordered maps are association lists; the statistics map
`type_to_rr_count` is not modelled. -/
structure Context where
  nsZones : List (Str × List Nat) := []
  zoneNs : List (Nat × Str) := []
  top : List Str := []
  zones : List (Nat × Zone) := []
  counter : Nat := 0
  deriving Repr, Inhabited

/-- One element of "Inconsistent Pairs" (src/label-graph.cpp:313-371). -/
structure PairDiff where
  roleA : Str
  roleB : Str
  serverA : Str
  serverB : Str
  nsDiff : List Str × List Str × List Str
  glueDiff : Option (List Str × List Str × List Str)
  deriving Repr, DecidableEq

/-- A node of a reported loop (src/interpretation-graph.cpp:300-305). -/
structure LoopNode where
  ns : Str
  query : Str
  tag : Option Tag
  deriving Repr, DecidableEq

/-- The JSON objects put on `json_queue`, one constructor per value of "Property"; the arguments are the
other fields. -/
inductive Violation where
  /-- src/interpretation-graph.cpp:296-308 -/
  | loop (nodes : List LoopNode)
  /-- src/properties.cpp:62-67 -/
  | responseReturned (query types ns : Str)
  /-- src/properties.cpp:11-19,119-122: mismatches are (found, query, nameserver) -/
  | responseValue (expected : Str) (mismatches : List (Str × Str × Str))
  /-- src/properties.cpp:194-197 -/
  | responseConsistency (query : Str)
  /-- src/properties.cpp:222-227 -/
  | zeroTTL (query ns record : Str)
  /-- src/properties.cpp:258-262 -/
  | alias (query canonical : Str)
  /-- src/properties.cpp:287-299.  "RRsUsed" lists the records used so far; its numbering follows the
  iteration order of an `unordered_map`, so the model keeps the list of records in insertion order. -/
  | infiniteDname (query1 query2 : Str) (used : List Str)
  /-- src/properties.cpp:377-392; `glue` is the "InconsistencyType". -/
  | delegation (query ns1 ns2 : Str) (glue : Bool)
  /-- src/properties.cpp:429-434 -/
  | lame (query ns1 ns2 : Str)
  /-- src/properties.cpp:456-461 -/
  | dnameLength (query target ns : Str)
  /-- src/properties.cpp:478-483 -/
  | nsContact (query ns allowed : Str)
  /-- src/properties.cpp:511-516 -/
  | hops (query : Str) (actual : Nat) (max : Int)
  /-- src/properties.cpp:544-549 -/
  | rewrites (query : Str) (actual : Nat) (max : Int)
  /-- src/properties.cpp:569-575 -/
  | queryRewrite (query target ns allowed : Str)
  /-- src/properties.cpp:604-609 -/
  | blackhole (query target ns : Str)
  /-- src/label-graph.cpp:306-310 -/
  | structural (domain : Str) (pairs : List PairDiff)
  /-- The grouped aliases inserted by the JSON consumer (src/driver.cpp:72-83). -/
  | allAliases (groups : List (Str × List Str))
  deriving Repr, DecidableEq

end Groot
