import Verif.Model.Names

/-!
# Resource records, equivalence classes, record comparison
(src/resource-record.{h,cpp}, src/equivalence-class.{h,cpp}, src/utils.cpp, src/zone-graph.h)
-/

namespace Groot

/-- `class ResourceRecord` (src/resource-record.h:10-42). `ttl` is a `uint32_t`. -/
structure RR where
  name : Name
  type : RRType
  cls : Nat
  ttl : Nat
  rdata : Str
  deriving Repr, DecidableEq, Inhabited

/-- Constructor `ResourceRecord(name, type, class, ttl, rdata)` (src/resource-record.cpp:4-8). -/
def mkRR (name type : Str) (cls ttl : Nat) (rdata : Str) : RR :=
  { name := stringToLabels name, type := stringToType type, cls := cls, ttl := ttl, rdata := rdata }

/-- `ResourceRecord::operator==` (src/resource-record.cpp:10-17). -/
def RR.eqv (a b : RR) : Bool := a.name == b.name && a.rdata == b.rdata && a.type == b.type

/-- The string built by `ResourceRecord::toString` (src/resource-record.cpp:25-30) for a record of a
supported type. -/
def RR.str (r : RR) : Str :=
  labelsToString r.name ++ "   ".toList ++ typesToString (TypeSet.add 0 r.type) ++ "   ".toList ++ r.rdata

/-- `ResourceRecord::toString` (src/resource-record.cpp:25-30); `rrTypes.set(type_)` throws for the
unsupported type. -/
def RR.toStr (r : RR) : Res Str := if r.type = .N then .throw else .ok r.str

/-- `rrHash::operator()` (src/resource-record.h:47-57), without `int` overflow. -/
def rrHash (r : RR) : Nat :=
  ((r.name.foldl (fun (st : Nat × Nat) n => (st.1 + n.length * st.2, st.2 + 1)) (0, 1)).1) % 32

/-- `class EC` (src/equivalence-class.h:6-26). -/
structure EC where
  excluded : Option (List Label) := none
  name : Name := []
  types : TypeSet := 0
  nonExistent : Bool := false
  deriving Repr, DecidableEq, Inhabited

/-- `EC::operator==` (src/equivalence-class.cpp:16-31): neither the contents of `excluded` nor
`nonExistent` is compared. -/
def EC.eqv (a b : EC) : Bool :=
  if a.name ≠ b.name then false
  else if a.types ≠ b.types then false
  else if a.excluded.isSome && !b.excluded.isSome then false
  else if !a.excluded.isSome && b.excluded.isSome then false
  else true

/-- `EC::ToString` (src/equivalence-class.cpp:4-14). -/
def EC.toStr (q : EC) : Str :=
  (if q.excluded.isSome then "~{ }.".toList else []) ++ labelsToString q.name

/-- Inner loop of `RRUtils::CompareRRs` (src/utils.cpp:169-181): erase the first element of `b`
equal to `a`, if any. -/
def eraseFirst (a : RR) : List RR → Option (List RR)
  | [] => none
  | b :: bs => if a.eqv b then some bs else (eraseFirst a bs).map (b :: ·)

/-- `RRUtils::CompareRRs` (src/utils.cpp:161-186): (common, only in a, only in b). -/
def compareRRs : List RR → List RR → List RR × List RR × List RR
  | [], b => ([], [], b)
  | a :: as, b =>
    match eraseFirst a b with
    | some b' => let r := compareRRs as b'; (a :: r.1, r.2.1, r.2.2)
    | none => let r := compareRRs as b; (r.1, a :: r.2.1, r.2.2)

/-- `enum class ReturnTag` (src/zone-graph.h:12). -/
inductive Tag where
  | ANS | REWRITE | REF | NX | REFUSED | NSNOTFOUND | YX
  deriving Repr, DecidableEq, Inhabited

/-- `zone::LookUpAnswer` (src/zone-graph.h:37). -/
structure Answer where
  tag : Tag
  types : TypeSet
  rrs : List RR
  deriving Repr, DecidableEq, Inhabited

/-- `enum class RRAddCode` (src/zone-graph.h:22). -/
inductive AddCode where
  | SUCCESS | DUPLICATE | CNAME_MULTIPLE | DNAME_MULTIPLE | CNAME_OTHER
  deriving Repr, DecidableEq, Inhabited

end Groot
