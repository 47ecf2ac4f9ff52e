/-!
# Basic data types of the model

Byte strings, outcomes of C++ evaluation, record types and type sets.
-/

namespace Groot

/-- C++ `std::string`.  Each `Char` stands for one byte (the model never looks at more than
equality of characters and ASCII case). -/
abbrev Str := List Char

/-- `NodeLabel` (src/node-label.h:36-50): a flyweight string; only its value matters. -/
abbrev Label := Str

/-- `vector<NodeLabel>`: a domain name, the label next to the root first (src/utils.cpp:76 reverses). -/
abbrev Name := List Label

/-- Outcome of evaluating a piece of C++.
* `exit`  : `exit(EXIT_FAILURE)` was called;
* `throw` : a C++ exception escapes (it is caught only in `main`, bin/groot.cpp:171-174);
* `ub`    : undefined behaviour (bad index, empty `optional`, dereferenced end iterator);
* `oof`   : not a C++ outcome: the model's recursion budget ran out.  Functions that recurse over cyclic
  graphs take a budget; the termination theorems show that this outcome does not occur once the budget is
  large enough. -/
inductive Res (α : Type) where
  | ok (a : α)
  | exit
  | throw
  | ub
  | oof
  deriving Repr, DecidableEq

namespace Res

/-- Sequencing: the first abnormal outcome wins. -/
def bind {α β : Type} (x : Res α) (f : α → Res β) : Res β :=
  match x with
  | ok a => f a
  | exit => exit
  | throw => throw
  | ub => ub
  | oof => oof

instance : Monad Res where
  pure := ok
  bind := bind

@[simp] theorem pure_eq {α : Type} (a : α) : (pure a : Res α) = ok a := rfl
@[simp] theorem ok_bind {α β : Type} (a : α) (f : α → Res β) : (ok a >>= f) = f a := rfl
@[simp] theorem exit_bind {α β : Type} (f : α → Res β) : ((exit : Res α) >>= f) = exit := rfl
@[simp] theorem throw_bind {α β : Type} (f : α → Res β) : ((throw : Res α) >>= f) = throw := rfl
@[simp] theorem ub_bind {α β : Type} (f : α → Res β) : ((ub : Res α) >>= f) = ub := rfl

@[simp] theorem oof_bind {α β : Type} (f : α → Res β) : ((oof : Res α) >>= f) = oof := rfl

/-- The outcome is a normal value. -/
def isOk {α : Type} : Res α → Bool
  | ok _ => true
  | _ => false

end Res

/-- `enum RRType` (src/resource-record.h:8).  `N` doubles as "number of types" and as the value for
an unknown type name. -/
inductive RRType where
  | A | NS | CNAME | DNAME | SOA | PTR | MX | TXT | AAAA | SRV | RRSIG | NSEC | SPF | N
  deriving Repr, DecidableEq, Inhabited

/-- The integer value of an `RRType` enumerator (src/resource-record.h:8). -/
def RRType.idx : RRType → Nat
  | .A => 0 | .NS => 1 | .CNAME => 2 | .DNAME => 3 | .SOA => 4 | .PTR => 5 | .MX => 6
  | .TXT => 7 | .AAAA => 8 | .SRV => 9 | .RRSIG => 10 | .NSEC => 11 | .SPF => 12 | .N => 13

/-- The 13 supported types in enumerator order. -/
def RRType.supported : List RRType :=
  [.A, .NS, .CNAME, .DNAME, .SOA, .PTR, .MX, .TXT, .AAAA, .SRV, .RRSIG, .NSEC, .SPF]

/-- `std::bitset<RRType::N>`. -/
abbrev TypeSet := BitVec 13

namespace TypeSet

/-- `bits[t]` read for a supported type (for `N` the C++ is undefined: callers check, see `getBit`). -/
def has (s : TypeSet) (t : RRType) : Bool := s.getLsbD t.idx

/-- The set with the single member `t` (empty for `N`). -/
def single (t : RRType) : TypeSet := BitVec.twoPow 13 t.idx

/-- `bits.set(t)` / `bits[t] = 1` for a supported type. -/
def add (s : TypeSet) (t : RRType) : TypeSet := s ||| single t

/-- `bits.reset(t)` for a supported type. -/
def remove (s : TypeSet) (t : RRType) : TypeSet := s &&& ~~~(single t)

/-- `std::bitset<13>::operator[](t)`: no bounds check, so index 13 (`N`) is undefined behaviour. -/
def getBit (s : TypeSet) (t : RRType) : Res Bool :=
  if t = .N then .ub else .ok (s.has t)

/-- `bits[t] = 1` through `operator[]`: index 13 is undefined behaviour. -/
def setBit (s : TypeSet) (t : RRType) : Res TypeSet :=
  if t = .N then .ub else .ok (s.add t)

/-- `bits.set(t)`: bounds checked, throws `std::out_of_range` for `N`. -/
def setChecked (s : TypeSet) (t : RRType) : Res TypeSet :=
  if t = .N then .throw else .ok (s.add t)

/-- `bits.count()`. -/
def count (s : TypeSet) : Nat := (RRType.supported.filter (fun t => s.has t)).length

end TypeSet

/-- `boost::to_lower` / `std::tolower` in the C locale on one byte. -/
def lowerChar (c : Char) : Char :=
  if 'A' ≤ c ∧ c ≤ 'Z' then Char.ofNat (c.toNat + 32) else c

/-- `boost::to_upper` in the C locale on one byte. -/
def upperChar (c : Char) : Char :=
  if 'a' ≤ c ∧ c ≤ 'z' then Char.ofNat (c.toNat - 32) else c

/-- `boost::to_lower(s)`. -/
def toLower (s : Str) : Str := s.map lowerChar

/-- `boost::to_upper(s)`. -/
def toUpper (s : Str) : Str := s.map upperChar

end Groot
