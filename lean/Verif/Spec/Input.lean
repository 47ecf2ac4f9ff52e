import Verif.Model.Input
import Mathlib.Data.List.Forall2

/-!
# What metadata.json and the job file say
-/

namespace Groot.Spec

open Driver

/-- The member `k` of an object. -/
def HasMember (j : JVal) (k : String) (v : JVal) : Prop := ∃ m, j = .obj m ∧ m.lookup k.toList = some v

/-- There is no member `k`. -/
def NoMember (j : JVal) (k : String) : Prop := ∀ m, j = .obj m → m.lookup k.toList = none

/-- The elements of a value that is used as a list: those of an array, the values of an object; null is the empty list, and anything else is a
list of one. -/
inductive Elements : JVal → List JVal → Prop where
  | null : Elements .null []
  | array (l : List JVal) : Elements (.arr l) l
  | object (m : List (Str × JVal)) : Elements (.obj m) (m.map (·.2))
  | one (j : JVal) (h1 : j ≠ .null) (h2 : ∀ l, j ≠ .arr l) (h3 : ∀ m, j ≠ .obj m) : Elements j [j]

/-- A list of strings. -/
def StringList (j : JVal) (l : List Str) : Prop := Elements j (l.map JVal.str)

/-- The number an `int` holds after the assignment of `n`: the same modulo 2^32. -/
def AsInt (n k : Int) : Prop := -2147483648 ≤ k ∧ k ≤ 2147483647 ∧ (4294967296 : Int) ∣ n - k

/-- What the value of a property is good for. -/
inductive ValueOf : JVal → UVal → Prop where
  | int (n k : Int) (h : AsInt n k) : ValueOf (.int n) (.int k)
  | true : ValueOf (.bool true) (.int 1)
  | false : ValueOf (.bool false) (.int 0)
  | float (n : Int) (h : -2147483648 ≤ n ∧ n ≤ 2147483647) : ValueOf (.flt n) (.int n)
  | huge (n : Int) (h : ¬ (-2147483648 ≤ n ∧ n ≤ 2147483647)) : ValueOf (.flt n) .huge
  | list (j : JVal) (l : List Str) (h : StringList j l) : ValueOf j (.strs l)
  | other (j : JVal) (h1 : ∀ l, ¬ StringList j l) (h2 : ∀ n, j ≠ .int n) (h3 : ∀ b, j ≠ .bool b) (h4 : ∀ n, j ≠ .flt n) : ValueOf j .other

/-- An element of "Properties". -/
structure PropOf (j : JVal) (p : UProp) : Prop where
  name : HasMember j "PropertyName" (.str p.name)
  types : (NoMember j "Types" ∧ p.types = none) ∨ ∃ t l, HasMember j "Types" t ∧ StringList t l ∧ p.types = some l
  value : (NoMember j "Value" ∧ p.value = .missing) ∨ ∃ v, HasMember j "Value" v ∧ ValueOf v p.value

/-- An element of the job file. -/
structure JobOf (j : JVal) (u : UJob) : Prop where
  domain : HasMember j "Domain" (.str u.domain)
  subdomain : HasMember j "SubDomain" (.bool u.subdomain)
  properties : ∃ v l, HasMember j "Properties" v ∧ Elements v l ∧ List.Forall₂ PropOf l u.properties

/-- The job file. -/
def JobsOf (j : JVal) (us : List UJob) : Prop := ∃ l, Elements j l ∧ List.Forall₂ JobOf l us

/-- An element of "ZoneFiles". -/
structure ZoneOf (j : JVal) (z : UZone) : Prop where
  file : ∃ f, HasMember j "FileName" (.str f) ∧ z.fileName = some f
  server : ∃ s, HasMember j "NameServer" (.str s) ∧ z.nameServer = some s
  origin : (NoMember j "Origin" ∧ z.origin = none) ∨ ∃ o, HasMember j "Origin" (.str o) ∧ z.origin = some o

/-- metadata.json. -/
structure MetaOf (j : JVal) (m : Meta) : Prop where
  top : ∃ v l, HasMember j "TopNameServers" v ∧ StringList v l ∧ m.topNameServers = some l
  files : ∃ v l zs, HasMember j "ZoneFiles" v ∧ Elements v l ∧ List.Forall₂ ZoneOf l zs ∧ m.zoneFiles = some zs

end Groot.Spec
