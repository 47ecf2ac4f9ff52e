import Verif.Spec.Driver
import Verif.Spec.Checks
import Verif.Spec.Concurrency

/-!
# Which violations a property of a job can be answered with
-/

namespace Groot.Spec

/-- The violation `v` answers the wish `want`. -/
inductive Fulfils : Wanted → Violation → Prop where
  /-- more hops than the bound, which is not negative -/
  | hops (n : Int) (q : Str) (k : Nat) (h0 : 0 ≤ n) (h : n < k) : Fulfils (.path (.hops n)) (.hops q k n)
  /-- more rewrites than the bound -/
  | rewrites (n : Int) (q : Str) (k : Nat) (h : n < k) : Fulfils (.path (.rewrites n)) (.rewrites q k n)
  | delegation (q a b : Str) (glue : Bool) : Fulfils (.path .delegation) (.delegation q a b glue)
  | infiniteDname (q1 q2 : Str) (used : List Str) (h : used ≠ []) : Fulfils (.path .infiniteDname) (.infiniteDname q1 q2 used)
  | lame (q a b : Str) : Fulfils (.path .lame) (.lame q a b)
  /-- the target is outside all the domains allowed, which are listed -/
  | queryRewrite (ds : List Name) (q ns : Str) (target : EC) (h : Outside ds target.name) :
      Fulfils (.path (.queryRewrite ds)) (.queryRewrite q (showQuery target) ns (printList ds))
  /-- the server is outside all the domains allowed, which are listed -/
  | nsContact (ds : List Name) (q ns : Str) (hns : ns ≠ []) (h : Outside ds (stringToLabels ns)) :
      Fulfils (.path (.nsContact ds)) (.nsContact q ns (printList ds))
  | blackholing (q t ns : Str) : Fulfils (.path .blackholing) (.blackhole q t ns)
  /-- the canonical name is one of those listed -/
  | «alias» (ds : List Name) (q : Str) (n : Name) (h : n ∈ ds) : Fulfils (.path (.allAliases ds)) (.alias q (present n))
  | dnameLength (q t ns : Str) : Fulfils (.path .dnameLength) (.dnameLength q t ns)
  | consistency (ts : TypeSet) (q : Str) : Fulfils (.node (.consistency ts)) (.responseConsistency q)
  /-- the types without a response are some of those listed -/
  | returned (ts ts' : TypeSet) (q ns : Str) (hns : ns ≠ []) (h : ∃ t, Member ts' t) (hs : ∀ t, Member ts' t → Member ts t) :
      Fulfils (.node (.returned ts)) (.responseReturned q (showTypes ts') ns)
  /-- the expected values are those listed, and there is a mismatch -/
  | value (ts : TypeSet) (vs : List Str) (ms : List (Str × Str × Str)) (h : ms ≠ []) : Fulfils (.node (.value ts vs)) (.responseValue vs.flatten ms)
  | zeroTTL (ts : TypeSet) (q ns r : Str) (hns : ns ≠ []) : Fulfils (.node (.zeroTTL ts)) (.zeroTTL q ns r)
  | structural (d : Str) (ps : List PairDiff) (h : ps ≠ []) : Fulfils .structural (.structural d ps)

/-- The violation answers a property of one of the jobs. -/
def Solicited (us : List UJob) (v : Violation) : Prop := ∃ u ∈ us, ∃ p ∈ u.properties, ∃ want, Asks p want ∧ Fulfils want v

/-- The violation groups aliases by canonical names that all were asked for by the AllAliases properties of one job. -/
def AliasesSolicited (us : List UJob) (v : Violation) : Prop :=
  ∃ groups u, v = .allAliases groups ∧ groups ≠ [] ∧ u ∈ us ∧ ∀ g ∈ groups, g.2 ≠ [] ∧ ∃ p ∈ u.properties, ∃ ds, Asks p (.path (.allAliases ds)) ∧
    ∃ n ∈ ds, g.1 = present n

/-- The violations a program run on the jobs `us` may report. -/
def Permitted (us : List UJob) (v : Violation) : Prop := (∃ ns, v = .loop ns) ∨ (Direct v ∧ Solicited us v) ∨ AliasesSolicited us v

end Groot.Spec
