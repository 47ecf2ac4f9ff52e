import Verif.Spec.Json

/-!
# Where the strings of a violation come from
-/

namespace Groot.Spec

/-- All strings of a pair satisfy `S`; its roles are among those written by the program. -/
def CleanPair (S : Str → Prop) (p : PairDiff) : Prop :=
  (p.roleA, p.roleB) ∈ roles ∧ S p.serverA ∧ S p.serverB ∧
    (∀ s ∈ p.nsDiff.1 ++ p.nsDiff.2.1 ++ p.nsDiff.2.2, S s) ∧ ∀ g, p.glueDiff = some g → ∀ s ∈ g.1 ++ g.2.1 ++ g.2.2, S s

/-- All strings of a violation satisfy `S`. -/
def Clean (S : Str → Prop) : Violation → Prop
  | .loop ns => ∀ n ∈ ns, S n.ns ∧ S n.query
  | .responseReturned q t ns => S q ∧ S t ∧ S ns
  | .responseValue e ms => S e ∧ ∀ m ∈ ms, S m.1 ∧ S m.2.1 ∧ S m.2.2
  | .responseConsistency q => S q
  | .zeroTTL q ns r => S q ∧ S ns ∧ S r
  | .alias q c => S q ∧ S c
  | .infiniteDname q1 q2 used => S q1 ∧ S q2 ∧ ∀ r ∈ used, S r
  | .delegation q n1 n2 _ => S q ∧ S n1 ∧ S n2
  | .lame q n1 n2 => S q ∧ S n1 ∧ S n2
  | .dnameLength q t ns => S q ∧ S t ∧ S ns
  | .nsContact q ns a => S q ∧ S ns ∧ S a
  | .hops q _ _ => S q
  | .rewrites q _ _ => S q
  | .queryRewrite q t ns a => S q ∧ S t ∧ S ns ∧ S a
  | .blackhole q t ns => S q ∧ S t ∧ S ns
  | .structural d pairs => S d ∧ ∀ p ∈ pairs, CleanPair S p
  | .allAliases gs => ∀ g ∈ gs, S g.1 ∧ ∀ a ∈ g.2, S a

/-- Only ASCII characters. -/
def Ascii (s : Str) : Prop := ∀ c ∈ s, c.toNat < 128

end Groot.Spec
