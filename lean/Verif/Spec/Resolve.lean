import Verif.Spec.Zone
import Verif.Model.Interp
import Mathlib.Data.List.Forall2

/-!
# A small declarative model of name resolution

A world lists, for each server, the zones it hosts, and for each zone the records offered to it.  `Says` is what a
server answers, `Step` is one resolution step, `Reached` is what can be asked of whom in the course of resolving
a question.  Nothing here mentions interpretation graphs.
-/

namespace Groot.Spec

/-- A question: a name, the requested types, and whether it stands for the non-existent names below `name`
rather than for `name` itself. -/
structure Ask where
  name : Name
  types : TypeSet
  below : Bool
  deriving DecidableEq, Repr

/-- The question asked by a class. -/
def ask (q : EC) : Ask := ⟨q.name, q.types, q.excluded.isSome⟩

/-- A class asking a question. -/
def Ask.ec (a : Ask) : EC := { name := a.name, types := a.types, excluded := if a.below then some [] else none }

/-- A name within the DNS length limits. -/
def Short (n : Name) : Prop := (∀ l ∈ n, l.length ≤ 63) ∧ (present n).length ≤ 253

instance (n : Name) : Decidable (Short n) := by unfold Short; infer_instance

/-- Zones (the records offered to each, in order), the zones of each server, and the top servers. -/
structure World where
  zones : List (Nat × List RR)
  nsZones : List (Str × List Nat)
  top : List Str

/-- The records held by a zone. -/
def World.log (w : World) (id : Nat) : List RR := stored ((w.zones.lookup id).getD [])

/-- The zones of a server, in loading order. -/
def World.hosted (w : World) (s : Str) : List Nat := (w.nsZones.lookup s).getD []

/-- The server has (possibly empty) zone files. -/
def World.Listed (w : World) (s : Str) : Prop := w.nsZones.lookup s ≠ none

/-- The origin of a zone. -/
def World.origin (w : World) (id : Nat) : Name := soaOwner (w.log id)

/-- The context a program run works with holds exactly this world: each zone was made by offering it records of which it holds those
the world says. -/
def Represents (ctx : Context) (w : World) : Prop :=
  ctx.nsZones = w.nsZones ∧ ctx.top = w.top ∧
    ∃ (thr : Nat) (zones : List (Nat × List RR)), ctx.zones = zones.map (fun p => (p.1, Zone.afterAdds thr p.1 p.2)) ∧
      List.Forall₂ (fun p q => p.1 = q.1 ∧ stored p.2 = stored q.2) zones w.zones

/-- What resolution needs of a world: listed zones exist, records have supported types, no server has an empty name,
and the names of delegated-to servers are within the length limits. -/
structure WellFormed (w : World) : Prop where
  zones : ∀ s, ∀ id ∈ w.hosted s, w.zones.lookup id ≠ none
  supported : ∀ id, Supported (w.log id)
  top : ∀ s ∈ w.top, s ≠ []
  ns : ∀ id, ∀ r ∈ w.log id, r.type = .NS → r.rdata ≠ [] ∧ Short (stringToLabels r.rdata)

/-- The server hosts a zone that contains the name. -/
def Encloses (w : World) (s : Str) (n : Name) : Prop := ∃ id ∈ w.hosted s, AtOrBelow (w.origin id) n

instance (w : World) (s : Str) (n : Name) : Decidable (Encloses w s n) := by unfold Encloses; infer_instance

/-- The zone with the longest origin among those of the server that contain the name; the first one loaded
among equals. -/
def Best (w : World) (s : Str) (n : Name) (id : Nat) : Prop :=
  ∃ before after, w.hosted s = before ++ id :: after ∧ AtOrBelow (w.origin id) n ∧
    (∀ j ∈ before, AtOrBelow (w.origin j) n → (w.origin j).length < (w.origin id).length) ∧
    (∀ j ∈ after, AtOrBelow (w.origin j) n → (w.origin j).length ≤ (w.origin id).length)

/-- What a server answers to a question. -/
inductive Says (w : World) (s : Str) (a : Ask) : List Answer → Prop where
  /-- the name is over-long -/
  | tooLong : ¬ Short a.name → Says w s a [⟨.YX, a.types, []⟩]
  /-- the answer of its most specific zone -/
  | zone (id : Nat) (as : List Answer) : Short a.name → Best w s a.name id → Reply (w.log id) a.ec as → Says w s a as
  /-- it does not serve the name -/
  | refused : Short a.name → ¬ Encloses w s a.name → w.Listed s ∨ s ∈ w.top → Says w s a [⟨.REFUSED, a.types, []⟩]
  /-- nothing is known about the server -/
  | unknown : Short a.name → ¬ w.Listed s → Says w s a [⟨.NSNOTFOUND, a.types, []⟩]

/-- The question after following a CNAME or DNAME record. -/
inductive Rewritten (r : RR) (a a' : Ask) : Prop where
  | cname : r.type = .CNAME → a'.name = stringToLabels r.rdata →
      (∀ t, Member a'.types t ↔ Member a.types t ∧ t ≠ .CNAME) → a'.below = false → Rewritten r a a'
  | dname (rest : Name) : r.type = .DNAME → a.name = r.name ++ rest → a'.name = stringToLabels r.rdata ++ rest →
      a'.types = a.types → a'.below = a.below → Rewritten r a a'

/-- A referral supplies an address for the server. -/
def HasGlue (x : Answer) (r : RR) : Prop :=
  ∃ y ∈ x.rrs, y.name = stringToLabels r.rdata ∧ (y.type = .A ∨ y.type = .AAAA)

/-- The question for the addresses of a server. -/
def addressAsk (s : Str) : Ask := ⟨stringToLabels s, TypeSet.add (TypeSet.single .A) .AAAA, false⟩

/-- The address question a referral gives rise to, if any. -/
def sideAsk (w : World) (x : Answer) (r : RR) (side : Option Ask) : Prop :=
  (HasGlue x r ∨ r.rdata ∈ w.top) ∧ side = none ∨
  ¬ (HasGlue x r ∨ r.rdata ∈ w.top) ∧ side = some (addressAsk r.rdata)

/-- One resolution step: having asked `s` the question `a`, the resolver asks `s'` the question `a'`; for a referral
without glue it first asks `side`.  The empty server name stands for the resolver itself. -/
inductive Step (w : World) : Str → Ask → Str → Ask → Option Ask → Prop where
  /-- a fresh question goes to every top server -/
  | top (a : Ask) (s : Str) : s ∈ w.top → Step w [] a s a none
  /-- a rewritten question stays at the server if that server serves it, or if it cannot be asked at all -/
  | rewriteHere (s : Str) (a : Ask) (as : List Answer) (x : Answer) (r : RR) (a' : Ask) : s ≠ [] → Says w s a as →
      x ∈ as → x.tag = .REWRITE → r ∈ x.rrs → Rewritten r a a' → ¬ Short a'.name ∨ Encloses w s a'.name →
      Step w s a s a' none
  /-- otherwise it goes to every top server -/
  | rewriteTop (s : Str) (a : Ask) (as : List Answer) (x : Answer) (r : RR) (a' : Ask) (s' : Str) : s ≠ [] →
      Says w s a as → x ∈ as → x.tag = .REWRITE → r ∈ x.rrs → Rewritten r a a' → Short a'.name →
      ¬ Encloses w s a'.name → s' ∈ w.top → Step w s a s' a' none
  /-- a referral: the same question to each of the named servers -/
  | referral (s : Str) (a : Ask) (as : List Answer) (x : Answer) (r : RR) (side : Option Ask) : s ≠ [] →
      Says w s a as → x ∈ as → x.tag = .REF → r ∈ x.rrs → r.type = .NS → sideAsk w x r side →
      Step w s a r.rdata a side

/-- The questions asked while resolving `a0`, each with the server it is put to. -/
inductive Reached (w : World) (a0 : Ask) : Str → Ask → Prop where
  | start : Reached w a0 [] a0
  | step (s : Str) (a : Ask) (s' : Str) (a' : Ask) (side : Option Ask) : Reached w a0 s a → Step w s a s' a' side →
      Reached w a0 s' a'
  | side (s : Str) (a : Ask) (s' : Str) (a' b : Ask) : Reached w a0 s a → Step w s a s' a' (some b) →
      Reached w a0 [] b

end Groot.Spec
