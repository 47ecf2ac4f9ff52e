import Verif.Spec.Outcome

/-!
# Specification of delegations: which servers are consulted about a name, and what can be wrong with a delegation

Everything is said in terms of names, servers and the contents of zones.  Nothing here mentions questions, classes, answers,
graphs or paths.
-/

namespace Groot.Spec

/-- The server `s` refers those who ask for `n` to the server `t`: the best zone `s` has for `n` delegates `e`, at or above `n`,
and `t` is one of the servers named there. -/
def Refers (w : World) (n : Name) (s t : Str) : Prop :=
  ∃ id e, Best w s n id ∧ Encloser (w.log id) n e ∧ Cut (w.log id) e ∧ ∃ r ∈ nsAt (w.log id) e, r.rdata = t

/-- The servers consulted about the name: the top servers, and all to which a server consulted refers. -/
inductive Consulted (w : World) (n : Name) : Str → Prop where
  | top (s : Str) : s ∈ w.top → Consulted w n s
  | referred (s t : Str) : Consulted w n s → Refers w n s t → Consulted w n t

/-- A lame delegation: `s` refers to `t`, which has zone files (or is a top server) but none for the name. -/
def LameFor (w : World) (n : Name) (s t : Str) : Prop := Refers w n s t ∧ (w.Listed t ∨ t ∈ w.top) ∧ ¬ Encloses w t n

/-- The zone `id`, the best one of `s` for `n`, delegates `n` itself to `t`; and the zone `id'`, the best one of `t` for `n`, has its own
NS records at `n`. -/
structure Delegated (w : World) (n : Name) (s t : Str) (id id' : Nat) : Prop where
  parent : Best w s n id
  at_ : Encloser (w.log id) n n
  cut : Cut (w.log id) n
  named : ∃ r ∈ nsAt (w.log id) n, r.rdata = t
  child : Best w t n id'
  at' : Encloser (w.log id') n n
  apex : HasType (w.log id') n .SOA
  own : HasType (w.log id') n .NS

/-- The addresses a zone holds for the servers it names at `n`. -/
def glueAt (log : List RR) (n : Name) : List RR := (nsAt log n).flatMap (glueFor log)

/-- The addresses requested at the name itself. -/
def ownAddresses (log : List RR) (n : Name) (ts : TypeSet) : List RR :=
  (recordsAt log n).filter (fun r => decide ((r.type = .A ∨ r.type = .AAAA) ∧ Member ts r.type))

/-- Parent and child name different servers for `n`. -/
def ServersDiffer (w : World) (n : Name) (id id' : Nat) : Prop := ¬ SameRecords (nsAt (w.log id) n) (nsAt (w.log id') n)

/-- What the parent says about addresses within `n` differs from what the child says when asked for `ts`. -/
def AddressesDiffer (w : World) (n : Name) (ts : TypeSet) (id id' : Nat) : Prop :=
  ¬ SameRecords ((glueAt (w.log id) n).filter (fun r => decide (AtOrBelow n r.name)))
    (ownAddresses (w.log id') n ts ++ glueAt (w.log id') n)

/-- The question `a` is put to the server `s` in the course of resolving `a0`. -/
def PutTo (w : World) (a0 : Ask) (s : Str) (a : Ask) : Prop := ∃ p side, Route w [] a0 (p ++ [(s, a, side)])

end Groot.Spec
