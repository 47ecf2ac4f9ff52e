import Verif.Spec.Names
import Verif.Model.Zone

/-!
# Specification of zones

A zone is specified by the ordered list `log` of the records it has accepted.  Nothing here mentions graphs,
vertices or child maps.
-/

namespace Groot.Spec

/-- `r` repeats a record of the zone: same owner, type, TTL and data. -/
def Duplicate (log : List RR) (r : RR) : Prop :=
  ∃ x ∈ log, x.name = r.name ∧ x.type = r.type ∧ x.ttl = r.ttl ∧ x.rdata = r.rdata

/-- Some record of the zone with the owner of `r` has type `t`. -/
def HasType (log : List RR) (n : Name) (t : RRType) : Prop := ∃ x ∈ log, x.name = n ∧ x.type = t

/-- Some record of the zone has owner `n`. -/
def Owner (log : List RR) (n : Name) : Prop := ∃ x ∈ log, x.name = n

/-- `r` may be added: it is no duplicate, no CNAME meets another record, no second DNAME. -/
def Admissible (log : List RR) (r : RR) : Prop :=
  ¬ Duplicate log r ∧ ¬ HasType log r.name .CNAME ∧ ¬ (r.type = .CNAME ∧ Owner log r.name) ∧
    ¬ (r.type = .DNAME ∧ HasType log r.name .DNAME)

instance (log : List RR) (r : RR) : Decidable (Duplicate log r) := by unfold Duplicate; infer_instance
instance (log : List RR) (n : Name) (t : RRType) : Decidable (HasType log n t) := by
  unfold HasType; infer_instance
instance (log : List RR) (n : Name) : Decidable (Owner log n) := by unfold Owner; infer_instance
instance (log : List RR) (r : RR) : Decidable (Admissible log r) := by unfold Admissible; infer_instance

/-- The records kept out of a sequence of attempted additions. -/
def stored (rs : List RR) : List RR :=
  rs.foldl (fun log r => if Admissible log r then log ++ [r] else log) []

/-- The records with owner `n`, in order. -/
def recordsAt (log : List RR) (n : Name) : List RR := log.filter (fun r => decide (r.name = n))

/-- A name exists if it is the root or an ancestor-or-self of the owner of a record. -/
def NameExists (log : List RR) (n : Name) : Prop := n = [] ∨ ∃ r ∈ log, AtOrBelow n r.name

/-- The owner of the last SOA record. -/
def soaOwner (log : List RR) : Name :=
  (((log.filter (fun r => decide (r.type = .SOA))).getLast?).map (·.name)).getD []

/-- Only the 13 supported types occur. -/
def Supported (log : List RR) : Prop := ∀ r ∈ log, r.type ≠ .N

/-- No CNAME beside other data, no two DNAMEs, no duplicates. -/
def Exclusive (log : List RR) : Prop :=
  log.Pairwise (fun x y => x.name = y.name →
    x.type ≠ .CNAME ∧ y.type ≠ .CNAME ∧ ¬ (x.type = .DNAME ∧ y.type = .DNAME) ∧
    ¬ (x.type = y.type ∧ x.ttl = y.ttl ∧ x.rdata = y.rdata))

/-- An NS record that needs glue (its target lies in the zone) and has none. -/
def MissingGlue (log : List RR) (r : RR) : Prop :=
  r.type = .NS ∧ AtOrBelow (soaOwner log) (stringToLabels r.rdata) ∧
    ¬ ∃ x ∈ log, x.name = stringToLabels r.rdata ∧ (x.type = .A ∨ x.type = .AAAA)

/-! ### Authoritative look-up -/

/-- A delegation: NS records and no SOA. -/
def Cut (log : List RR) (n : Name) : Prop := HasType log n .NS ∧ ¬ HasType log n .SOA

/-- Everything strictly below `p` is hidden: `p` is a delegation or owns a DNAME. -/
def Covers (log : List RR) (p : Name) : Prop := p ≠ [] ∧ (Cut log p ∨ HasType log p .DNAME)

/-- `e` is where the search for `n` stops: the shortest covering ancestor-or-self if there is one, otherwise
the longest existing ancestor-or-self. -/
def Encloser (log : List RR) (n e : Name) : Prop :=
  AtOrBelow e n ∧ NameExists log e ∧
  (∀ p, AtOrBelow p e → p ≠ e → ¬ Covers log p) ∧
  (Covers log e ∨ e = n ∨ ∀ l, AtOrBelow (e ++ [l]) n → ¬ NameExists log (e ++ [l]))

/-- `ts` is the set of types of the records at `n`. -/
def TypesAt (log : List RR) (n : Name) (ts : TypeSet) : Prop :=
  ∀ t, Member ts t ↔ t ≠ .N ∧ HasType log n t

/-- Addresses of a server stored in the zone. -/
def glueFor (log : List RR) (r : RR) : List RR :=
  log.filter (fun x => decide (x.name = stringToLabels r.rdata ∧ (x.type = .A ∨ x.type = .AAAA)))

/-- NS records, each followed by its glue. -/
def withGlue (log : List RR) (ns : List RR) : List RR := ns.flatMap (fun r => r :: glueFor log r)

/-- The NS records at `n`. -/
def nsAt (log : List RR) (n : Name) : List RR := (recordsAt log n).filter (fun r => decide (r.type = .NS))

/-- The query is for exactly the name `n` (not for its non-existent children). -/
def ExactFor (q : EC) (n : Name) : Prop := q.name = n ∧ q.excluded = none

/-- The records at `n` of the requested types, as listed in an answer: for an exact match the NS records come
last, with their glue; from a wildcard they are listed in zone order. -/
def dataFor (log : List RR) (q : EC) (n : Name) (exact : Bool) : List RR :=
  if exact then
    (recordsAt log n).filter (fun r => decide (r.type ≠ .NS ∧ Member q.types r.type)) ++
      (if Member q.types .NS then withGlue log (nsAt log n) else [])
  else (recordsAt log n).filter (fun r => decide (Member q.types r.type))

/-- The answers for a set of requested types of which `found` occur. -/
def dataAnswers (found missing : TypeSet) (rrs : List RR) : List Answer :=
  (if found = 0 then [] else [⟨.ANS, found, rrs⟩]) ++ (if missing = 0 then [] else [⟨.ANS, missing, []⟩])

/-- The owner of the records used when nothing covers: the name itself for an exact match, the wildcard
otherwise. -/
def Source (log : List RR) (q : EC) (e m : Name) (exact : Bool) : Prop :=
  ¬ Cut log e ∧
  ((exact = true ∧ ExactFor q e ∧ m = e) ∨
   (exact = false ∧ ¬ ExactFor q e ∧ ¬ HasType log e .DNAME ∧ m = e ++ [['*']] ∧ NameExists log m))

/-- CNAME is the one and only requested type. -/
def OnlyCname (q : EC) : Prop := ∀ t, Member q.types t ↔ t = .CNAME

/-- What an authoritative server answers. -/
inductive Reply (log : List RR) (q : EC) : List Answer → Prop where
  /-- at or below a delegation: a referral -/
  | referral (e : Name) (ts : TypeSet) : Encloser log q.name e → Cut log e → TypesAt log e ts →
      Reply log q [⟨.REF, ts, withGlue log (nsAt log e)⟩]
  /-- below a DNAME: a rewrite -/
  | dname (e : Name) (ts : TypeSet) (r : RR) : Encloser log q.name e → ¬ Cut log e → ¬ ExactFor q e →
      r ∈ log → r.name = e → r.type = .DNAME → TypesAt log e ts →
      Reply log q [⟨.REWRITE, ts, [r]⟩]
  /-- a CNAME at the name or at the wildcard -/
  | cname (e m : Name) (exact : Bool) (ts : TypeSet) (r : RR) (tag : Tag) : Encloser log q.name e →
      Source log q e m exact → r ∈ log → r.name = m → r.type = .CNAME → TypesAt log e ts →
      (OnlyCname q ∧ tag = .ANS ∨ ¬ OnlyCname q ∧ tag = .REWRITE) →
      Reply log q [⟨tag, ts, [r]⟩]
  /-- data (or proof of its absence) at the name or at the wildcard -/
  | data (e m : Name) (exact : Bool) (found missing : TypeSet) : Encloser log q.name e →
      Source log q e m exact → ¬ HasType log m .CNAME →
      (∀ t, Member found t ↔ Member q.types t ∧ HasType log m t) →
      (∀ t, Member missing t ↔ Member q.types t ∧ ¬ HasType log m t) →
      Reply log q (dataAnswers found missing (dataFor log q m exact))
  /-- nothing there -/
  | nx (e : Name) : Encloser log q.name e → ¬ Cut log e → ¬ ExactFor q e → ¬ HasType log e .DNAME →
      ¬ NameExists log (e ++ [['*']]) →
      Reply log q [⟨.NX, q.types, []⟩]

end Groot.Spec

namespace Groot.Zone

/-- A zone built from nothing by a sequence of `AddResourceRecord` calls (accepted or not). -/
def afterAdds (thr id : Nat) (rs : List RR) : Zone :=
  rs.foldl (fun z r => (z.addRecord thr r).1) (Zone.init id)

/-- The records of `rs` for which `AddResourceRecord` returned SUCCESS, when they are added in turn. -/
def accepted (thr id : Nat) (rs : List RR) : List RR :=
  (rs.foldl (fun (st : Zone × List RR) r =>
    let x := st.1.addRecord thr r
    (x.1, if x.2.1 = .SUCCESS then st.2 ++ [r] else st.2)) (Zone.init id, [])).2

/-- What a caller can see at a name: the records of its vertex, if the name has one. -/
def seenAt (thr : Nat) (z : Zone) (n : Name) : List RR :=
  if (z.ancestor thr n).2 = n.length then z.rrsAt (z.ancestor thr n).1 else []

/-- The name has a vertex of its own. -/
def present (thr : Nat) (z : Zone) (n : Name) : Prop := (z.ancestor thr n).2 = n.length

end Groot.Zone
