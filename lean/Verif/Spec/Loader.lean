import Verif.Spec.Structural
import Verif.Model.Parser

/-!
# Specification of loading zone files

A file offers records to a new zone, one after the other.  Nothing here mentions tokens, vertices or maps.
-/

namespace Groot.Spec

/-- The data of the record is a domain name to be followed. -/
def Pointing (r : RR) : Prop := r.type = .NS ∨ r.type = .CNAME ∨ r.type = .DNAME

/-- The owner and the target are within the length limits; the target of a delegation is not empty. -/
structure Fit (r : RR) : Prop where
  owner : Short r.name
  target : Pointing r → Short (stringToLabels r.rdata)
  ns : r.type = .NS → r.rdata ≠ []

/-- The record belongs to a zone holding `log`: the zone has no origin yet and the record is an SOA, or the record lies at
or below the origin. -/
def Belongs (log : List RR) (r : RR) : Prop :=
  (r.type = .SOA ∧ soaOwner log = []) ∨ (soaOwner log ≠ [] ∧ AtOrBelow (soaOwner log) r.name)

/-- Every record offered belongs to the zone as it is at that moment. -/
def InOrder (rs : List RR) : Prop := ∀ pre r post, rs = pre ++ r :: post → Belongs (stored pre) r

end Groot.Spec

namespace Groot.Spec

/-- What a context and a label graph look like after loading, given the world `w` of the loaded zones and the records `xs`
put into the label graph (each with the zone and the vertex holding it). -/
structure Coherent (d : Loaded) (w : World) (xs : List (RR × Nat × Nat)) : Prop where
  /-- zone ids are positive, increasing in loading order, and at most the number of files -/
  increasing : (w.zones.map (·.1)).Pairwise (· < ·)
  positive : ∀ id ∈ w.zones.map (·.1), 0 < id ∧ id ≤ d.ctx.counter
  /-- every zone has a server, and only zones have -/
  servers : d.ctx.zoneNs.map (·.1) = w.zones.map (·.1)
  /-- the zones of a server are those zones whose server it is, in loading order -/
  hosted : ∀ s, w.hosted s = (d.ctx.zoneNs.filter (fun p => decide (p.2 = s))).map (·.1)
  /-- a server without zones is not listed -/
  listed : ∀ s, w.Listed s → w.hosted s ≠ []
  /-- the entries made for a loaded zone are its records, in order -/
  entries : ∀ p ∈ w.zones, (xs.filter (fun x => decide (x.2.1 = p.1))).map (·.1) = stored p.2
  /-- each entry made for a loaded zone names the vertex holding the record -/
  vertices : ∀ x ∈ xs, ∀ z, d.ctx.zones.lookup x.2.1 = some z → ∀ thr, z.ancestor thr x.1.name = (x.2.2, x.1.name.length)
  /-- entries are made only for files that were read -/
  known : ∀ x ∈ xs, 0 < x.2.1 ∧ x.2.1 ≤ d.ctx.counter
  /-- only records that passed the checks were offered to a loaded zone -/
  fit : ∀ p ∈ w.zones, ∀ r ∈ p.2, Fit r
  order : ∀ p ∈ w.zones, InOrder p.2

end Groot.Spec
