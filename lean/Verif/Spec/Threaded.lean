import Verif.Spec.Whole
import Verif.Spec.Main
import Verif.Spec.Json
import Verif.Spec.Input
import Verif.Spec.Text
import Verif.Model.Json

/-!
# Specification of the program with its threads
-/

namespace Groot.Spec

open Driver

/-- Every file has an SOA record, and all SOA records of a file have one owner. -/
structure EachZone (zs : List Listing) (ess : List (List (Entry × Nat))) : Prop where
  soa : ∀ es ∈ ess, HasSOA es
  apex : ∀ rs ∈ List.zipWith Listing.records zs ess, ∀ r ∈ rs, ∀ s ∈ rs, r.type = .SOA → s.type = .SOA → r.name = s.name

/-- No DNAME has an owner strictly above the domain of the job. -/
def NoneAbove (rs : List RR) (u : UJob) : Prop :=
  ∀ r ∈ rs, r.type = .DNAME → AtOrBelow r.name (stringToLabels (toLower u.domain)) → r.name = stringToLabels (toLower u.domain)

/-- Good input: the zone files can be loaded and each is a zone, names redirected by DNAMEs are not redirected again at once, the jobs can be read and ask
for some type, no DNAME is above the domain of a job, and all strings are UTF-8. -/
structure GoodInput (read : Str → Str) (exists_ : Str → Bool) (m : Meta) (us : List UJob) (tops : List Str) (zs : List Listing)
    (ess : List (List (Entry × Nat))) : Prop where
  loadable : Loadable read exists_ m tops zs ess
  zones : EachZone zs ess
  redirects : Redirects (allRecords zs ess)
  jobs : ∀ u ∈ us, Acceptable u ∧ AsksType u ∧ NoneAbove (allRecords zs ess) u
  utf8 : ∀ s, OfInput read m (some us) s → Utf8 s

/-- The jobs of the job file `jj` are run one after the other, each by its threads in some order, and at the end the output file is written: `text` is
what is in it, and `whole` tells if all of it could be written. -/
def Threaded (ord : List Str → List Str) (fuel thr : Nat) (lint : Bool) (read : Str → Str) (exists_ : Str → Bool) (jm jj : JVal)
    (text : Str) (whole : Bool) : Prop :=
  ∃ m us d out, MetaOf jm m ∧ JobsOf jj us ∧ setContext thr lint read exists_ m = .ok d ∧ Schedules fuel thr d.ctx d.lg {} [] us out ∧
    writeViolations ord out = (text, whole)

/-- The same object of an output file: it says the same, but groups of aliases can be in another order. -/
def SameObject (ord : List Str → List Str) (j j' : Json) : Prop :=
  ∃ v v', SameUpToOrder v v' ∧ (leaves j).Perm (entries ord v) ∧ (leaves j').Perm (entries ord v')

end Groot.Spec
