import Verif.Spec.Threaded

/-!
# Specification of the program run without a job file
-/

namespace Groot.Spec

open Driver

/-- The job run without a job file: NS records of all names, at most two servers contacted, at most one rewrite, consistent delegations that are not lame,
and no rewrite that ends nowhere. -/
def defaultJob : Job where
  domain := ".".toList
  subdomains := true
  types := TypeSet.single .NS
  pathFns := [.hops 2, .rewrites 1, .delegation, .lame, .queryRewrite [[]], .blackholing]

/-- What it forbids. -/
def defaultWants : List Wanted := [.path (.hops 2), .path (.rewrites 1), .path .delegation, .path .lame, .path .blackholing]

/-- Good zone files: as in `GoodInput`, without jobs. -/
structure GoodFiles (read : Str → Str) (exists_ : Str → Bool) (m : Meta) (tops : List Str) (zs : List Listing) (ess : List (List (Entry × Nat))) : Prop where
  loadable : Loadable read exists_ m tops zs ess
  zones : EachZone zs ess
  redirects : Redirects (allRecords zs ess)
  utf8 : ∀ s, OfInput read m none s → Utf8 s

/-- The program is run without a job file: the default job by its threads in some order (bin/groot.cpp:53-61), and at the end the output file is written. -/
def ThreadedDefault (ord : List Str → List Str) (fuel thr : Nat) (lint : Bool) (read : Str → Str) (exists_ : Str → Bool) (jm : JVal)
    (text : Str) (whole : Bool) : Prop :=
  ∃ m d items lg', MetaOf jm m ∧ setContext thr lint read exists_ m = .ok d ∧ Threads fuel thr d.ctx d.lg (setDefaultJob {} ".".toList) items lg' ∧
    writeViolations ord (collect [] items) = (text, whole)

end Groot.Spec
