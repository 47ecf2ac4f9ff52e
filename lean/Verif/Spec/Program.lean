import Verif.Spec.File
import Verif.Spec.Job
import Verif.Spec.Final
import Verif.Spec.Delegation
import Verif.Spec.Watched

/-!
# Specification of the whole program: from the text of the zone files to the output file

What the files say, what can be wrong with a name according to the properties of a job, and what has to be reported then.
Nothing here mentions parser states, graphs or classes that are searched.
-/

namespace Groot.Spec

/-- A file listed in the metadata: the file, the server and the origin given for it. -/
abbrev Listing := Str × Str × Option Str

/-- The records the file keeps, if `es` is what is written in it. -/
def Listing.records (z : Listing) (es : List (Entry × Nat)) : List RR := kept (offeredBy (toLower (z.2.2.getD [])) es)

/-- The zones made of the files, from number `k` on: for each file that names an SOA record its number, the server and the records kept. -/
def sitesFrom : Nat → List Listing → List (List (Entry × Nat)) → List (Nat × Str × List RR)
  | k, z :: zs, es :: ess => (if HasSOA es then [(k, toLower z.2.1, z.records es)] else []) ++ sitesFrom (k + 1) zs ess
  | _, _, _ => []

/-- The zones of each server, the servers in the order in which they are first mentioned. -/
def servedBy (sites : List (Nat × Str × List RR)) : List (Str × List Nat) :=
  (sites.map (·.2.1)).eraseDups.map (fun s => (s, (sites.filter (fun x => decide (x.2.1 = s))).map (·.1)))

/-- What the files say. -/
def worldOf (tops : List Str) (zs : List Listing) (ess : List (List (Entry × Nat))) : World where
  zones := (sitesFrom 1 zs ess).map (fun x => (x.1, x.2.2))
  nsZones := servedBy (sitesFrom 1 zs ess)
  top := tops.map toLower

/-- All records kept, in order. -/
def allRecords (zs : List Listing) (ess : List (List (Entry × Nat))) : List RR := (List.zipWith Listing.records zs ess).flatten

/-- The files can be loaded: the metadata is good, each file is a good zone file, and no top server has an empty name. -/
structure Loadable (read : Str → Str) (exists_ : Str → Bool) (m : Driver.Meta) (tops : List Str) (zs : List Listing)
    (ess : List (List (Entry × Nat))) : Prop where
  good : GoodMetadata exists_ m tops zs
  files : List.Forall₂ (fun z es => GoodFile (read z.1) (toLower (z.2.2.getD [])) es) zs ess
  top : ∀ s ∈ tops, s ≠ []

/-- There is no DNAME, and no owner has a label that is a lone dot. -/
def NoDname (rs : List RR) : Prop := ∀ r ∈ rs, r.type ≠ .DNAME ∧ ['.'] ∉ r.name

/-- What can be wrong with the name `m` in the sense of a property of a job, and which reports say so.  `w` is what the files say,
`rs` are all records. -/
inductive Problem (w : World) (rs : List RR) (job : Job) (m : Name) : Wanted → (Violation → Prop) → Prop where
  /-- more servers have to be contacted than allowed -/
  | hops (n : Int) (p : Trail) : 0 ≤ n → Route w [] ⟨m, job.types, false⟩ p → n < hopsOf p →
      Problem w rs job m (.path (.hops n)) (fun v => ∃ q k, Stands rs q m ∧ hopsOf p ≤ k ∧ v = .hops (showQuery q) k n)
  /-- the question is rewritten more often than allowed -/
  | rewrites (n : Int) (p : Trail) : Route w [] ⟨m, job.types, false⟩ p → n < rewritesOf w p →
      Problem w rs job m (.path (.rewrites n)) (fun v => ∃ q k, Stands rs q m ∧ rewritesOf w p ≤ k ∧ v = .rewrites (showQuery q) k n)
  /-- the question is rewritten, and in the end denied by the server `s` -/
  | blackhole (p : Trail) (s : Str) : Route w [] ⟨m, job.types, false⟩ p → Blackholed w p s →
      Problem w rs job m (.path .blackholing) (fun v => ∃ a b, v = .blackhole a b s)
  /-- the server `s` rewrites the question to a name outside the domains -/
  | queryRewrite (ds : List Name) (p : Trail) (s : Str) : Route w [] ⟨m, job.types, false⟩ p → RewrittenAway w ds p s →
      Problem w rs job m (.path (.queryRewrite ds)) (fun v => ∃ a b, v = .queryRewrite a b s (printList ds))
  /-- the server `s`, outside the domains, is contacted -/
  | contact (ds : List Name) (p : Trail) (s : Str) : Route w [] ⟨m, job.types, false⟩ p → ContactedAway ds p s →
      Problem w rs job m (.path (.nsContact ds)) (fun v => ∃ a, v = .nsContact a s (printList ds))
  /-- `s`, which is consulted about the name, refers to `t`, which has zone files but none for the name -/
  | lame (s t : Str) : Consulted w m s → Refers w m s t → w.Listed t → ¬ Encloses w t m →
      Problem w rs job m (.path .lame) (fun v => ∃ q, Stands rs q m ∧ v = .lame (showQuery q) s t)
  /-- parent and child name different servers for `m` -/
  | servers (s t : Str) (id id' : Nat) : Member job.types .NS → Consulted w m s → Delegated w m s t id id' → ServersDiffer w m id id' →
      Problem w rs job m (.path .delegation) (fun v => v = .delegation (present m) s t false)
  /-- parent and child say different things about the addresses of the servers -/
  | addresses (s t : Str) (id id' : Nat) : Member job.types .NS → Consulted w m s → Delegated w m s t id id' →
      AddressesDiffer w m job.types id id' →
      Problem w rs job m (.path .delegation) (fun v => v = .delegation (present m) s t true)
  /-- a question for the name `k` is rewritten, and later the listed name `n` is asked for -/
  | alias_ (cs : List Name) (n k : Name) (p : Trail) : n ∈ cs → Route w [] ⟨m, job.types, false⟩ p → Aliased w k n p →
      Problem w rs job m (.path (.allAliases cs)) (fun v => ∃ groups als al q, v = .allAliases groups ∧ (present n, als) ∈ groups ∧ al ∈ als ∧
        Stands rs q m ∧ (al = present k ∨ k = m ∧ al = showQuery q))
  /-- the same record is used twice for rewriting, the second time for a name at least as long -/
  | infinite (p : Trail) : Route w [] ⟨m, job.types, false⟩ p → Revisits w p →
      Problem w rs job m (.path .infiniteDname) (fun v => ∃ a b used, v = .infiniteDname a b used)
  /-- the resolution ends with the error of the server `y.1` that a name is too long -/
  | tooLong (p : Trail) (y : Str × Ask × Option Ask) : Route w [] ⟨m, job.types, false⟩ (p ++ [y]) → Kind w y.1 y.2.1 .YX →
      Problem w rs job m (.path .dnameLength) (fun v => ∃ a b, v = .dnameLength a b y.1)
  /-- a final answer has a record with a TTL of zero -/
  | zeroTTL (tys : TypeSet) (x : Visit) (r : RR) : Ending w (question job rs m) x → x.Informs tys → r ∈ x.records → r.ttl = 0 →
      Problem w rs job m (.node (.zeroTTL tys)) (fun v => ∃ n, v = .zeroTTL n x.server (showRecord r))
  /-- two final answers disagree -/
  | consistency (tys : TypeSet) (x y : Visit) : Ending w (question job rs m) x → Ending w (question job rs m) y →
      x.Informs tys → y.Informs tys → x.Disagrees y → Problem w rs job m (.node (.consistency tys)) (fun v => ∃ n, v = .responseConsistency n)
  /-- a final answer is not the expected one -/
  | value (tys : TypeSet) (values : List Str) (x : Visit) : Ending w (question job rs m) x → x.Wrong tys values →
      Problem w rs job m (.node (.value tys values)) (fun v => ∃ l found n, v = .responseValue values.flatten l ∧ x.Found tys found ∧
        (found.flatten, n, x.server) ∈ l)
  /-- a final answer has no record of a type that should be returned -/
  | missing (tys : TypeSet) (x : Visit) (a : Answer) : ¬ Unexpected job rs m → Ending w ⟨m, job.types, false⟩ x → x.Informs tys → a ∈ x.said →
      a.rrs = [] → (∃ t, Member a.types t ∧ Member tys t) →
      Problem w rs job m (.node (.returned tys)) (fun v => ∃ n, v = .responseReturned n (showTypes (a.types &&& tys)) x.server)

/-- What a report says is true of the name `m`, and some property of the job asks for such reports.  (`q` is the class the report is about, in
the words of the program; `m` is one of its names.) -/
inductive Warranted (w : World) (rs : List RR) (job : Job) (m : Name) : Violation → Prop where
  /-- resolving the name can go in circles -/
  | loop (ns : List LoopNode) : Circular w ⟨m, job.types, false⟩ → Warranted w rs job m (.loop ns)
  | hops (q : EC) (p : Trail) (n : Int) : .hops n ∈ job.pathFns → Stands rs q m → Route w [] ⟨m, job.types, false⟩ p → n < hopsOf p →
      Warranted w rs job m (.hops (showQuery q) (hopsOf p) n)
  | rewrites (q : EC) (p : Trail) (n : Int) : .rewrites n ∈ job.pathFns → Stands rs q m → Route w [] ⟨m, job.types, false⟩ p →
      n < rewritesOf w p → Warranted w rs job m (.rewrites (showQuery q) (rewritesOf w p) n)
  | blackhole (a b s : Str) (p : Trail) : .blackholing ∈ job.pathFns → Route w [] ⟨m, job.types, false⟩ p → Blackholed w p s →
      Warranted w rs job m (.blackhole a b s)
  | queryRewrite (a b s : Str) (ds : List Name) (p : Trail) : .queryRewrite ds ∈ job.pathFns → Route w [] ⟨m, job.types, false⟩ p →
      RewrittenAway w ds p s → Warranted w rs job m (.queryRewrite a b s (printList ds))
  | contact (a s : Str) (ds : List Name) (p : Trail) : .nsContact ds ∈ job.pathFns → Route w [] ⟨m, job.types, false⟩ p →
      ContactedAway ds p s → Warranted w rs job m (.nsContact a s (printList ds))
  /-- the delegation of a name asked about in the course of the resolution (`m`, or the name of the class if `m` is rewritten to it) is lame -/
  | lame (q : EC) (s t : Str) (a : Ask) : .lame ∈ job.pathFns → Stands rs q m → PutTo w ⟨m, job.types, false⟩ s a →
      a.name = m ∨ a.name = q.name → LameFor w a.name s t → Warranted w rs job m (.lame (showQuery q) s t)
  /-- the delegation of a name asked about in the course of the resolution is inconsistent -/
  | delegation (q : EC) (s t : Str) (b : Bool) (id id' : Nat) (a : Ask) : .delegation ∈ job.pathFns → Stands rs q m →
      PutTo w ⟨m, job.types, false⟩ s a → a.name = q.name → Member q.types .NS → Delegated w q.name s t id id' →
      (b = false → ServersDiffer w q.name id id') → (b = true → AddressesDiffer w q.name q.types id id') →
      Warranted w rs job m (.delegation (showQuery q) s t b)
  | zeroTTL (n : Str) (tys : TypeSet) (x : Visit) (r : RR) : .zeroTTL tys ∈ job.nodeFns → Ending w (question job rs m) x → x.Informs tys →
      r ∈ x.records → r.ttl = 0 → Warranted w rs job m (.zeroTTL n x.server (showRecord r))
  | consistency (n : Str) (tys : TypeSet) (x y : Visit) : .consistency tys ∈ job.nodeFns → Ending w (question job rs m) x →
      Ending w (question job rs m) y → x.Informs tys → y.Informs tys → x.Disagrees y → Warranted w rs job m (.responseConsistency n)
  /-- some final answer is wrong, and the answers listed are what the wrong final answers say -/
  | value (tys : TypeSet) (values : List Str) (l : List (Str × Str × Str)) : .value tys values ∈ job.nodeFns →
      (∃ x, Ending w (question job rs m) x ∧ x.Wrong tys values) →
      (∀ f s, (∃ n, (f, n, s) ∈ l) ↔ ∃ x found, Ending w (question job rs m) x ∧ x.Wrong tys values ∧ x.Found tys found ∧ f = found.flatten ∧
        s = x.server) → Warranted w rs job m (.responseValue values.flatten l)
  | missing (n : Str) (tys : TypeSet) (x : Visit) (a : Answer) : .returned tys ∈ job.nodeFns → Ending w (question job rs m) x → x.Informs tys →
      a ∈ x.said → a.rrs = [] → (∃ t, Member a.types t ∧ Member tys t) →
      Warranted w rs job m (.responseReturned n (showTypes (a.types &&& tys)) x.server)
  /-- a name `k` is rewritten, and later the listed name `n` is asked for; or the resolution goes in circles -/
  | alias_ (q : EC) (al : Str) (cs : List Name) (n : Name) : .allAliases cs ∈ job.pathFns → n ∈ cs → Stands rs q m →
      (Circular w (question job rs m) ∨ ∃ p k, Watched w (question job rs m) p ∧ Aliased w k n p ∧ (al = present k ∨ k = m ∧ al = showQuery q)) →
      Warranted w rs job m (.alias al (present n))
  /-- the same record is used twice for rewriting, the second time for a name at least as long -/
  | infinite (a b : Str) (used : List Str) (p : Trail) : .infiniteDname ∈ job.pathFns → Route w [] ⟨m, job.types, false⟩ p → Recurs w p a b used →
      Warranted w rs job m (.infiniteDname a b used)
  /-- the resolution ends with the error that a name is too long -/
  | tooLong (a b : Str) (p : Trail) (y : Str × Ask × Option Ask) : .dnameLength ∈ job.pathFns → Route w [] ⟨m, job.types, false⟩ (p ++ [y]) →
      Kind w y.1 y.2.1 .YX → Warranted w rs job m (.dnameLength a b y.1)

end Groot.Spec
