import Verif.Spec.Program
import Verif.Spec.Redirect

/-!
# Specification of the whole program, DNAMEs included

As `Spec/Program.lean`, for zone files with DNAMEs.
-/

namespace Groot.Spec

/-- No DNAME leads beneath the owner of another, none is at the root, and no label of an owner or of a target of a DNAME is a lone dot. -/
structure Redirects (rs : List RR) : Prop where
  flat : Flat rs
  root : ∀ r ∈ rs, r.type = .DNAME → r.name ≠ []
  owners : ∀ r ∈ rs, ['.'] ∉ r.name
  targets : ∀ r ∈ rs, r.type = .DNAME → ['.'] ∉ stringToLabels r.rdata

/-- Some character is not a label of an owner, or of a target of a DNAME. -/
def FreeLabel (rs : List RR) : Prop := ∃ c : Char, ∀ r ∈ rs, [c] ∉ r.name ∧ (r.type = .DNAME → [c] ∉ stringToLabels r.rdata)

/-- The words of a report for the name `k`: the name, or a class of the names beneath a name. -/
def Denotes (al : Str) (k : Name) : Prop := al = present k ∨ ∃ j l rest, k = j ++ l :: rest ∧ al = showAsk ⟨j, 0, true⟩

/-- What can be wrong with the name `m` in the sense of a property of a job, and which reports say so.  `w` is what the files say,
`rs` are all records. -/
inductive Trouble (w : World) (rs : List RR) (job : Job) (m : Name) : Wanted → (Violation → Prop) → Prop where
  /-- more servers have to be contacted than allowed -/
  | hops (n : Int) (p : Trail) : 0 ≤ n → Route w [] ⟨m, job.types, false⟩ p → n < hopsOf p →
      Trouble w rs job m (.path (.hops n)) (fun v => ∃ q k, StandsFor rs q m ∧ hopsOf p ≤ k ∧ v = .hops (showQuery q) k n)
  /-- the question is rewritten more often than allowed -/
  | rewrites (n : Int) (p : Trail) : Route w [] ⟨m, job.types, false⟩ p → n < rewritesOf w p →
      Trouble w rs job m (.path (.rewrites n)) (fun v => ∃ q k, StandsFor rs q m ∧ rewritesOf w p ≤ k ∧ v = .rewrites (showQuery q) k n)
  /-- the question is rewritten, and in the end denied by the server `s` -/
  | blackhole (p : Trail) (s : Str) : Route w [] ⟨m, job.types, false⟩ p → Blackholed w p s →
      Trouble w rs job m (.path .blackholing) (fun v => ∃ a b, v = .blackhole a b s)
  /-- the server `s` rewrites the question to a name outside the domains -/
  | queryRewrite (ds : List Name) (p : Trail) (s : Str) : Route w [] ⟨m, job.types, false⟩ p → RewrittenAway w ds p s →
      Trouble w rs job m (.path (.queryRewrite ds)) (fun v => ∃ a b, v = .queryRewrite a b s (printList ds))
  /-- the server `s`, outside the domains, is contacted -/
  | contact (ds : List Name) (p : Trail) (s : Str) : Route w [] ⟨m, job.types, false⟩ p → ContactedAway ds p s →
      Trouble w rs job m (.path (.nsContact ds)) (fun v => ∃ a, v = .nsContact a s (printList ds))
  /-- `s`, which is consulted about the name, refers to `t`, which has zone files but none for the name -/
  | lame (s t : Str) : Consulted w m s → Refers w m s t → w.Listed t → ¬ Encloses w t m →
      Trouble w rs job m (.path .lame) (fun v => ∃ q, StandsFor rs q m ∧ v = .lame (showQuery q) s t)
  /-- parent and child name different servers for `m` -/
  | servers (s t : Str) (id id' : Nat) : Member job.types .NS → Consulted w m s → Delegated w m s t id id' → ServersDiffer w m id id' →
      Trouble w rs job m (.path .delegation) (fun v => v = .delegation (present m) s t false)
  /-- parent and child say different things about the addresses of the servers -/
  | addresses (s t : Str) (id id' : Nat) : Member job.types .NS → Consulted w m s → Delegated w m s t id id' →
      AddressesDiffer w m job.types id id' →
      Trouble w rs job m (.path .delegation) (fun v => v = .delegation (present m) s t true)
  /-- a question for the name `k` is rewritten, and later the listed name `n`, which is a known name, is asked for -/
  | alias_ (cs : List Name) (n k : Name) (p : Trail) : n ∈ cs → Known rs n → Route w [] ⟨m, job.types, false⟩ p → Aliased w k n p →
      Trouble w rs job m (.path (.allAliases cs)) (fun v => ∃ groups als al, v = .allAliases groups ∧ (present n, als) ∈ groups ∧ al ∈ als ∧
        Denotes al k)
  /-- the same record is used twice for rewriting, the second time for a name at least as long -/
  | infinite (p : Trail) : Route w [] ⟨m, job.types, false⟩ p → Revisits w p →
      Trouble w rs job m (.path .infiniteDname) (fun v => ∃ a b used, v = .infiniteDname a b used)
  /-- a final answer to something that is asked about the name has a record with a TTL of zero -/
  | zeroTTL (tys : TypeSet) (T : TypeSet) (b : Bool) (x : Visit) (r : RR) : AskedWith job rs m T b → Ending w ⟨m, T, false⟩ x → x.Informs tys →
      r ∈ x.records → r.ttl = 0 → Trouble w rs job m (.node (.zeroTTL tys)) (fun v => ∃ n, v = .zeroTTL n x.server (showRecord r))
  /-- two final answers to it disagree -/
  | consistency (tys : TypeSet) (T : TypeSet) (b : Bool) (x y : Visit) : AskedWith job rs m T b → Ending w ⟨m, T, false⟩ x →
      Ending w ⟨m, T, false⟩ y → x.Informs tys → y.Informs tys → x.Disagrees y →
      Trouble w rs job m (.node (.consistency tys)) (fun v => ∃ n, v = .responseConsistency n)
  /-- a final answer to it is not the expected one -/
  | value (tys : TypeSet) (values : List Str) (T : TypeSet) (b : Bool) (x : Visit) : AskedWith job rs m T b → Ending w ⟨m, T, false⟩ x →
      x.Wrong tys values → Trouble w rs job m (.node (.value tys values)) (fun v => ∃ l found n, v = .responseValue values.flatten l ∧
        x.Found tys found ∧ (found.flatten, n, x.server) ∈ l)
  /-- a final answer has no record of a type that should be returned, and something is expected -/
  | missing (tys : TypeSet) (x : Visit) (a : Answer) : AskedWith job rs m job.types false → Ending w ⟨m, job.types, false⟩ x → x.Informs tys →
      a ∈ x.said → a.rrs = [] → (∃ t, Member a.types t ∧ Member tys t) →
      Trouble w rs job m (.node (.returned tys)) (fun v => ∃ n, v = .responseReturned n (showTypes (a.types &&& tys)) x.server)

/-- What a report about the class `q` says is true of the name `m`, and some property of the job asks for such reports. -/
inductive Justified (w : World) (rs : List RR) (job : Job) (q : EC) (m : Name) : Violation → Prop where
  /-- resolving the name can go in circles -/
  | loop (ns : List LoopNode) : Circular w ⟨m, job.types, false⟩ → Justified w rs job q m (.loop ns)
  | hops (p : Trail) (n : Int) : .hops n ∈ job.pathFns → Route w [] ⟨m, job.types, false⟩ p → n < hopsOf p →
      Justified w rs job q m (.hops (showQuery q) (hopsOf p) n)
  | rewrites (p : Trail) (n : Int) : .rewrites n ∈ job.pathFns → Route w [] ⟨m, job.types, false⟩ p →
      n < rewritesOf w p → Justified w rs job q m (.rewrites (showQuery q) (rewritesOf w p) n)
  | blackhole (a b s : Str) (p : Trail) : .blackholing ∈ job.pathFns → Route w [] ⟨m, job.types, false⟩ p → Blackholed w p s →
      Justified w rs job q m (.blackhole a b s)
  /-- (if the domains allowed are known names; others are not told apart by the classes) -/
  | queryRewrite (a b s : Str) (ds : List Name) : .queryRewrite ds ∈ job.pathFns →
      ((∀ d ∈ ds, Known rs d) → ∃ p, Route w [] ⟨m, job.types, false⟩ p ∧ RewrittenAway w ds p s) →
      Justified w rs job q m (.queryRewrite a b s (printList ds))
  | contact (a s : Str) (ds : List Name) (p : Trail) : .nsContact ds ∈ job.pathFns → Route w [] ⟨m, job.types, false⟩ p →
      ContactedAway ds p s → Justified w rs job q m (.nsContact a s (printList ds))
  /-- the delegation of a name asked about in the course of the resolution (`m`, or the name of the class if `m` is rewritten to it) is lame -/
  | lame (s t : Str) (a : Ask) : .lame ∈ job.pathFns → PutTo w ⟨m, job.types, false⟩ s a →
      a.name = m ∨ a.name = q.name → LameFor w a.name s t → Justified w rs job q m (.lame (showQuery q) s t)
  /-- the delegation of a name asked about in the course of the resolution is inconsistent -/
  | delegation (s t : Str) (b : Bool) (id id' : Nat) (a : Ask) : .delegation ∈ job.pathFns →
      PutTo w ⟨m, job.types, false⟩ s a → a.name = q.name → Member q.types .NS → Delegated w q.name s t id id' →
      (b = false → ServersDiffer w q.name id id') → (b = true → AddressesDiffer w q.name q.types id id') →
      Justified w rs job q m (.delegation (showQuery q) s t b)
  | zeroTTL (n : Str) (tys T : TypeSet) (b : Bool) (x : Visit) (r : RR) : .zeroTTL tys ∈ job.nodeFns → AskedWith job rs m T b →
      Ending w ⟨m, T, false⟩ x → x.Informs tys → r ∈ x.records → r.ttl = 0 → Justified w rs job q m (.zeroTTL n x.server (showRecord r))
  | consistency (n : Str) (tys T : TypeSet) (b : Bool) (x y : Visit) : .consistency tys ∈ job.nodeFns → AskedWith job rs m T b →
      Ending w ⟨m, T, false⟩ x → Ending w ⟨m, T, false⟩ y → x.Informs tys → y.Informs tys → x.Disagrees y →
      Justified w rs job q m (.responseConsistency n)
  /-- some final answer is wrong, and the answers listed are what the wrong final answers say -/
  | value (tys : TypeSet) (values : List Str) (l : List (Str × Str × Str)) (T : TypeSet) (b : Bool) : .value tys values ∈ job.nodeFns →
      AskedWith job rs m T b → (∃ x, Ending w ⟨m, T, false⟩ x ∧ x.Wrong tys values) →
      (∀ f s, (∃ n, (f, n, s) ∈ l) ↔ ∃ x found, Ending w ⟨m, T, false⟩ x ∧ x.Wrong tys values ∧ x.Found tys found ∧ f = found.flatten ∧
        s = x.server) → Justified w rs job q m (.responseValue values.flatten l)
  | missing (n : Str) (tys T : TypeSet) (b : Bool) (x : Visit) (a : Answer) : .returned tys ∈ job.nodeFns → AskedWith job rs m T b →
      Ending w ⟨m, T, false⟩ x → x.Informs tys → a ∈ x.said → a.rrs = [] → (∃ t, Member a.types t ∧ Member tys t) →
      Justified w rs job q m (.responseReturned n (showTypes (a.types &&& tys)) x.server)
  /-- a name `k` is rewritten, and later the listed name `n` is asked for -/
  | alias_ (al : Str) (cs : List Name) (n k : Name) (T : TypeSet) (b : Bool) (p : Trail) : .allAliases cs ∈ job.pathFns → n ∈ cs →
      AskedWith job rs m T b → Route w [] ⟨m, T, false⟩ p → Aliased w k n p → Denotes al k → Justified w rs job q m (.alias al (present n))
  /-- the same record is used twice for rewriting, the second time for a name at least as long -/
  | infinite (a b : Str) (used : List Str) (p : Trail) : .infiniteDname ∈ job.pathFns → Route w [] ⟨m, job.types, false⟩ p → Recurs w p a b used →
      Justified w rs job q m (.infiniteDname a b used)

/-- A report is warranted by the class `q`: the class contains a name of legal length that the job is about (unless it is that of the names below a
known name of the job without room: the name has more than 250 bytes), and what the report says is true of each of its names that is resolved without over-long names — or it says that there are none. -/
def Sustained (w : World) (rs : List RR) (job : Job) (q : EC) (v : Violation) : Prop :=
  ((∃ m, StandsFor rs q m ∧ InScope job m ∧ Short m) ∨
    (q.excluded ≠ none ∧ 250 < octets q.name ∧ InScope job q.name ∧ ∃ k, Matches rs q.name k q.name.length)) ∧
  ((∃ a b s, v = .dnameLength a b s ∧ .dnameLength ∈ job.pathFns ∧ ∀ m, StandsFor rs q m → ¬ Fits w ⟨m, job.types, false⟩) ∨
    ∀ m, StandsFor rs q m → Fits w ⟨m, job.types, false⟩ → Justified w rs job q m v)

end Groot.Spec
