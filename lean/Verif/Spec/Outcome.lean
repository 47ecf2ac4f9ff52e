import Verif.Spec.Verdict
import Mathlib.Data.List.Chain

/-!
# Specification of the reports of one class: what each check says about a transcript of a resolution

A transcript is a sequence of visits: a server, the question put to it, and what it answered.  Nothing here mentions
interpretation graphs, nodes or paths.
-/

namespace Groot.Spec

/-- One entry of a transcript. -/
structure Visit where
  server : Str
  ask : Ask
  said : List Answer

/-- A rule that says which of its possible answers every server gives.  (Only a top server without zone files has
two possible answers.) -/
def Answering (w : World) (a0 : Ask) (said : Str → Ask → List Answer) : Prop :=
  ∀ s a, Reached w a0 s a → s ≠ [] → Says w s a (said s a)

/-- The transcript of a trail. -/
def transcript (said : Str → Ask → List Answer) (p : Trail) : List Visit := p.map (fun x => ⟨x.1, x.2.1, said x.1 x.2.1⟩)

/-- How a question is printed. -/
def showAsk (a : Ask) : Str := showQuery a.ec

/-- The (first) answer is of the given kind. -/
def Visit.Tells (x : Visit) (t : Tag) : Prop := x.said.head?.map (·.tag) = some t

instance (x : Visit) (t : Tag) : Decidable (x.Tells t) := by unfold Visit.Tells; infer_instance

/-- The records of the (first) answer. -/
def Visit.records (x : Visit) : List RR := (x.said.head?.map (·.rrs)).getD []

/-- The answer is an alias although aliases were asked for. -/
def Visit.Stops (x : Visit) : Prop :=
  x.Tells .REWRITE ∧ (∃ r rs, x.records = r :: rs ∧ r.type = .CNAME) ∧ Member x.ask.types .CNAME

/-- A resolution looked at only up to an alias that was asked for. -/
structure Halted (w : World) (said : Str → Ask → List Answer) (a0 : Ask) (p : Trail) : Prop where
  route : Route w [] a0 p
  simple : (visited a0 p).dropLast.Nodup
  ended : ∃ x, (transcript said p).getLast? = some x ∧ x.Stops

/-- The resolutions the checks are about. -/
def Examined (w : World) (said : Str → Ask → List Answer) (a0 : Ask) (p : Trail) : Prop := Complete w a0 p ∨ Halted w said a0 p

/-- `x` refers to the server of `y`, which answers the initial name with NS records. -/
def Visit.Hands (a0 : Ask) (x y : Visit) : Prop :=
  x.Tells .REF ∧ y.Tells .ANS ∧ (∃ a, y.said.head? = some a ∧ Member a.types .NS) ∧ y.records ≠ [] ∧ y.ask.name = a0.name

/-- The records used for rewriting, in order, each with the visit that used it. -/
def usesOf (tr : List Visit) : List (Visit × RR) :=
  (tr.filter (fun x => decide (x.Tells .REWRITE))).flatMap (fun x => (x.said.flatMap (·.rrs)).map (fun r => (x, r)))

/-- Two uses of the same record with none in between, the later one for a name at least as long. -/
def Regrows (us : List (Visit × RR)) (x y : Visit × RR) : Prop :=
  ∃ a b c, us = a ++ x :: b ++ y :: c ∧ key x.2 = key y.2 ∧ (∀ z ∈ b, key z.2 ≠ key y.2) ∧
    x.1.ask.name.length ≤ y.1.ask.name.length

/-- What each path check reports about the transcript of a resolution of the question `a0`. -/
def Reports (a0 : Ask) (tr : List Visit) (v : Violation) : PathFn → Prop
  | .hops n => 0 ≤ n ∧ n < runs (tr.map (·.server)) ∧ v = .hops (showAsk a0) (runs (tr.map (·.server))) n
  | .rewrites n =>
    ∃ k, k = (tr.filter (fun x => decide (x.Tells .REWRITE))).length ∧ n < k ∧ v = .rewrites (showAsk a0) k n
  | .delegation =>
    -- the last delegation is compared
    ∃ pre x y post, tr = pre ++ x :: y :: post ∧ x.Hands a0 y ∧
      (∀ pre' x' y' post', y :: post = pre' ++ x' :: y' :: post' → ¬ x'.Hands a0 y') ∧
      SameOwner (nsOf x.records) (nsOf y.records) ∧
      (¬ SameRecords (nsOf x.records) (nsOf y.records) ∧ v = .delegation (showAsk a0) x.server y.server false ∨
       ¬ SameRecords (within (nsOf y.records) (addressesOf x.records)) (addressesOf y.records) ∧
         v = .delegation (showAsk a0) x.server y.server true)
  | .infiniteDname =>
    ∃ pre x y post used, usesOf tr = pre ++ y :: post ∧ Regrows (pre ++ [y]) x y ∧ (∀ a b, ¬ Regrows pre a b) ∧
      used.Perm (((pre.map (fun z => key z.2)).eraseDups).map showKey) ∧
      v = .infiniteDname (showAsk x.1.ask) (showAsk y.1.ask) used
  | .lame =>
    ∃ pre x y post, tr = pre ++ x :: y :: post ∧ x.Tells .REF ∧ y.Tells .REFUSED ∧ y.ask.name = a0.name ∧
      v = .lame (showAsk a0) x.server y.server
  | .queryRewrite ds =>
    ∃ pre x y post, tr = pre ++ x :: y :: post ∧ x.Tells .REWRITE ∧ Outside ds y.ask.name ∧
      v = .queryRewrite (showAsk x.ask) (showAsk y.ask) x.server (printList ds)
  | .nsContact ds =>
    ∃ x ∈ tr, Outside ds (stringToLabels x.server) ∧ v = .nsContact (showAsk x.ask) x.server (printList ds)
  | .blackholing =>
    -- the first rewriting is reported
    ∃ pre x mid y, tr = pre ++ x :: mid ++ [y] ∧ x.Tells .REWRITE ∧ (∀ z ∈ pre, ¬ z.Tells .REWRITE) ∧ y.Tells .NX ∧
      v = .blackhole (showAsk x.ask) (showAsk y.ask) y.server
  | .allAliases ns =>
    ∃ pre x mid y post, tr = pre ++ x :: mid ++ y :: post ∧ x.Tells .REWRITE ∧ y.ask.name ∈ ns ∧ y.ask.below = false ∧
      v = .alias (showAsk x.ask) (showAsk y.ask)
  | .dnameLength => ∃ pre y, tr = pre ++ [y] ∧ y.Tells .YX ∧ v = .dnameLength (showAsk a0) (showAsk y.ask) y.server
  | .misfit _ => False

/-- The kinds of reports about single resolutions. -/
def AboutPath : Violation → Prop
  | .hops .. | .rewrites .. | .delegation .. | .infiniteDname .. | .lame .. | .queryRewrite .. | .nsContact .. | .blackhole ..
  | .alias .. | .dnameLength .. => True
  | _ => False

/-- The kinds of reports a test of a question can give rise to. -/
def FromTest : Violation → Prop
  | .structural .. | .allAliases .. => False
  | _ => True

/-- The same report, up to the order in which an infinite rewriting lists its records. -/
def Alike (v v' : Violation) : Prop :=
  v = v' ∨ ∃ n m us us', v = .infiniteDname n m us ∧ v' = .infiniteDname n m us' ∧ us.Perm us'

/-- Where the examined resolutions end. -/
def EndsAt (w : World) (said : Str → Ask → List Answer) (a0 : Ask) (x : Visit) : Prop :=
  ∃ p, Examined w said a0 p ∧ (transcript said p).getLast? = some x

/-- At least one of the types was asked for. -/
def Visit.AskedFor (x : Visit) (ts : TypeSet) : Prop := ∃ t, Member x.ask.types t ∧ Member ts t

/-- A final answer that counts: one of the types was asked for, and the server has information. -/
def Visit.Informs (x : Visit) (ts : TypeSet) : Prop := x.AskedFor ts ∧ ¬ x.Tells .REFUSED ∧ ¬ x.Tells .NSNOTFOUND

/-- Two final answers disagree. -/
def Visit.Disagrees (x y : Visit) : Prop :=
  ¬ SameRecords x.records y.records ∨
    (Member x.ask.types .CNAME ∧ Member y.ask.types .CNAME ∧ ∃ t, x.Tells t ∧ ¬ y.Tells t)

/-- The final answer does not consist of exactly the expected values. -/
def Visit.Wrong (x : Visit) (ts : TypeSet) (values : List Str) : Prop :=
  x.AskedFor ts ∧
    (x.Tells .NX ∨ x.Tells .YX ∨ ((x.Tells .ANS ∨ x.Tells .REWRITE) ∧ ¬ ∀ s, s ∈ values ↔ ∃ r ∈ x.records, Member ts r.type ∧ r.rdata = s))

/-- The values a report shows for a wrong final answer: those of the requested types, sorted; none for a denial. -/
def Visit.Found (x : Visit) (ts : TypeSet) (found : List Str) : Prop :=
  found.Pairwise StrLt ∧
    ∀ s, s ∈ found ↔ ¬ x.Tells .NX ∧ ¬ x.Tells .YX ∧ ∃ r ∈ x.records, Member ts r.type ∧ r.rdata = s

/-- The path checks `pf` report exactly what they say about the transcripts of the examined resolutions of `a0`. -/
structure PathOutcome (w : World) (said : Str → Ask → List Answer) (a0 : Ask) (pf : List PathFn) (vs : List Violation) : Prop where
  sound : ∀ v ∈ vs, AboutPath v → ∃ f ∈ pf, ∃ p, Examined w said a0 p ∧ Reports a0 (transcript said p) v f
  complete : ∀ f ∈ pf, ∀ p, Examined w said a0 p → ∀ v, Reports a0 (transcript said p) v f → ∃ v' ∈ vs, Alike v v'

/-- A report of missing data about a final answer. -/
def Visit.Misses (x : Visit) (ts : TypeSet) (v : Violation) : Prop :=
  x.Informs ts ∧ ∃ a ∈ x.said, a.rrs = [] ∧ (∃ t, Member a.types t ∧ Member ts t) ∧
    v = .responseReturned (showAsk x.ask) (showTypes (a.types &&& ts)) x.server

/-- The checks `nf` of the final answers report exactly what is wrong with them. -/
structure EndOutcome (w : World) (said : Str → Ask → List Answer) (a0 : Ask) (nf : List NodeFn) (vs : List Violation) : Prop where
  /-- an inconsistency iff two final answers that count disagree -/
  consistency : (∃ n, .responseConsistency n ∈ vs) ↔ ∃ ts, .consistency ts ∈ nf ∧ ∃ x y, EndsAt w said a0 x ∧ EndsAt w said a0 y ∧
    x.Informs ts ∧ y.Informs ts ∧ x.Disagrees y
  consistencyName : ∀ n, .responseConsistency n ∈ vs → ∃ x, EndsAt w said a0 x ∧ n = showAsk x.ask
  /-- a zero TTL iff a final answer that counts has such a record -/
  zeroTTL : ∀ s r, (∃ n, .zeroTTL n s r ∈ vs) ↔ ∃ ts, .zeroTTL ts ∈ nf ∧ ∃ x, EndsAt w said a0 x ∧ x.Informs ts ∧ x.server = s ∧
    ∃ rr ∈ x.records, rr.ttl = 0 ∧ r = showRecord rr
  zeroTTLName : ∀ n s r, .zeroTTL n s r ∈ vs → ∃ x, EndsAt w said a0 x ∧ n = showAsk x.ask
  /-- a wrong value iff a final answer is wrong, and then all of them are listed -/
  value : ∀ e l, .responseValue e l ∈ vs → ∃ ts values, .value ts values ∈ nf ∧ e = values.flatten ∧ (∃ x, EndsAt w said a0 x ∧ x.Wrong ts values) ∧
    ∀ z, z ∈ l ↔ ∃ x found, EndsAt w said a0 x ∧ x.Wrong ts values ∧ x.Found ts found ∧ z = (found.flatten, showAsk x.ask, x.server)
  valueComplete : ∀ ts values, .value ts values ∈ nf → ∀ x, EndsAt w said a0 x → x.Wrong ts values → ∃ l, .responseValue values.flatten l ∈ vs ∧
    ∀ z, z ∈ l ↔ ∃ x found, EndsAt w said a0 x ∧ x.Wrong ts values ∧ x.Found ts found ∧ z = (found.flatten, showAsk x.ask, x.server)
  /-- a missing type only if a final answer that counts lacks it -/
  missing : ∀ n t s, .responseReturned n t s ∈ vs → ∃ ts, .returned ts ∈ nf ∧ ∃ x, EndsAt w said a0 x ∧ x.Misses ts (.responseReturned n t s)

/-- What a loop report shows of a question. -/
def shownAsk (said : Str → Ask → List Answer) (x : Str × Ask) : LoopNode :=
  ⟨x.1, showAsk x.2, if x.1 = [] then none else (said x.1 x.2).head?.map (·.tag)⟩

/-- A loop report iff the resolution of `a0` can come back to where it has been; one report, which shows a circle. -/
structure LoopOutcome (w : World) (said : Str → Ask → List Answer) (a0 : Ask) (vs : List Violation) : Prop where
  found : (∃ ns, .loop ns ∈ vs) ↔ Circular w a0
  one : ∀ ns ns', .loop ns ∈ vs → .loop ns' ∈ vs → ns = ns'
  shows : ∀ ns, .loop ns ∈ vs → ∃ x c, (x :: c).Nodup ∧ Relation.ReflTransGen (Needs w) ([], a0) x ∧
    List.IsChain (Needs w) (x :: c ++ [x]) ∧ ns = (x :: c).map (shownAsk said)

end Groot.Spec
