import Verif.Model.Main
import Verif.Spec.Driver
import Verif.Spec.Labels
import Verif.Spec.Concurrency
import Verif.Spec.Producers
import Verif.Props.Labels
import Verif.Props.Concurrency

/-!
# What a whole run should report
-/

namespace Groot.Spec

/-- A violation contributed by a job whose checks produced `items`: an item that is not an alias, or all the aliases of the job, grouped. -/
inductive Contributes (items : List Violation) : Violation → Prop where
  | direct (v : Violation) (h : v ∈ items) (hd : Direct v) : Contributes items v
  | aliases (q c : Str) (h : Violation.alias q c ∈ items) (groups : List (Str × List Str)) (hg : AliasGroups items groups) :
      Contributes items (.allAliases groups)

/-- The same violation, up to the order in which groups of aliases are listed. -/
inductive SameUpToOrder : Violation → Violation → Prop where
  | refl (v : Violation) : SameUpToOrder v v
  | groups (g g' : List (Str × List Str)) (h : g.Perm g') : SameUpToOrder (.allAliases g) (.allAliases g')

/-- The reported violations are those contributed by the jobs, each once (groups of aliases in any order). -/
structure Reported (items : List (List Violation)) (vs : List Violation) : Prop where
  sound : ∀ v ∈ vs, ∃ l ∈ items, Contributes l v
  complete : ∀ l ∈ items, ∀ v, Contributes l v → ∃ v' ∈ vs, SameUpToOrder v v'
  once : vs.Nodup

/-- The job run by default, written as a job of a job file. -/
def defaultUJob : UJob where
  domain := ".".toList
  subdomain := true
  properties := [⟨"Hops".toList, none, .int 2⟩, ⟨"Rewrites".toList, none, .int 1⟩, ⟨"DelegationConsistency".toList, none, .missing⟩,
    ⟨"LameDelegation".toList, none, .missing⟩, ⟨"QueryRewrite".toList, none, .strs [".".toList]⟩, ⟨"RewriteBlackholing".toList, none, .missing⟩]

/-- One of the jobs asks for the structural check. -/
def SomeStructural (us : List UJob) : Prop := ∃ v ∈ us, AsksStructural v

instance (us : List UJob) : Decidable (SomeStructural us) := by unfold SomeStructural; infer_instance

/-- What job number `i` of the job file does when it is run alone by a new driver; the structural check is also on if an earlier job
asked for it. -/
def Alone (fuel thr : Nat) (d : Loaded) (us : List UJob) (i : Nat) (ts : List Task) (items : List Violation) : Prop :=
  ∃ u j lg, us[i]? = some u ∧ Driver.setJob {} u = .ok j ∧
    Driver.runSequential fuel thr d.ctx d.lg { j with structural := decide (SomeStructural (us.take (i + 1))) } = .ok (lg, ts, items)

/-- An NS record of a zone whose server lies in the zone but has no address there. -/
def MissesGlue (rs : List RR) (r : RR) : Prop :=
  r.type = .NS ∧ AtOrBelow (soaOwner (stored rs)) (stringToLabels r.rdata) ∧
    ¬ ∃ x ∈ stored rs, x.name = stringToLabels r.rdata ∧ (x.type = .A ∨ x.type = .AAAA)

/-- A job description that is accepted: all types exist and every property has the value it needs. -/
def Acceptable (u : UJob) : Prop := (∀ p ∈ u.properties, ValidTypes p ∧ ∃ w, Asks p w) ∧ Numbered u

/-- Some type is asked for. -/
def AsksType (u : UJob) : Prop := ∃ p ∈ u.properties, p.types = none ∨ ∃ l, p.types = some l ∧ l ≠ []

/-- The job starts one producer thread for each of the nodes `es` (src/label-graph.cpp:554-602): the domain is of legal length, exists, and
names below it are asked for.  `lg'` is the label graph after the search. -/
def Spawns (lg : LGraph) (job : Job) (lg' : LGraph) (es : List (Nat × Int)) : Prop :=
  Short (stringToLabels job.domain) ∧ job.subdomains = true ∧ es ≠ [] ∧ (∀ e ∈ es, e.2 = ((stringToLabels job.domain).length : Int)) ∧
    ∃ n, LGraph.closestEnclosers n lg (stringToLabels job.domain) = .ok (lg', es)

/-- The threads of one job under some schedule, until all have been joined: what the JSON consumer has received and the label graph.
If the job does not spawn producer threads, the generator thread enqueues the classes itself.  Processing a task is
`Driver.emitted`, which needs enough `fuel`. -/
inductive Threads (fuel thr : Nat) (ctx : Context) (lg : LGraph) (job : Job) : List Violation → LGraph → Prop where
  | producers (lg' : LGraph) (es : List (Nat × Int)) (hj : Spawns lg job lg' es) (s : Full.State Conc.consumerCount)
      (hs : Full.Reachable job.types (Driver.emitted fuel thr ctx lg job) (Prod.ofJob lg' (Driver.req job) es) s)
      (hr : Full.Returned s) : Threads fuel thr ctx lg job s.rest.collected s.pool.graph
  | generator (hj : ¬ ∃ lg' es, Spawns lg job lg' es) (n : Nat) (lg' : LGraph) (ts : List Task)
      (hg : LGraph.generateECs n lg (Driver.req job) = .ok (lg', ts))
      (s : Conc.State Conc.consumerCount Task Violation (Nat × Nat))
      (hs : Conc.Reachable (Driver.emitted fuel thr ctx lg job) [ts] s) (hr : Conc.Returned s) :
      Threads fuel thr ctx lg job s.collected lg'

/-- The jobs of the job file, one after the other, each under some schedule and with the label graph left by the one before: `vs` are the
violations before and `out` those after. -/
inductive Schedules (fuel thr : Nat) (ctx : Context) : LGraph → Job → List Violation → List UJob → List Violation → Prop where
  | done (lg : LGraph) (job : Job) (vs : List Violation) : Schedules fuel thr ctx lg job vs [] vs
  | job (lg lg' : LGraph) (job job' : Job) (vs items out : List Violation) (u : UJob) (us : List UJob) (hj : Driver.setJob job u = .ok job')
      (ht : Threads fuel thr ctx lg job' items lg')
      (h : Schedules fuel thr ctx lg' job' (Driver.collect vs items) us out) : Schedules fuel thr ctx lg job vs (u :: us) out

end Groot.Spec
