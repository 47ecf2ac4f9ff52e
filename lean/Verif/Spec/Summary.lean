import Verif.Model.Summary
import Verif.Spec.Main
import Verif.Spec.Dname

/-!
# Specification of the statistics logged after each job
-/

namespace Groot.Spec

open Driver

/-- Resolving the question leads to `n` different pairs of a server and a question for it (counting the question before it is put to any server, and
those for addresses of servers). -/
def VisitsTo (w : World) (a : Ask) (n : Nat) : Prop :=
  ∃ l : List (Str × Ask), l.Nodup ∧ l.length = n ∧ ∀ x, x ∈ l ↔ Reached w a x.1 x.2

/-- The steps from one of these to the next can be listed with `n` entries (a step appears more than once if it can be taken in several ways). -/
def Moves (w : World) (a : Ask) (n : Nat) : Prop :=
  ∃ l : List ((Str × Ask) × (Str × Ask) × Option Ask), l.length = n ∧
    ∀ x, x ∈ l ↔ Reached w a x.1.1 x.1.2 ∧ Step w x.1.1 x.1.2 x.2.1.1 x.2.1.2 x.2.2

/-- The summary is that of these numbers. -/
structure Summarises (s : Summary) (ns : List Nat) : Prop where
  max : ∀ m, s.max = some m ↔ m ∈ ns ∧ ∀ x ∈ ns, x ≤ m
  min : ∀ m, s.min = some m ↔ m ∈ ns ∧ ∀ x ∈ ns, m ≤ x
  sum : s.sum = ns.sum
  count : s.count = ns.length

/-- The statistics are those of a list of classes that together stand for all names the job is about: their number, and of the sizes of their resolutions. -/
def Reflects (w : World) (rs : List RR) (job : Job) (st : JobStats) : Prop :=
  ∃ (qs : List EC) (ns es : List Nat), (∀ m, InScope job m → ∃ q ∈ qs, StandsFor rs q m) ∧ st.ecs = qs.length ∧
    List.Forall₂ (fun q n => VisitsTo w (ask q) n) qs ns ∧ List.Forall₂ (fun q n => Moves w (ask q) n) qs es ∧
    Summarises st.vertices ns ∧ Summarises st.edges es

/-- The threads of one job under some schedule, as in `Threads`: the statistics when all have been joined, and the label graph. -/
inductive Measured (fuel thr : Nat) (ctx : Context) (lg : LGraph) (job : Job) : JobStats → LGraph → Prop where
  | producers (lg' : LGraph) (es : List (Nat × Int)) (hj : Spawns lg job lg' es) (s : Full.State Conc.consumerCount)
      (hs : Full.Reachable job.types (Driver.emitted fuel thr ctx lg job) (Prod.ofJob lg' (Driver.req job) es) s)
      (hr : Full.Returned s) : Measured fuel thr ctx lg job (jobStats s.rest.taken s.rest.stats) s.pool.graph
  | generator (hj : ¬ ∃ lg' es, Spawns lg job lg' es) (n : Nat) (lg' : LGraph) (ts : List Task)
      (hg : LGraph.generateECs n lg (Driver.req job) = .ok (lg', ts))
      (s : Conc.State Conc.consumerCount Task Violation (Nat × Nat))
      (hs : Conc.Reachable (Driver.emitted fuel thr ctx lg job) [ts] s) (hr : Conc.Returned s) :
      Measured fuel thr ctx lg job (jobStats s.taken s.stats) lg'

/-- The jobs of the job file, one after the other, each under some schedule: the statistics logged after each. -/
inductive MeasuredAll (fuel thr : Nat) (ctx : Context) : LGraph → Job → List UJob → List JobStats → Prop where
  | done (lg : LGraph) (job : Job) : MeasuredAll fuel thr ctx lg job [] []
  | job (lg lg' : LGraph) (job job' : Job) (st : JobStats) (sts : List JobStats) (u : UJob) (us : List UJob) (hj : Driver.setJob job u = .ok job')
      (ht : Measured fuel thr ctx lg job' st lg') (h : MeasuredAll fuel thr ctx lg' job' us sts) : MeasuredAll fuel thr ctx lg job (u :: us) (st :: sts)

end Groot.Spec
