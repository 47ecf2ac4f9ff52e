import Verif.Spec.StructuralRun

/-!
# Specification: when the verdict on a directory and its jobs is exact
-/

namespace Groot.Spec

open Driver

/-- The names of the jobs have room: some character is no label of the files, the domains are not too long, names of legal length lead to names of legal
length only, and a name of a job that the files know leaves room for a label below it. -/
structure Ample (w : World) (rs : List RR) (us : List UJob) : Prop where
  free : FreeLabel rs
  jobs : ∀ u ∈ us, Short (stringToLabels (toLower u.domain)) ∧ octets (stringToLabels (toLower u.domain)) < 253 ∧ Testable u
  fits : ∀ u ∈ us, ∀ job, JobMeans {} u job → ∀ n, InScope job n → Short n → Fits w ⟨n, job.types, false⟩
  room : ∀ u ∈ us, ∀ job, JobMeans {} u job → ∀ n, InScope job n → (∃ k, Matches rs n k n.length) → octets n ≤ 250

/-- The checks whose reports say of every name of the class what they say of one: not those on delegations (whose report can be about the name
above) and on repeated records; where nothing is expected, all types are asked for, so two more are only covered for jobs about one name. -/
def ExactCheck (rs : List RR) (u : UJob) : Wanted → Prop
  | .path (.hops n) => 0 ≤ n
  | .path (.rewrites _) => True
  | .path .blackholing => True
  | .path (.nsContact _) => True
  | .path .dnameLength => True
  | .path (.queryRewrite ds) => ∀ d ∈ ds, Known rs d
  | .path (.allAliases cs) => u.subdomain = false ∧ ∀ c ∈ cs, Known rs c
  | .path _ => False
  | .node (.returned _) => u.subdomain = false
  | .node _ => True
  | .structural => True
  | .nothing => True

/-- Something is wrong with the name `m` of the job `u`: its resolution can go in circles, or something happens that a property forbids. -/
def Faulty (w : World) (rs : List RR) (u : UJob) (job : Job) (m : Name) : Prop :=
  Circular w ⟨m, job.types, false⟩ ∨ ∃ p ∈ u.properties, ∃ want, Asks p want ∧ ∃ report, Trouble w rs job m want report

end Groot.Spec
