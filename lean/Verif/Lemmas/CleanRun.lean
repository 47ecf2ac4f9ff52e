import Verif.Lemmas.Clean
import Verif.Lemmas.Main

/-!
# The strings of the report of a whole run
-/

namespace Groot

open Spec Driver

section

variable {S : Str → Prop}

/-- What a clean job says. -/
def CleanJob (S : Str → Prop) (job : Job) : Prop := (∀ f ∈ job.pathFns, CleanPF S f) ∧ ∀ f ∈ job.nodeFns, CleanNF S f

/-- What a task needs to be clean. -/
def CleanTask (S : Str → Prop) (fuel thr : Nat) (ctx : Context) : Task → Prop
  | .ec q => Yields (CleanG S) (buildIG fuel thr ctx q)
  | .structural _ domain => S domain

/-- What the zones need to be clean for the structural check. -/
def CleanCtx (S : Str → Prop) (ctx : Context) : Prop := (∀ p ∈ ctx.zoneNs, S p.2) ∧ ∀ p ∈ ctx.zones, ZoneHas (fun r => S r.str) p.2

theorem process_clean (hs : Strings S) (fuel thr : Nat) (ctx : Context) (lg : LGraph) (job : Job) (hc : CleanCtx S ctx) (hj : CleanJob S job) (t : Task)
    (ht : CleanTask S fuel thr ctx t) : Yields (CleanL S) (process fuel thr ctx lg job t) := by
  cases t with
  | ec q =>
    unfold process
    exact .bind (processEC_clean hs fuel thr ctx _ _ q hj.1 hj.2 ht) (fun r hr => .ok hr)
  | structural node domain =>
    unfold process
    exact structural_clean thr lg ctx domain node ht hc.1 hc.2

theorem runSequential_clean (hs : Strings S) (fuel thr : Nat) (ctx : Context) (lg : LGraph) (job : Job) (hc : CleanCtx S ctx) (hj : CleanJob S job)
    (ht : Yields (fun r => ∀ t ∈ r.2, CleanTask S fuel thr ctx t) (LGraph.generateECs fuel lg (req job))) :
    Yields (fun r => CleanL S r.2.2) (runSequential fuel thr ctx lg job) := by
  unfold runSequential
  refine .bind ht (fun r hr => .bind (Q := CleanL S) (.concatM (fun t ht => process_clean hs fuel thr ctx r.1 job hc hj t (hr t ht))) (fun v hv => .ok hv))

theorem runJob_clean (hs : Strings S) (fuel thr : Nat) (ctx : Context) (lg : LGraph) (job : Job) (t : Totals) (hc : CleanCtx S ctx) (hj : CleanJob S job)
    (ht : Yields (fun r => ∀ t ∈ r.2, CleanTask S fuel thr ctx t) (LGraph.generateECs fuel lg (req job))) (hb : CleanL S t.violations) :
    Yields (fun r => CleanL S r.2.violations) (runJob fuel thr ctx lg t job) := by
  unfold runJob
  exact .bind (runSequential_clean hs fuel thr ctx lg job hc hj ht) (fun r hr => .ok (collect_clean hb hr))

end

theorem strings_true : Strings (fun _ => True) := ⟨trivial, fun _ _ _ _ => trivial, fun _ => trivial⟩

theorem rolesOk_of_clean {S : Str → Prop} {v : Violation} (h : Clean S v) : RolesOk v := by
  cases v <;> first | trivial | skip
  intro p hp
  exact (h.2 p hp).1

theorem clean_true_job (job : Job) : CleanJob (fun _ => True) job := by
  constructor <;> (intro f _; cases f <;> simp [CleanPF, CleanNF])

theorem clean_true_ctx (ctx : Context) : CleanCtx (fun _ => True) ctx := ⟨fun _ _ => trivial, fun _ _ _ _ _ => trivial⟩

theorem clean_true_task (fuel thr : Nat) (ctx : Context) (t : Task) : CleanTask (fun _ => True) fuel thr ctx t := by
  cases t with
  | ec q => exact fun g _ v => ⟨trivial, trivial, fun _ _ _ _ _ _ => ⟨trivial, fun _ _ => trivial⟩⟩
  | structural => trivial

theorem runJob_true (fuel thr : Nat) (ctx : Context) (lg : LGraph) (job : Job) (t : Totals) (hb : CleanL (fun _ => True) t.violations) :
    Yields (fun r => CleanL (fun _ => True) r.2.violations) (runJob fuel thr ctx lg t job) :=
  runJob_clean strings_true fuel thr ctx lg job t (clean_true_ctx ctx) (clean_true_job job) (fun _ _ t _ => clean_true_task fuel thr ctx t) hb

theorem jobLoop_true (fuel thr : Nat) (ctx : Context) : ∀ (us : List UJob) (lg : LGraph) (job : Job) (t : Totals), CleanL (fun _ => True) t.violations →
    Yields (fun r => CleanL (fun _ => True) r.violations) (jobLoop fuel thr ctx lg job t us)
  | [], _, _, t, h => by unfold jobLoop; exact .ok h
  | u :: us, lg, job, t, h => by
    unfold jobLoop
    exact .any (fun j => .bind (runJob_true fuel thr ctx lg j t h) (fun r hr => jobLoop_true fuel thr ctx us _ _ _ hr))

theorem main_true (fuel thr : Nat) (lint : Bool) (read : Str → Str) (exists_ : Str → Bool) (m : Meta) (jobs : Option (List UJob)) :
    Yields (fun r : Totals => CleanL (fun _ => True) r.violations) (main fuel thr lint read exists_ m jobs) := by
  have h0 : CleanL (fun _ => True) ({} : Totals).violations := cleanL_nil
  unfold main
  refine .any (fun d => ?_)
  dsimp only
  have tail : Yields (fun r : Totals => CleanL (fun _ => True) r.violations) (match jobs with
      | some us => jobLoop fuel thr d.ctx d.lg {} {} us
      | none => do
        let r ← runJob fuel thr d.ctx d.lg {} (setDefaultJob {} ".".toList)
        .ok r.2) := by
    cases jobs with
    | some us => exact jobLoop_true fuel thr d.ctx us _ _ _ h0
    | none => exact .bind (runJob_true fuel thr d.ctx d.lg _ _ h0) (fun r hr => .ok hr)
  split_ifs
  · exact .any (fun _ => tail)
  · exact .any (fun _ => tail)

/-- The pairs of the structural violations of a run have the roles written by the program. -/
theorem main_roles {fuel thr : Nat} {lint : Bool} {read : Str → Str} {exists_ : Str → Bool} {m : Meta} {jobs : Option (List UJob)} {t : Totals}
    (h : main fuel thr lint read exists_ m jobs = .ok t) : ∀ v ∈ t.violations, RolesOk v :=
  fun v hv => rolesOk_of_clean (main_true fuel thr lint read exists_ m jobs t h v hv)

end Groot
