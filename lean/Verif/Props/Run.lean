import Verif.Lemmas.Run

/-!
# C79: what a whole run reports

A run of a job reports exactly what its checks say about the classes it generates and, if asked to, about the delegations at
the known names: nothing is lost between the tests and the result, and nothing is added.  DNAMEs are allowed.  Every known name
at or below the domain is tested by itself, with the types of the job.
-/

namespace Groot
open Spec

/-- **C79** The reports of a run are the reports of its tasks, one after the other; each class reports what the checks say about its
resolutions, each structural check the disagreeing zones at its name. -/
theorem C79_reports {ctx : Context} {w : World} {xs : List (RR × Nat × Nat)} {job : Job} (S : RunSetting ctx w xs job) {thr thr' fuel : Nat} {g' : LGraph}
    {ts : List Task} {vs : List Violation} (hrun : Driver.runSequential fuel thr ctx (labelGraph thr' xs) job = .ok (g', ts, vs)) :
    ∃ rs, List.Forall₂ (TaskOutcome w (labelGraph thr' xs) xs (fun id => (ctx.zoneNs.lookup id).getD []) job) ts rs ∧ vs = rs.flatten :=
  S.outcomes hrun

theorem RunSetting.of_class {ctx : Context} {w : World} {xs : List (RR × Nat × Nat)} {job : Job} (S : RunSetting ctx w xs job) {thr thr' fuel : Nat}
    {g' : LGraph} {ts : List Task} {vs : List Violation} (hrun : Driver.runSequential fuel thr ctx (labelGraph thr' xs) job = .ok (g', ts, vs))
    {q : EC} (hq : q ∈ classes ts) :
    ∃ said rs, TestOutcome w said (ask q) (q.nonExistent = false) job.pathFns job.nodeFns rs ∧ ∀ v ∈ rs, v ∈ vs := by
  obtain ⟨rs, h1, rfl⟩ := S.outcomes hrun
  obtain ⟨r, hr, h2⟩ := forall₂_mem' h1 ((mem_classes q ts).mp hq)
  cases h2 with
  | test _ said _ h => exact ⟨said, r, h, fun v hv => List.mem_flatten.mpr ⟨r, hr, hv⟩⟩

/-- **C79** Every known name at or below the domain (and shorter than 253 bytes) is tested with the types of the job, and every report the checks
call for is among the reports of the run. -/
theorem C79_known_names {ctx : Context} {w : World} {xs : List (RR × Nat × Nat)} {job : Job} (S : RunSetting ctx w xs job) {thr thr' fuel : Nat}
    {g' : LGraph} {ts : List Task} {vs : List Violation} (hrun : Driver.runSequential fuel thr ctx (labelGraph thr' xs) job = .ok (g', ts, vs))
    (hdom : Short (stringToLabels job.domain)) (hsub : job.subdomains = true) (hk : Known (xs.map (·.1)) (stringToLabels job.domain))
    {n : Name} (hn : AtOrBelow (stringToLabels job.domain) n) (hkn : Known (xs.map (·.1)) n) (hlen : octets n < 253) :
    ∃ said rs, TestOutcome w said ⟨n, job.types, false⟩ True job.pathFns job.nodeFns rs ∧ ∀ v ∈ rs, v ∈ vs := by
  obtain ⟨-, h1, -⟩ := RunSetting.generated hrun
  have hM := matches_self hk
  obtain ⟨N, ts', h2, h3⟩ := C24_classes thr' xs S.regular (Driver.req job) ⟨hdom, hsub, _, hM⟩
  have := mono_agree (f := fun n => LGraph.generateECs n (labelGraph thr' xs) (Driver.req job)) (fun n r => generateECs_mono n _ _ r) (h2 N (Nat.le_refl _)) h1
  simp at this
  subst this
  have hq : exactClass n job.types ∈ classes ts' := (h3 _).mpr ⟨_, n, n, false, hM, visits_known_plain hn hkn, hlen, .inl ⟨rfl, rfl⟩⟩
  obtain ⟨said, rs, h4, h5⟩ := S.of_class hrun hq
  exact ⟨said, rs, ⟨h4.answers, h4.paths, h4.ends, h4.loops, h4.kinds, fun _ => h4.missing rfl⟩, h5⟩

/-- **C79** A job about a single known name reports exactly what the checks say about that name. -/
theorem C79_single_name {ctx : Context} {w : World} {xs : List (RR × Nat × Nat)} {job : Job} (S : RunSetting ctx w xs job) {thr thr' fuel : Nat}
    {g' : LGraph} {ts : List Task} {vs : List Violation} (hrun : Driver.runSequential fuel thr ctx (labelGraph thr' xs) job = .ok (g', ts, vs))
    (hdom : Short (stringToLabels job.domain)) (hsub : job.subdomains = false) (hk : Known (xs.map (·.1)) (stringToLabels job.domain)) :
    ∃ said, TestOutcome w said ⟨stringToLabels job.domain, job.types, false⟩ True job.pathFns job.nodeFns vs := by
  obtain ⟨-, h1, -⟩ := RunSetting.generated hrun
  obtain ⟨N, ts', h2, -, h4⟩ := C29_single thr' xs (Driver.req job)
  have := mono_agree (f := fun n => LGraph.generateECs n (labelGraph thr' xs) (Driver.req job)) (fun n r => generateECs_mono n _ _ r) (h2 N (Nat.le_refl _)) h1
  simp at this
  subst this
  obtain ⟨m, ⟨k, hk1⟩, h5, h6, -⟩ := h4 hdom
  have hm : m = (stringToLabels job.domain).length := by
    have h7 := h5 _ _ (matches_self hk)
    have h8 := matches_le hk1
    exact Nat.le_antisymm h8 h7
  have e := h6 hm hsub
  obtain ⟨rs, h7, rfl⟩ := S.outcomes hrun
  rw [e] at h7
  cases h7 with
  | cons h8 h9 =>
    cases h9
    cases h8 with
    | test _ said _ h =>
      rw [List.flatten_cons, List.flatten_nil, List.append_nil]
      exact ⟨said, ⟨h.answers, h.paths, h.ends, h.loops, h.kinds, fun _ => h.missing rfl⟩⟩

/-- **C79** Every report of a run that is not about the structure of a delegation is called for by a check of the job about the resolution of a
class that was generated. -/
theorem C79_sound {ctx : Context} {w : World} {xs : List (RR × Nat × Nat)} {job : Job} (S : RunSetting ctx w xs job) {thr thr' fuel : Nat}
    {g' : LGraph} {ts : List Task} {vs : List Violation} (hrun : Driver.runSequential fuel thr ctx (labelGraph thr' xs) job = .ok (g', ts, vs))
    {v : Violation} (hv : v ∈ vs) : (∃ shown ps, v = .structural shown ps ∧ job.structural = true) ∨
      ∃ q ∈ classes ts, ∃ said rs, TestOutcome w said (ask q) (q.nonExistent = false) job.pathFns job.nodeFns rs ∧ v ∈ rs ∧
        (AboutPath v → ∃ f ∈ job.pathFns, ∃ p, Examined w said (ask q) p ∧ Reports (ask q) (transcript said p) v f) := by
  obtain ⟨-, h1, -⟩ := RunSetting.generated hrun
  have hshape := tasks_shape thr' xs S.regular (Driver.req job) h1
  obtain ⟨rs, h2, rfl⟩ := S.outcomes hrun
  obtain ⟨r, hr, hvr⟩ := List.mem_flatten.mp hv
  obtain ⟨t, ht, h3⟩ := forall₂_mem h2 hr
  cases h3 with
  | test q said _ h => exact .inr ⟨q, (mem_classes q ts).mpr ht, said, r, h, hvr, fun ha => h.paths.sound v hvr ha⟩
  | structural u shown n hk hn =>
    left
    rcases hshape _ ht with ⟨q, e, _⟩ | ⟨hs, _⟩
    · cases e
    · unfold structuralReports at hvr
      dsimp only at hvr
      split at hvr
      · exact ⟨_, _, List.mem_singleton.mp hvr, hs⟩
      · cases hvr

/-- **C79** If the top servers have zone files the answers are determined by the zones, and the outcome holds of any rule that describes them. -/
theorem C79_determined {w : World} (hw : WellFormed w) (htop : ∀ s ∈ w.top, w.Listed s) {said said' : Str → Ask → List Answer} {a0 : Ask}
    {strict : Prop} {pf : List PathFn} {nf : List NodeFn} {vs : List Violation} (h : TestOutcome w said a0 strict pf nf vs)
    (h' : Answering w a0 said') : TestOutcome w said' a0 strict pf nf vs := h.transfer hw htop h'

/-- **C79** The setting is what one gets from files and a job file: each file loaded as a zone with one apex, no label that is a lone dot, no DNAME
at the root, and some type asked for. -/
theorem C79_setting {thr : Nat} {lint : Bool} {read : Str → Str} {exists_ : Str → Bool} {m : Driver.Meta} {d : Loaded}
    (h : setContext thr lint read exists_ m = .ok d) (hds : NoDS read m) (htop : ∀ s ∈ m.topNameServers.getD [], s ≠ [])
    (hall : d.ctx.zones.length = d.ctx.counter) {prev job : Job} {u : UJob} (hj : Driver.setJob prev u = .ok job) (hnum : Numbered u)
    (ht : job.types ≠ 0)
    (hw : Tidy d.ctx) : ∃ w xs, d.lg = labelGraph thr xs ∧ Coherent d w xs ∧ RunSetting d.ctx w xs job := by
  obtain ⟨w, xs, h1, h2, h3, h4, h5, h6, h7⟩ := loaded_facts h hds htop hall
  have ho : ∀ id, ∀ r ∈ w.log id, ['.'] ∉ r.name := by
    intro id r hr
    obtain ⟨p, hp, -, hr⟩ := held_of_log h1 hr
    exact hw.owners p hp r hr
  have hta : ∀ id, ∀ r ∈ w.log id, r.type = .DNAME → ['.'] ∉ stringToLabels r.rdata ∧ r.name ≠ [] := by
    intro id r hr
    obtain ⟨p, hp, -, hr⟩ := held_of_log h1 hr
    exact hw.targets p hp r hr
  have hone : ∀ id, ∀ r ∈ w.log id, ∀ s ∈ w.log id, r.type = .SOA → s.type = .SOA → r.name = s.name := by
    intro id r hr s hs
    obtain ⟨p, hp, ha, hr⟩ := held_of_log h1 hr
    exact hw.apex p hp r hr s (ha s hs)
  obtain ⟨hp, hn⟩ := configured_of_setJob hj hnum w h5
  refine ⟨w, xs, h2, h3, h1, h4, ⟨?_, ?_⟩, h7, ht, hp, hn, fun _ => ⟨h6, fun n => C64_inZones d w xs h3 h6 n hone⟩⟩
  · rintro n (rfl | ⟨r, hr, _, hn⟩) hd
    · cases hd
    · obtain ⟨x, hx, rfl⟩ := List.mem_map.mp hr
      rcases hn with ⟨rest, e⟩ | ⟨ht, rest, e⟩
      · exact ho _ _ (h6.stored x hx) (by rw [e]; exact List.mem_append_left _ hd)
      · exact (hta _ _ (h6.stored x hx) ht).1 (by rw [e]; exact List.mem_append_left _ hd)
  · rintro t ⟨r, hr, hd, e, _⟩
    obtain ⟨x, hx, rfl⟩ := List.mem_map.mp hr
    exact (hta _ _ (h6.stored x hx) hd).2 e

/-! ### A sample run, with a DNAME -/

/-- The records of `sampleWorld`. -/
def sampleRecords : List (RR × Nat × Nat) := sampleWorld.zones.flatMap (fun p => p.2.map (fun r => (r, p.1, 0)))

/-- All checks, for all names under `com`. -/
def fullJob (sub : Bool) (dom : String) : Job where
  domain := dom.toList
  subdomains := sub
  types := TypeSet.single .A
  pathFns := outcomeChecks
  nodeFns := outcomeEnds

theorem sample_runSetting (sub : Bool) (dom : String) : RunSetting sampleCtx sampleWorld sampleRecords (fullJob sub dom) := by
  have key : ∀ r ∈ sampleRecords.map (·.1), (∀ l ∈ r.name, l ≠ ['.'] ∧ l.length ≤ 63) ∧
      (r.type = .DNAME → (∀ l ∈ stringToLabels r.rdata, l ≠ ['.'] ∧ l.length ≤ 63) ∧ r.name ≠ []) := by decide +kernel
  have hlab : ∀ n, Known (sampleRecords.map (·.1)) n → ∀ l ∈ n, l ≠ ['.'] ∧ l.length ≤ 63 := by
    rintro n (rfl | ⟨r, hr, _, ⟨rest, e⟩ | ⟨h, rest, e⟩⟩) l hl
    · cases hl
    · exact (key r hr).1 l (by rw [e]; exact List.mem_append_left _ hl)
    · exact ((key r hr).2 h).1 l (by rw [e]; exact List.mem_append_left _ hl)
  refine ⟨sampleCtx_represents, sampleWorld_wellFormed, ⟨fun n hn h => (hlab n hn _ h).1 rfl, ?_⟩, fun n hn l hl => (hlab n hn l hl).2,
    (by show TypeSet.single .A ≠ 0; decide +kernel), ?_, ?_, fun h => nomatch h⟩
  · rintro t ⟨r, hr, hd, e, _⟩
    exact ((key r hr).2 hd).2 e
  · intro f hf
    simp only [fullJob, outcomeChecks, List.mem_cons, List.not_mem_nil, or_false] at hf
    rcases hf with rfl | rfl | rfl | rfl | rfl | rfl | rfl | rfl | rfl | rfl <;> first | trivial | exact List.cons_ne_nil _ _
  · intro f hf
    simp only [fullJob, outcomeEnds, List.mem_cons, List.not_mem_nil, or_false] at hf
    rcases hf with rfl | rfl | rfl | rfl <;> first | trivial | exact ⟨List.pairwise_singleton _ _, by decide +kernel⟩

example : Known (sampleRecords.map (·.1)) (stringToLabels "sub.com.".toList) ∧ Short (stringToLabels "sub.com.".toList) ∧
    (∀ s ∈ ["sub.com.", "ns.sub.com.", "www.sub.com."], Known (sampleRecords.map (·.1)) (stringToLabels s.toList) ∧
      AtOrBelow (stringToLabels "sub.com.".toList) (stringToLabels s.toList) ∧ octets (stringToLabels s.toList) < 253) ∧
    ∀ s ∈ sampleWorld.top, s ∈ sampleWorld.nsZones.map (·.1) := by decide +kernel

/-- The run about the names under `sub.com` ends; the wrong value at `www.sub.com` is reported. -/
example : (match Driver.runSequential 400 500 sampleCtx (labelGraph 500 sampleRecords) (fullJob true "sub.com.") with
    | .ok (_, ts, vs) => decide ((classes ts).length = 6 ∧
        .responseValue "3.3.3.3".toList [("2.2.2.2".toList, "www.sub.com.".toList, "ns.sub.com.".toList)] ∈ vs)
    | _ => false) = true := by decide +kernel

/-- The run about the single name `a.com`. -/
example : (match Driver.runSequential 400 500 sampleCtx (labelGraph 500 sampleRecords) (fullJob false "a.com.") with
    | .ok (_, ts, vs) => decide (ts.length = 1 ∧ .rewrites "a.com.".toList 1 0 ∈ vs)
    | _ => false) = true := by decide +kernel

end Groot
