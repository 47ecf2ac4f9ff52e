import Verif.Lemmas.AskedRun
import Verif.Props.Main
import Verif.Props.Program
import Verif.Props.Text

/-!
# C93: only what was asked for is reported
-/

namespace Groot

open Spec Driver

/-- What a violation of a job was asked for. -/
theorem solicited_of_job {us : List UJob} {prev job : Job} {u : UJob} (hu : u ∈ us) (hj : setJob prev u = .ok job)
    (hs : job.structural = true → SomeStructural us) {v : Violation} (h : JobAns job.pathFns job.nodeFns job.structural v) :
    (∃ ns, v = .loop ns) ∨ (∃ p ∈ u.properties, ∃ want, Asks p want ∧ Fulfils want v) ∨ (SomeStructural us ∧ Fulfils .structural v) := by
  obtain ⟨ws, h1, h2, h3⟩ := ((C57_job prev u job).mp hj).checks
  rcases h with h | ⟨f, hf, h⟩ | ⟨f, hf, h⟩ | ⟨he, h⟩
  · exact .inl h
  · rw [h2] at hf
    obtain ⟨w, hw, e⟩ := List.mem_filterMap.mp hf
    obtain ⟨p, hp, ha⟩ := forall₂_mem h1 hw
    cases w <;> simp only [Wanted.path?] at e <;> first | (cases e; done) | skip
    injection e with e
    subst e
    exact .inr (.inl ⟨p, hp, _, ha, h⟩)
  · rw [h3] at hf
    obtain ⟨w, hw, e⟩ := List.mem_filterMap.mp hf
    obtain ⟨p, hp, ha⟩ := forall₂_mem h1 hw
    cases w <;> simp only [Wanted.node?] at e <;> first | (cases e; done) | skip
    injection e with e
    subst e
    exact .inr (.inl ⟨p, hp, _, ha, h⟩)
  · exact .inr (.inr ⟨hs he, h⟩)

theorem stored_of_job {prev job : Job} {u : UJob} (h : setJob prev u = .ok job) : ∀ f ∈ job.pathFns, f.Stored := by
  obtain ⟨ws, h1, h2, -⟩ := ((C57_job prev u job).mp h).checks
  intro f hf
  rw [h2] at hf
  obtain ⟨x, hx, e⟩ := List.mem_filterMap.mp hf
  cases x <;> simp only [Wanted.path?, reduceCtorEq, Option.some.injEq] at e
  subst e
  obtain ⟨p, -, ha⟩ := forall₂_mem h1 hx
  cases ha with
  | queryRewrite l _ _ hl => exact fun e => hl (List.map_eq_nil_iff.mp e)
  | nsContact l _ _ hl => exact fun e => hl (List.map_eq_nil_iff.mp e)
  | _ => trivial

/-- What the JSON consumer adds for the items of a job. -/
theorem permitted_collect {us : List UJob} {prev job : Job} {u : UJob} (hu : u ∈ us) (hj : setJob prev u = .ok job)
    (hs : job.structural = true → SomeStructural us) {before items : List Violation} (hb : ∀ v ∈ before, Permitted us v)
    (hi : ∀ v ∈ items, JobAns job.pathFns job.nodeFns job.structural v) : ∀ v ∈ collect before items, Permitted us v := by
  intro v hv
  obtain ⟨groups, hg, h, -⟩ := C55_collected before items
  rcases (h v).mp hv with h | ⟨h, hd⟩ | ⟨⟨q, c, hqc⟩, rfl⟩
  · exact hb v h
  · rcases solicited_of_job hu hj hs (hi v h) with h | ⟨p, hp, want, ha, h⟩ | ⟨⟨u', hu', p, hp, hn⟩, h⟩
    · exact .inl h
    · exact .inr (.inl ⟨hd, u, hu, p, hp, want, ha, h⟩)
    · exact .inr (.inl ⟨hd, u', hu', p, hp, .structural, .structural hn, h⟩)
  · refine .inr (.inr ⟨groups, u, rfl, ?_, hu, ?_⟩)
    · obtain ⟨qs, hqs⟩ := hg.all q c hqc
      intro e
      rw [e] at hqs
      cases hqs
    · rintro ⟨c, qs⟩ hm
      obtain ⟨h1, -, h2⟩ := hg.members c qs hm
      refine ⟨h1, ?_⟩
      obtain ⟨x, hx⟩ := List.exists_mem_of_ne_nil qs h1
      rcases solicited_of_job hu hj hs (hi _ ((h2 x).mp hx)) with ⟨ns, e⟩ | ⟨p, hp, want, ha, h⟩ | ⟨-, h⟩
      · cases e
      · cases h with
        | «alias» ds q n hn => exact ⟨p, hp, ds, ha, n, hn, rfl⟩
      · cases h

theorem jobLoop_permitted (fuel thr : Nat) (ctx : Context) (all : List UJob) : ∀ (us : List UJob) (lg : LGraph) (job : Job) (t : Totals), us ⊆ all →
    (job.structural = true → SomeStructural all) → (∀ v ∈ t.violations, Permitted all v) →
    Yields (fun r => ∀ v ∈ r.violations, Permitted all v) (jobLoop fuel thr ctx lg job t us)
  | [], _, _, t, _, _, h => by unfold jobLoop; exact .ok h
  | u :: us, lg, job, t, hsub, hst, h => by
    unfold jobLoop
    refine .bind (Q := fun j => setJob job u = .ok j) (fun j hj => hj) (fun j hj => ?_)
    have hu : u ∈ all := hsub (by simp)
    have hst' : j.structural = true → SomeStructural all := by
      intro e
      rcases ((C57_job _ _ _).mp hj).structural.mp e with h | h
      · exact hst h
      · exact ⟨u, hu, h⟩
    refine .bind (Q := fun r => ∀ v ∈ r.2.violations, Permitted all v) ?_ (fun r hr => jobLoop_permitted fuel thr ctx all us _ _ _ (fun x hx => hsub (by simp [hx])) hst' hr)
    unfold runJob
    exact .bind (runSequential_ans fuel thr ctx lg j (stored_of_job hj)) (fun r hr => .ok (permitted_collect hu hj hst' h hr))

/-- **C93** Only what was asked for is reported: whatever the input, each violation of the report tells of a loop, answers a property of one of the jobs, or
groups the aliases of canonical names listed by one of the jobs. -/
theorem C93_only_asked (fuel thr : Nat) (lint : Bool) (read : Str → Str) (exists_ : Str → Bool) (m : Meta) (us : List UJob) (t : Totals)
    (h : main fuel thr lint read exists_ m (some us) = .ok t) : ∀ v ∈ t.violations, Permitted us v := by
  rw [main_eq] at h
  obtain ⟨d, -, h⟩ := bind_ok_iff.mp h
  exact jobLoop_permitted fuel thr d.ctx us us d.lg {} {} (fun _ h => h) (fun h => nomatch h) (fun _ h => nomatch h) t h

/-- **C93** The same for the text of the output file. -/
theorem C93_output (ord : List Str → List Str) (hord : ∀ l, (ord l).Perm l) (fuel thr : Nat) (lint : Bool) (read : Str → Str) (exists_ : Str → Bool)
    (m : Meta) (us : List UJob) (hin : ∀ s, OfInput read m (some us) s → Utf8 s) (f : Files)
    (h : program ord fuel thr lint read exists_ m (some us) = .ok f) :
    ∃ js, JsonText.parse f.output = some (.arr js) ∧ ∀ j ∈ js, ∃ v, Permitted us v ∧ (leaves j).Perm (entries ord v) := by
  obtain ⟨-, -, t, js, h1, h2, -, -, h3⟩ := C77_utf8_output ord hord fuel thr lint read exists_ m (some us) hin f h
  refine ⟨js, h2, fun j hj => ?_⟩
  obtain ⟨v, hv, e⟩ := h3 j hj
  exact ⟨v, C93_only_asked _ _ _ _ _ _ _ _ h1 v hv, e⟩

/-- What has been received by the JSON consumer of a job answers the checks of the job. -/
theorem threads_ans {fuel thr : Nat} {ctx : Context} {lg lg' : LGraph} {job : Job} {items : List Violation} (hp : ∀ f ∈ job.pathFns, f.Stored)
    (h : Threads fuel thr ctx lg job items lg') : ∀ v ∈ items, JobAns job.pathFns job.nodeFns job.structural v := by
  have he : ∀ t, TaskFor job.structural t → ∀ v, .inl v ∈ emitted fuel thr ctx lg job t → JobAns job.pathFns job.nodeFns job.structural v := by
    intro t ht v hv
    unfold emitted at hv
    cases ho : outputs fuel thr ctx lg job t with
    | ok l => rw [ho] at hv; exact outputs_ans fuel thr ctx lg job hp t ht l ho v hv
    | _ => rw [ho] at hv; cases hv
  cases h with
  | producers lg' es hj s hs hr =>
    refine (full_holding (st := job.structural) he ?_ hs).1.collected
    intro fs hfs f hf
    unfold Prod.ofJob Prod.start at hfs
    obtain ⟨v, -, rfl⟩ := List.mem_map.mp hfs
    rw [List.mem_singleton.mp hf]
    exact id
  | generator hj n lg' ts hg s hs hr =>
    refine (Holding.reachable he ?_ hs).1.collected
    intro l hl t ht
    rw [List.mem_singleton.mp hl] at ht
    exact generateECs_tasks n lg (req job) _ hg t ht

theorem schedules_permitted {fuel thr : Nat} {ctx : Context} {all : List UJob} {lg : LGraph} {job : Job} {vs out : List Violation} {us : List UJob}
    (h : Schedules fuel thr ctx lg job vs us out) (hsub : us ⊆ all) (hst : job.structural = true → SomeStructural all)
    (hv : ∀ v ∈ vs, Permitted all v) : ∀ v ∈ out, Permitted all v := by
  induction h with
  | done => exact hv
  | job lg lg' job job' vs items out u us hj ht _ ih =>
    have hu : u ∈ all := hsub (by simp)
    have hst' : job'.structural = true → SomeStructural all := by
      intro e
      rcases ((C57_job _ _ _).mp hj).structural.mp e with h | h
      · exact hst h
      · exact ⟨u, hu, h⟩
    exact ih (fun x hx => hsub (by simp [hx])) hst' (permitted_collect hu hj hst' hv (threads_ans (stored_of_job hj) ht))

/-- **C93** The same whatever the threads do. -/
theorem C93_threads (fuel thr : Nat) (ctx : Context) (lg : LGraph) (us : List UJob) (out : List Violation)
    (h : Schedules fuel thr ctx lg {} [] us out) : ∀ v ∈ out, Permitted us v :=
  schedules_permitted h (fun _ h => h) (fun h => nomatch h) (fun _ h => nomatch h)

/-- **C93** A QueryRewrite or NameserverContact property that allows the root reports nothing: every name is below the root. -/
theorem C93_root_allowed (want : Wanted) (v : Violation) (ds : List Name) (h0 : [] ∈ ds)
    (hw : want = .path (.queryRewrite ds) ∨ want = .path (.nsContact ds)) : ¬ Fulfils want v := by
  intro h
  rcases hw with rfl | rfl
  · cases h with
    | queryRewrite _ q ns target h => exact h [] h0 ⟨_, rfl⟩
  · cases h with
    | nsContact _ q ns _ h => exact h [] h0 ⟨_, rfl⟩

/-- **C93** What the program reports without a job file: loops, paths of more than two hops or more than one rewrite, inconsistent and lame delegations,
and rewrites that end nowhere. -/
theorem C93_default (fuel thr : Nat) (lint : Bool) (read : Str → Str) (exists_ : Str → Bool) (m : Meta) (t : Totals)
    (h : main fuel thr lint read exists_ m none = .ok t) : ∀ v ∈ t.violations,
      (∃ ns, v = .loop ns) ∨ (∃ q k, v = .hops q k 2 ∧ 2 < k) ∨ (∃ q k, v = .rewrites q k 1 ∧ 1 < k) ∨ (∃ q a b gl, v = .delegation q a b gl) ∨
        (∃ q a b, v = .lame q a b) ∨ ∃ q tg ns, v = .blackhole q tg ns := by
  rw [C75_default] at h
  intro v hv
  have names : ∀ p ∈ defaultUJob.properties, ∀ want, Asks p want →
      want = .path (.hops 2) ∨ want = .path (.rewrites 1) ∨ want = .path .delegation ∨ want = .path .lame ∨ want = .path (.queryRewrite [[]]) ∨
        want = .path .blackholing := by
    obtain ⟨ws, h1, h2, h3⟩ := ((C57_job {} defaultUJob (setDefaultJob {} ".".toList)).mp (by decide +kernel)).checks
    have hj : JobMeans {} defaultUJob (setDefaultJob {} ".".toList) := (C57_job _ _ _).mp (by decide +kernel)
    intro p hp want ha
    obtain ⟨g1, g2⟩ := pathFn_of_asks hj hp ha
    have e0 : stringToLabels (toLower ".".toList) = [] := by decide +kernel
    cases want with
    | path f =>
      have := g1 f rfl
      unfold setDefaultJob at this
      simp only [e0, List.mem_cons, List.not_mem_nil, or_false] at this
      simpa using this
    | node f => exact absurd (g2 f rfl) (by simp [setDefaultJob])
    | structural =>
      exact absurd ((hj.structural).mpr (.inr ⟨p, hp, by cases ha; assumption⟩)) (by decide +kernel)
    | nothing =>
      exfalso
      cases ha with
      | skipped h hv =>
        have : ∀ p ∈ defaultUJob.properties, p.value ≠ .strs [] := by decide +kernel
        exact this p hp hv
      | unknown h =>
        have : ∀ p ∈ defaultUJob.properties, p.name ∈ propertyNames := by decide +kernel
        exact h (this p hp)
  rcases C93_only_asked _ _ _ _ _ _ _ _ h v hv with h | ⟨-, u, hu, p, hp, want, ha, h⟩ | ⟨groups, u, -, hne, hu, h⟩
  · exact .inl h
  · rw [List.mem_singleton.mp hu] at hp
    rcases names p hp want ha with rfl | rfl | rfl | rfl | rfl | rfl
    · cases h with | hops _ q k _ h => exact .inr (.inl ⟨q, k, rfl, by exact_mod_cast h⟩)
    · cases h with | rewrites _ q k h => exact .inr (.inr (.inl ⟨q, k, rfl, by exact_mod_cast h⟩))
    · cases h with | delegation q a b gl => exact .inr (.inr (.inr (.inl ⟨q, a, b, gl, rfl⟩)))
    · cases h with | lame q a b => exact .inr (.inr (.inr (.inr (.inl ⟨q, a, b, rfl⟩))))
    · exact absurd h (C93_root_allowed _ _ [[]] (by simp) (.inl rfl))
    · cases h with | blackholing q tg ns => exact .inr (.inr (.inr (.inr (.inr ⟨q, tg, ns, rfl⟩))))
  · obtain ⟨g, hg⟩ := List.exists_mem_of_ne_nil groups hne
    obtain ⟨-, p, hp, ds, ha, -⟩ := h g hg
    rw [List.mem_singleton.mp hu] at hp
    rcases names p hp _ ha with e | e | e | e | e | e <;> cases e

/-- **C93** Disagreement with the intention: the job run without a job file contains a QueryRewrite check, but it allows everything below the domain of
that job, which is the root, so it never reports anything. -/
theorem C93_disagreement_default_rewrite (fuel thr : Nat) (lint : Bool) (read : Str → Str) (exists_ : Str → Bool) (m : Meta) (t : Totals)
    (h : main fuel thr lint read exists_ m none = .ok t) :
    (∃ ds, .queryRewrite ds ∈ (setDefaultJob {} ".".toList).pathFns) ∧ ∀ q tg ns ds, .queryRewrite q tg ns ds ∉ t.violations := by
  refine ⟨⟨_, by unfold setDefaultJob; simp; rfl⟩, fun q tg ns ds hv => ?_⟩
  rcases C93_default fuel thr lint read exists_ m t h _ hv with ⟨_, e⟩ | ⟨_, _, e, _⟩ | ⟨_, _, e, _⟩ | ⟨_, _, _, _, e⟩ | ⟨_, _, _, e⟩ | ⟨_, _, _, e⟩ <;>
    cases e

/-! ### A run that reports what was asked for -/

example : ∃ t, main 300 500 true twoContents (fun _ => true) twoFiles (some twoJobs) = .ok t ∧ t.violations ≠ [] ∧ ∀ v ∈ t.violations, Permitted twoJobs v := by
  obtain ⟨t, h, -, h1, -⟩ := two_run
  exact ⟨t, h, fun e => (by rw [e] at h1; cases h1), C93_only_asked _ _ _ _ _ _ _ _ h⟩

/-- A violation that answers the first job, and ones that do not: another bound, and a kind not asked for. -/
example : Permitted twoJobs (.hops "a.com.".toList 2 1) ∧ ¬ Permitted twoJobs (.hops "a.com.".toList 2 3) ∧ ¬ Permitted twoJobs (.lame [] [] []) := by
  have names : ∀ u ∈ twoJobs, ∀ p ∈ u.properties, ∀ want, Asks p want → p.name ≠ "LameDelegation".toList ∧ (p.name = "Hops".toList → p.value = .int 1) := by
    intro u hu p hp _ _
    exact (by decide +kernel : ∀ u ∈ twoJobs, ∀ p ∈ u.properties, p.name ≠ "LameDelegation".toList ∧ (p.name = "Hops".toList → p.value = .int 1)) u hu p hp
  refine ⟨.inr (.inl ⟨trivial, _, List.mem_cons_self, _, List.mem_cons_self, _, .hops 1 rfl rfl, .hops 1 _ 2 (by decide) (by decide)⟩), ?_, ?_⟩
  · rintro (⟨_, e⟩ | ⟨-, u, hu, p, hp, want, ha, h⟩ | ⟨_, _, e, _⟩)
    · cases e
    · cases h with
      | hops _ _ _ _ h => exact absurd h (by decide)
    · cases e
  · rintro (⟨_, e⟩ | ⟨-, u, hu, p, hp, want, ha, h⟩ | ⟨_, _, e, _⟩)
    · cases e
    · cases h
      cases ha with
      | lame hn => exact (names u hu p hp _ (.lame hn)).1 hn
    · cases e

end Groot
