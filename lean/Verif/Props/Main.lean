import Verif.Lemmas.Main
import Verif.Lemmas.Lint

/-!
# C75: the whole program
-/

namespace Groot

open Spec Driver

/-- **C75** Whatever the files and the job file, if the program gets to the end, what it reports is what its jobs contribute, each job as if
run alone by a new driver on the same files (except that the structural check stays on): nothing is lost, nothing is invented,
nothing is listed twice; and the number of classes it states is the number of classes of all jobs. -/
theorem C75_report (fuel thr : Nat) (lint : Bool) (read : Str → Str) (exists_ : Str → Bool) (m : Meta) (us : List UJob) (t : Totals)
    (h : main fuel thr lint read exists_ m (some us) = .ok t) :
    ∃ (d : Loaded) (rs : List (List Task × List Violation)), setContext thr lint read exists_ m = .ok d ∧ rs.length = us.length ∧
      (∀ i r, rs[i]? = some r → Alone fuel thr d us i r.1 r.2) ∧ Reported (rs.map Prod.snd) t.violations ∧
      t.ecs = (rs.map (fun r => (classes r.1).length)).sum := by
  rw [main_eq] at h
  obtain ⟨d, h1, h⟩ := bind_ok_iff.mp h
  obtain ⟨w, xs, -, -, hlg, -⟩ := C64_loaded thr lint read exists_ m d h1
  obtain ⟨rs, e1, e2, e3, e4⟩ := jobLoop_runs hlg us [] {} {} t (by simp [SomeStructural]) h
  refine ⟨d, rs, h1, e1, ?_, ?_, by rw [e4]; simp⟩
  · intro i r hr
    simpa using e2 i r hr
  · rw [e3]
    simpa using reported_foldl [] (rs.map Prod.snd) [] reported_nil

theorem alone_plain {fuel thr : Nat} {d : Loaded} {us : List UJob} {i : Nat} {ts : List Task} {items : List Violation}
    (h : Alone fuel thr d us i ts items) (hs : ∀ u ∈ us, ¬ AsksStructural u) :
    ∃ u ∈ us, ∃ j lg, setJob {} u = .ok j ∧ runSequential fuel thr d.ctx d.lg j = .ok (lg, ts, items) := by
  obtain ⟨u, j, lg, h1, h2, h3⟩ := h
  have hu := List.mem_of_getElem? h1
  refine ⟨u, hu, j, lg, h2, ?_⟩
  have e : decide (SomeStructural (us.take (i + 1))) = j.structural := by
    have hj := ((C57_job _ _ _).mp h2).structural
    rw [Bool.eq_iff_iff, decide_eq_true_eq, hj]
    constructor
    · rintro ⟨v, hv, ha⟩; exact absurd ha (hs v (List.mem_of_mem_take hv))
    · rintro (ha | ha)
      · cases ha
      · exact absurd ha (hs u hu)
  rw [e] at h3
  exact h3

/-- **C75** The order of the jobs in the job file and repetitions of a job do not matter (when none asks for the structural check), nor
does how much fuel the model is given, up to the order in which the groups of aliases are listed. -/
theorem C75_order (fuel fuel' thr : Nat) (lint : Bool) (read : Str → Str) (exists_ : Str → Bool) (m : Meta) (us us' : List UJob) (t t' : Totals)
    (h : main fuel thr lint read exists_ m (some us) = .ok t) (h' : main fuel' thr lint read exists_ m (some us') = .ok t')
    (hsub : us ⊆ us') (hs : ∀ u ∈ us', ¬ AsksStructural u) : ∀ v ∈ t.violations, ∃ v' ∈ t'.violations, SameUpToOrder v v' := by
  obtain ⟨d, rs, a1, a2, a3, a4, -⟩ := C75_report _ _ _ _ _ _ _ _ h
  obtain ⟨d', rs', b1, b2, b3, b4, -⟩ := C75_report _ _ _ _ _ _ _ _ h'
  rw [a1] at b1
  injection b1 with b1
  subst b1
  refine reported_same a4 b4 ?_
  intro l hl
  obtain ⟨r, hr, rfl⟩ := List.mem_map.mp hl
  obtain ⟨i, hi⟩ := List.mem_iff_getElem?.mp hr
  obtain ⟨u, hu, j, lg, c1, c2⟩ := alone_plain (a3 i r hi) (fun u hu => hs u (hsub hu))
  obtain ⟨k, hk⟩ := List.mem_iff_getElem?.mp (hsub hu)
  have hlt : k < rs'.length := by rw [b2]; exact (List.getElem?_eq_some_iff.mp hk).1
  have hk' : rs'[k]? = some rs'[k] := List.getElem?_eq_getElem hlt
  obtain ⟨v, jv, lgv, d1, d2, d3⟩ := b3 k _ hk'
  rw [hk] at d1
  injection d1 with d1
  subst d1
  rw [c1] at d2
  injection d2 with d2
  subst d2
  have e : decide (SomeStructural (us'.take (k + 1))) = j.structural := by
    have hj := ((C57_job _ _ _).mp c1).structural
    rw [Bool.eq_iff_iff, decide_eq_true_eq, hj]
    constructor
    · rintro ⟨v, hv, ha⟩; exact absurd ha (hs v (List.mem_of_mem_take hv))
    · rintro (ha | ha)
      · cases ha
      · exact absurd ha (hs u (hsub hu))
  rw [e] at d3
  have := mono_agree (f := fun n => runSequential n thr d.ctx d.lg j) (fun n r => runSequential_mono thr d.ctx d.lg j n r) c2 d3
  refine ⟨_, List.mem_map_of_mem (List.getElem_mem hlt), fun v => ?_⟩
  injection this with e1 e2
  injection e2 with e2 e3
  rw [e3]

/-- **C75** Without a job file the program does what it does with a job file holding just the default job. -/
theorem C75_default (fuel thr : Nat) (lint : Bool) (read : Str → Str) (exists_ : Str → Bool) (m : Meta) :
    main fuel thr lint read exists_ m none = main fuel thr lint read exists_ m (some [defaultUJob]) := by
  have e : setJob {} defaultUJob = .ok (setDefaultJob {} ".".toList) := by decide +kernel
  rw [main_eq, main_eq]
  refine congrArg (fun f => setContext thr lint read exists_ m >>= f) (funext fun d => ?_)
  show _ = jobLoop fuel thr d.ctx d.lg {} {} [defaultUJob]
  unfold jobLoop afterLoading
  dsimp only
  rw [e, Res.ok_bind]
  rfl

/-- **C75** Asking for lint messages about the zone files does not change the report. -/
theorem C75_lint (fuel thr : Nat) (lint lint' : Bool) (read : Str → Str) (exists_ : Str → Bool) (m : Meta) (jobs : Option (List UJob)) :
    main fuel thr lint read exists_ m jobs = main fuel thr lint' read exists_ m jobs := by
  have e := setContext_lint thr lint lint' read exists_ m
  rw [main_eq, main_eq]
  revert e
  generalize setContext thr lint read exists_ m = a
  generalize setContext thr lint' read exists_ m = b
  intro e
  cases a with
  | ok a => cases b with
    | ok b =>
      simp only [Res.ok_bind] at e ⊢
      injection e with e
      have e1 : a.lg = b.lg := congrArg (fun x => x.lg) e
      have e2 : a.ctx = b.ctx := congrArg (fun x => x.ctx) e
      unfold afterLoading
      rw [e1, e2]
    | _ => cases e
  | _ => cases b with
    | ok b => cases e
    | _ => first | rfl | cases e

/-- **C75** The check for missing glue records that linting adds never aborts once the files are loaded, and its issues are exactly the NS
records of the zones whose server lies in the zone and has no address there, each with the server of the file. -/
theorem C75_glue (thr : Nat) (lint : Bool) (read : Str → Str) (exists_ : Str → Bool) (m : Meta) (d : Loaded)
    (h : setContext thr lint read exists_ m = .ok d) :
    ∃ w xs issues, Represents d.ctx w ∧ Coherent d w xs ∧ glueCheck thr d = .ok issues ∧
      ∀ i, i ∈ issues ↔ ∃ p ∈ w.zones, ∃ ns, d.ctx.zoneNs.lookup p.1 = some ns ∧ ∃ r ∈ stored p.2, MissesGlue p.2 r ∧
        i = ⟨ns, present (soaOwner (stored p.2)), showRecord r⟩ := by
  obtain ⟨w, xs, h1, -, -, h2, -⟩ := C64_loaded thr lint read exists_ m d h
  obtain ⟨is, h3, h4⟩ := glueCheck_spec (thr := thr) h1 h2
  exact ⟨w, xs, is, h1, h2, h3, h4⟩

/-- If the run of every job ends, the program does. -/
theorem main_ends {thr : Nat} {lint : Bool} {read : Str → Str} {exists_ : Str → Bool} {m : Meta} {d : Loaded}
    (h : setContext thr lint read exists_ m = .ok d)
    (hends : ∀ prev u job, setJob prev u = .ok job → Numbered u → job.types ≠ 0 → ∃ N, ∀ fuel, N ≤ fuel → ∃ r, runSequential fuel thr d.ctx d.lg job = .ok r)
    (us : List UJob) (hu : ∀ u ∈ us, Acceptable u ∧ AsksType u) :
    ∃ N t, ∀ fuel, N ≤ fuel → main fuel thr lint read exists_ m (some us) = .ok t := by
  obtain ⟨w, xs, -, -, hlg, -⟩ := C64_loaded thr lint read exists_ m d h
  have key : ∀ (us : List UJob), (∀ u ∈ us, Acceptable u ∧ AsksType u) → ∀ (job : Job) (t : Totals),
      ∃ N t', jobLoop N thr d.ctx d.lg job t us = .ok t' := by
    intro us
    induction us with
    | nil => intro _ job t; exact ⟨0, t, rfl⟩
    | cons u us ih =>
      intro hu job t
      obtain ⟨h1, h2⟩ := hu u (by simp)
      obtain ⟨j, hj⟩ := setJob_of_acceptable (prev := job) h1
      obtain ⟨N, hN⟩ := hends job u j hj h1.2 (types_ne_zero hj h2)
      obtain ⟨r, hr⟩ := hN N (Nat.le_refl _)
      have hg : r.1 = d.lg := by rw [hlg] at hr ⊢; exact runSequential_graph hr
      have hrun : ∀ n, N ≤ n → runJob n thr d.ctx d.lg t j = .ok (d.lg, ⟨collect t.violations r.2.2, t.ecs + ecCount r.2.1⟩) := by
        intro n hn
        unfold runJob
        rw [mono_le (f := fun n => runSequential n thr d.ctx d.lg j) (fun n r => runSequential_mono thr d.ctx d.lg j n r) hn hr, Res.ok_bind, hg]
      obtain ⟨N', t', h'⟩ := ih (fun v hv => hu v (by simp [hv])) j ⟨collect t.violations r.2.2, t.ecs + ecCount r.2.1⟩
      refine ⟨max N N', t', ?_⟩
      unfold jobLoop
      rw [hj, Res.ok_bind, hrun _ (Nat.le_max_left _ _), Res.ok_bind]
      exact mono_le (f := fun n => jobLoop n thr d.ctx d.lg j ⟨collect t.violations r.2.2, t.ecs + ecCount r.2.1⟩ us)
        (fun n r => jobLoop_mono thr d.ctx us n d.lg j _ r) (Nat.le_max_right _ _) h'
  obtain ⟨N, t, hN⟩ := key us hu {} {}
  refine ⟨N, t, fun fuel hf => ?_⟩
  refine mono_le (f := fun n => main n thr lint read exists_ m (some us)) (fun n r => main_mono thr lint read exists_ m (some us) n r) hf ?_
  rw [main_eq, h, Res.ok_bind]
  exact hN

/-- **C75** From the files to the report: if the files are good (each becomes a zone, with one apex) and every job is acceptable and
asks for some type, the program gets to the end, and its report does not depend on how much fuel the model is given. -/
theorem C75_finishes (thr : Nat) (lint : Bool) (read : Str → Str) (exists_ : Str → Bool) (m : Meta) (d : Loaded)
    (h : setContext thr lint read exists_ m = .ok d) (hds : NoDS read m) (htop : ∀ s ∈ m.topNameServers.getD [], s ≠ [])
    (hall : d.ctx.zones.length = d.ctx.counter) (hw : Tidy d.ctx) (us : List UJob) (hu : ∀ u ∈ us, Acceptable u ∧ AsksType u) :
    ∃ N t, ∀ fuel, N ≤ fuel → main fuel thr lint read exists_ m (some us) = .ok t := by
  exact main_ends h (fun _ _ _ hj hnum ht => C69_from_files h hds htop hall hj hnum ht hw) us hu

/-- **C75** Bad metadata ends the program before any job is run. -/
theorem C75_bad_metadata (fuel thr : Nat) (lint : Bool) (read : Str → Str) (exists_ : Str → Bool) (m : Meta) (jobs : Option (List UJob))
    (hm : ¬ ∃ tops zones, GoodMetadata exists_ m tops zones) : main fuel thr lint read exists_ m jobs = .exit := by
  have h := C58_sanity exists_ m
  have he : sanityCheck exists_ m = .exit := by
    rcases h.2 with e | e
    · exact absurd (h.1.mp e) hm
    · exact e
  rw [main_eq]
  unfold setContext
  rw [he]
  rfl

theorem jobLoop_bad {fuel thr : Nat} {ctx : Context} (us rest : List UJob) (lg : LGraph) (job : Job) (t0 t : Totals)
    (h : jobLoop fuel thr ctx lg job t0 us = .ok t) (u : UJob) (hu : ∀ prev, setJob prev u = .throw) :
    jobLoop fuel thr ctx lg job t0 (us ++ u :: rest) = .throw := by
  induction us generalizing lg job t0 with
  | nil =>
    show jobLoop fuel thr ctx lg job t0 (u :: rest) = .throw
    unfold jobLoop
    rw [hu, Res.throw_bind]
  | cons v us ih =>
    unfold jobLoop at h
    obtain ⟨j, h2, h⟩ := bind_ok_iff.mp h
    obtain ⟨r, h3, h⟩ := bind_ok_iff.mp h
    rw [List.cons_append]
    unfold jobLoop
    rw [h2, Res.ok_bind, h3, Res.ok_bind]
    exact ih _ _ _ h

/-- **C75** (disagreement) An unknown type name in a job makes the whole program throw, whatever the jobs before it found: the reports are
written only after the last job, so they are lost. -/
theorem C75_disagreement_bad_job (fuel thr : Nat) (lint : Bool) (read : Str → Str) (exists_ : Str → Bool) (m : Meta) (us rest : List UJob) (t : Totals)
    (h : main fuel thr lint read exists_ m (some us) = .ok t) (u : UJob) (ps ps' : List UProp) (p : UProp) (hu : u.properties = ps ++ p :: ps')
    (hok : Acceptable { u with properties := ps }) (hp : ¬ ValidTypes p) :
    main fuel thr lint read exists_ m (some (us ++ u :: rest)) = .throw := by
  rw [main_eq] at h ⊢
  obtain ⟨d, h1, h⟩ := bind_ok_iff.mp h
  rw [h1, Res.ok_bind]
  refine jobLoop_bad us rest _ _ _ _ h u (fun prev => ?_)
  obtain ⟨j, hj⟩ := setJob_of_acceptable (prev := prev) hok
  have := C57_unknown_type prev j _ p ps' hj hp
  dsimp only at this
  rwa [← hu] at this

theorem spawns_existing {thr : Nat} {xs : List (RR × Nat × Nat)} {job : Job} {lg : LGraph} {es : List (Nat × Int)}
    (h : Spawns (labelGraph thr xs) job lg es) : OnExisting xs (req job) ∧ lg = labelGraph thr xs := by
  obtain ⟨h1, h2, h3, h4, n, h5⟩ := h
  obtain ⟨names, hr⟩ := labelGraph_rep thr xs
  obtain ⟨es', m, e1, e2, e3, -⟩ := hr.search (stringToLabels job.domain) (Nat.le_refl _)
  have := mono_agree (f := fun n => LGraph.closestEnclosers n (labelGraph thr xs) (stringToLabels job.domain)) (fun n r => searchNode_mono n _ _ _ _ r) e1 h5
  injection this with a b
  subst b
  refine ⟨⟨h1, h2, ?_⟩, a.symm⟩
  obtain ⟨e, he⟩ := List.exists_mem_of_ne_nil _ h3
  obtain ⟨f1, k, _, f2⟩ := e3 e he
  have := h4 e he
  rw [f1] at this
  exact ⟨k, by rw [show (stringToLabels (req job).domain).length = m by exact_mod_cast this.symm]; exact f2⟩

theorem threads_items {fuel thr thr' : Nat} {ctx : Context} {xs : List (RR × Nat × Nat)} {job : Job} {items : List Violation} {lg : LGraph}
    (h : Threads fuel thr ctx (labelGraph thr' xs) job items lg) (hka : OnExisting xs (req job) → ∃ es, Disjoint thr' xs (req job) es)
    {ts : List Task} {v : List Violation} (hs : runSequential fuel thr ctx (labelGraph thr' xs) job = .ok (labelGraph thr' xs, ts, v)) :
    items.Perm v ∧ lg = labelGraph thr' xs := by
  have hgen : LGraph.generateECs fuel (labelGraph thr' xs) (req job) = .ok (labelGraph thr' xs, ts) := by
    unfold runSequential at hs
    obtain ⟨r, h1, hs⟩ := bind_ok_iff.mp hs
    obtain ⟨w, h2, hs⟩ := bind_ok_iff.mp hs
    injection hs with hs
    injection hs with e1 hs
    injection hs with e2 e3
    rw [h1, ← e1, ← e2]
  cases h with
  | producers lg' es hsp s hr hret =>
    obtain ⟨hj, rfl⟩ := spawns_existing hsp
    obtain ⟨-, -, -, -, n, he⟩ := hsp
    obtain ⟨es', hd⟩ := hka hj
    have hes : es' = es := by
      obtain ⟨f, hf⟩ := hd.search
      have := mono_agree (f := fun n => LGraph.closestEnclosers n (labelGraph thr' xs) (stringToLabels job.domain)) (fun n r => searchNode_mono n _ _ _ _ r) hf he
      simpa using this
    subst hes
    exact ⟨(C74_as_sequential fuel thr' thr ctx xs job ts v es' hj hd hs s hr hret).2,
      (C74_exactly_once thr' xs (req job) es' hj hd fuel ts hgen _ s hr hret).2.2.2.2.2.2⟩
  | generator hj n lg' ts' hg s hr hret =>
    have := mono_agree (f := fun n => LGraph.generateECs n (labelGraph thr' xs) (req job)) (fun n r => generateECs_mono n _ _ r) hgen hg
    injection this with e1 e2
    subst e1 e2
    exact ⟨(C55_as_sequential fuel thr ctx _ _ job ts v hs [ts] (by simp) s hr hret).2, rfl⟩

theorem Full.Leads.reachable {N : Nat} {types : TypeSet} {emit : Task → List (Violation ⊕ (Nat × Nat))} {pool : Prod.Pool} {s s' : Full.State N}
    (h : Full.Leads types emit s s') (hs : Full.Reachable types emit pool s) : Full.Reachable types emit pool s' := by
  induction h with
  | refl => exact hs
  | step _ h ih => exact .step ih h

theorem Conc.Leads.reachable {N : Nat} {T V A : Type} {emit : T → List (V ⊕ A)} {ps : List (List T)} {s s' : Conc.State N T V A}
    (h : Conc.Leads emit s s') (hs : Conc.Reachable emit ps s) : Conc.Reachable emit ps s' := by
  induction h with
  | refl => exact hs
  | step _ h ih => exact .step ih h

theorem threads_exist {fuel thr thr' : Nat} {ctx : Context} {xs : List (RR × Nat × Nat)} {job : Job}
    (hka : OnExisting xs (req job) → ∃ es, Disjoint thr' xs (req job) es) :
    ∃ items, Threads fuel thr ctx (labelGraph thr' xs) job items (labelGraph thr' xs) := by
  obtain ⟨N, ts, hts⟩ := C22_generation_never_aborts thr' xs (req job)
  by_cases hsp : ∃ lg' es, Spawns (labelGraph thr' xs) job lg' es
  · obtain ⟨lg', es, hsp⟩ := hsp
    obtain ⟨hj, rfl⟩ := spawns_existing hsp
    obtain ⟨es', hd⟩ := hka hj
    have hes : es' = es := by
      obtain ⟨-, -, -, -, n, he⟩ := hsp
      obtain ⟨f, hf⟩ := hd.search
      have := mono_agree (f := fun n => LGraph.closestEnclosers n (labelGraph thr' xs) (stringToLabels job.domain)) (fun n r => searchNode_mono n _ _ _ _ r) hf he
      simpa using this
    subst hes
    obtain ⟨s, h1, h2⟩ := C74_can_return thr' xs (req job) es' hj hd (Driver.emitted fuel thr ctx (labelGraph thr' xs) job) _ .start
    have h1 := h1.reachable .start
    have h3 := (C74_exactly_once thr' xs (req job) es' hj hd N ts (hts N (Nat.le_refl _)) _ s h1 h2).2.2.2.2.2.2
    refine ⟨s.rest.collected, ?_⟩
    have := Threads.producers (fuel := fuel) (thr := thr) (ctx := ctx) _ es' hsp s h1 h2
    rwa [h3] at this
  · obtain ⟨s, h1, h2⟩ := C54_can_return (N := Conc.consumerCount) (by decide) (Driver.emitted fuel thr ctx (labelGraph thr' xs) job) [ts] (Conc.start [ts]) .start
    exact ⟨s.collected, .generator hsp N _ ts (hts N (Nat.le_refl _)) s (h1.reachable .start) h2⟩

/-- **C75** The threads of all jobs can be scheduled to the end: the statement about every schedule is not empty. -/
theorem C75_some_schedule (fuel thr thr' : Nat) (ctx : Context) (xs : List (RR × Nat × Nat)) (us : List UJob)
    (hu : ∀ u ∈ us, Acceptable u)
    (hka : ∀ u ∈ us, ∀ req : LGraph.Req, req.domain = toLower u.domain → OnExisting xs req → ∃ es, Disjoint thr' xs req es) :
    ∃ out, Schedules fuel thr ctx (labelGraph thr' xs) {} [] us out := by
  have key : ∀ (us : List UJob), (∀ u ∈ us, Acceptable u) →
      (∀ u ∈ us, ∀ req : LGraph.Req, req.domain = toLower u.domain → OnExisting xs req → ∃ es, Disjoint thr' xs req es) →
      ∀ (job : Job) (vs : List Violation), ∃ out, Schedules fuel thr ctx (labelGraph thr' xs) job vs us out := by
    intro us
    induction us with
    | nil => intro _ _ job vs; exact ⟨vs, .done _ job vs⟩
    | cons u us ih =>
      intro hu hka job vs
      obtain ⟨j, hj⟩ := setJob_of_acceptable (prev := job) (hu u (by simp))
      obtain ⟨items, hi⟩ := threads_exist (fuel := fuel) (thr := thr) (ctx := ctx) (job := j) (hka u (by simp) (req j) ((C57_job _ _ _).mp hj).domain)
      obtain ⟨out, ho⟩ := ih (fun v hv => hu v (by simp [hv])) (fun v hv => hka v (by simp [hv])) j (collect vs items)
      exact ⟨out, .job _ _ _ _ _ _ _ _ _ hj hi ho⟩
  exact key us hu hka {} []

/-- **C75** The threads do not matter: under every schedule of the threads of every job, the program reports the same violations as when
everything happens in turn, up to the order of the groups of aliases, when the producers of each job keep apart. -/
theorem C75_every_schedule (fuel thr thr' : Nat) (ctx : Context) (xs : List (RR × Nat × Nat)) (us : List UJob) (t : Totals)
    (h : jobLoop fuel thr ctx (labelGraph thr' xs) {} {} us = .ok t)
    (hka : ∀ u ∈ us, ∀ req : LGraph.Req, req.domain = toLower u.domain → OnExisting xs req → ∃ es, Disjoint thr' xs req es)
    (out : List Violation) (ho : Schedules fuel thr ctx (labelGraph thr' xs) {} [] us out) :
    (∀ v ∈ out, ∃ v' ∈ t.violations, SameUpToOrder v v') ∧ (∀ v ∈ t.violations, ∃ v' ∈ out, SameUpToOrder v v') := by
  have key : ∀ (us : List UJob) (job : Job) (t0 : Totals) (vs : List Violation) (i1 i2 : List (List Violation)),
      (∀ u ∈ us, ∀ req : LGraph.Req, req.domain = toLower u.domain → OnExisting xs req → ∃ es, Disjoint thr' xs req es) →
      jobLoop fuel thr ctx (labelGraph thr' xs) job t0 us = .ok t → Schedules fuel thr ctx (labelGraph thr' xs) job vs us out →
      Reported i1 t0.violations → Reported i2 vs → List.Forall₂ List.Perm i1 i2 →
      ∃ j1 j2, Reported j1 t.violations ∧ Reported j2 out ∧ List.Forall₂ List.Perm j1 j2 := by
    intro us
    induction us with
    | nil =>
      intro job t0 vs i1 i2 _ h hs r1 r2 hp
      unfold jobLoop at h
      injection h with h
      subst h
      cases hs
      exact ⟨i1, i2, r1, r2, hp⟩
    | cons u us ih =>
      intro job t0 vs i1 i2 hka h hs r1 r2 hp
      unfold jobLoop at h
      obtain ⟨j, h2, h⟩ := bind_ok_iff.mp h
      obtain ⟨r, h3, h⟩ := bind_ok_iff.mp h
      unfold runJob at h3
      obtain ⟨x, h4, h3⟩ := bind_ok_iff.mp h3
      injection h3 with h3
      subst h3
      have hx := runSequential_graph h4
      cases hs with
      | job _ lg' _ job' _ items _ _ _ hj ht hrest =>
        rw [h2] at hj
        injection hj with hj
        subst hj
        obtain ⟨lg, ts, v⟩ := x
        dsimp only at hx h
        subst hx
        have hit := threads_items ht (fun he => hka u (by simp) (req j) ((C57_job _ _ _).mp h2).domain he) h4
        rw [hit.2] at hrest
        refine ih j _ _ (i1 ++ [v]) (i2 ++ [items]) (fun w hw => hka w (by simp [hw])) h hrest (r1.collect v) (r2.collect items) ?_
        exact List.rel_append hp (.cons hit.1.symm .nil)
  obtain ⟨j1, j2, r1, r2, hp⟩ := key us {} {} [] [] [] hka h ho reported_nil reported_nil .nil
  constructor
  · refine reported_same r2 r1 ?_
    intro l hl
    obtain ⟨l', hl', hll⟩ := forall₂_mem hp hl
    exact ⟨l', hl', fun v => hll.mem_iff.symm⟩
  · refine reported_same r1 r2 ?_
    intro l hl
    obtain ⟨l', hl', hll⟩ := forall₂_mem' hp hl
    exact ⟨l', hl', fun v => hll.mem_iff⟩

/-- **C75** The same from the files: no DNAME above a domain asked for is enough for the producers to keep apart. -/
theorem C75_every_schedule_no_dname (fuel thr : Nat) (lint : Bool) (read : Str → Str) (exists_ : Str → Bool) (m : Meta) (d : Loaded)
    (hd : setContext thr lint read exists_ m = .ok d) (us : List UJob) (t : Totals) (h : main fuel thr lint read exists_ m (some us) = .ok t)
    (hall : d.ctx.zones.length = d.ctx.counter)
    (hno : ∀ u ∈ us, ∀ p ∈ d.ctx.zones, ∀ r ∈ heldBy p.2, r.type = .DNAME → AtOrBelow r.name (stringToLabels (toLower u.domain)) →
      r.name = stringToLabels (toLower u.domain))
    (out : List Violation) (ho : Schedules fuel thr d.ctx d.lg {} [] us out) :
    (∀ v ∈ out, ∃ v' ∈ t.violations, SameUpToOrder v v') ∧ (∀ v ∈ t.violations, ∃ v' ∈ out, SameUpToOrder v v') := by
  rw [main_eq, hd, Res.ok_bind] at h
  obtain ⟨w, xs, h1, -, h2, h3, -⟩ := C64_loaded thr lint read exists_ m d hd
  have hreg := C64_registered d w xs h1 h3 hall
  unfold afterLoading at h
  dsimp only at h
  rw [h2] at h ho
  refine C75_every_schedule fuel thr thr d.ctx xs us t h ?_ out ho
  intro u hu rq hq _
  obtain ⟨e, he⟩ := C74_below_no_dname thr xs rq (by
    rintro p tg hp hne ⟨r, hr, ht, rfl, _⟩
    obtain ⟨x, hx, rfl⟩ := List.mem_map.mp hr
    obtain ⟨q, hq', -, hh⟩ := held_of_log h1 (hreg.stored x hx)
    rw [hq] at hp hne
    exact hne (hno u hu q hq' _ hh ht hp))
  exact ⟨[e], he⟩

/-! ### A whole run -/

/-- Two jobs: names at and below `com` may need one hop, and aliases of `www.sub.com` are collected; `a.com` may not be rewritten. -/
def twoJobs : List UJob :=
  [⟨"COM".toList, true, [⟨"Hops".toList, some ["A".toList], .int 1⟩, ⟨"AllAliases".toList, some ["A".toList], .strs ["www.sub.com".toList]⟩]⟩,
   ⟨"a.com".toList, false, [⟨"Rewrites".toList, none, .int 0⟩]⟩]

/-- The program run on the two files with the two jobs. -/
theorem two_run : ∃ t, main 300 500 true twoContents (fun _ => true) twoFiles (some twoJobs) = .ok t ∧ t.ecs = 11 ∧
    .hops "a.com.".toList 2 1 ∈ t.violations ∧ .rewrites "a.com.".toList 1 0 ∈ t.violations ∧
    .allAliases [("www.sub.com.".toList, ["a.com.".toList])] ∈ t.violations := by
  have h : ∀ r : Res Totals, (match r with
      | .ok t => decide (t.ecs = 11 ∧ .hops "a.com.".toList 2 1 ∈ t.violations ∧ .rewrites "a.com.".toList 1 0 ∈ t.violations ∧
          .allAliases [("www.sub.com.".toList, ["a.com.".toList])] ∈ t.violations)
      | _ => false) = true → ∃ t, r = .ok t ∧ t.ecs = 11 ∧ .hops "a.com.".toList 2 1 ∈ t.violations ∧ .rewrites "a.com.".toList 1 0 ∈ t.violations ∧
          .allAliases [("www.sub.com.".toList, ["a.com.".toList])] ∈ t.violations := by
    intro r hr
    cases r with
    | ok t => exact ⟨t, rfl, of_decide_eq_true hr⟩
    | _ => cases hr
  exact h _ (by decide +kernel)

example : ∀ u ∈ twoJobs, ¬ AsksStructural u := by decide +kernel

example : ∀ u ∈ twoJobs, Acceptable u ∧ AsksType u := by
  have hn : ∀ (s : String) (t : RRType), mnemonic t = some s → ∃ t, Names s.toList t := fun s t h => ⟨t, s, h, rfl⟩
  intro u hu
  simp only [twoJobs, List.mem_cons, List.not_mem_nil, or_false] at hu
  rcases hu with rfl | rfl
  · constructor
    · refine ⟨fun p hp => ?_, by decide +kernel⟩
      have hv : ∀ (n : Str) (v : UVal), ValidTypes ⟨n, some ["A".toList], v⟩ := by
        intro n v l hl s hs
        injection hl with hl
        subst hl
        rw [List.mem_singleton.mp hs]
        exact hn "A" .A rfl
      rcases List.mem_cons.mp hp with rfl | hp
      · exact ⟨hv _ _, _, .hops 1 rfl rfl⟩
      · rw [List.mem_singleton.mp hp]
        exact ⟨hv _ _, _, .allAliases ["www.sub.com".toList] rfl rfl (by simp)⟩
    · exact ⟨_, List.mem_cons_self, .inr ⟨_, rfl, by simp⟩⟩
  · constructor
    · refine ⟨fun p hp => ?_, by decide +kernel⟩
      rw [List.mem_singleton.mp hp]
      exact ⟨(fun l hl => nomatch hl), _, .rewrites 0 rfl rfl⟩
    · exact ⟨_, List.mem_cons_self, .inl rfl⟩

/-- A job with a type that does not exist, as in `C75_disagreement_bad_job`. -/
example : ¬ ValidTypes ⟨"Hops".toList, some ["A".toList, "a".toList], .int 1⟩ := by
  intro h
  obtain ⟨t, ht⟩ := h _ rfl "a".toList (by decide)
  exact (exists_names_iff _).mp ⟨t, ht⟩ (by decide +kernel)

end Groot
