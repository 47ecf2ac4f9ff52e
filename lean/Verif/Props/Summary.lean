import Verif.Spec.Summary
import Verif.Props.Threaded

/-!
# C95: the statistics logged after each job
-/

namespace Groot

open Spec Driver

/-! ### Greatest, least, sum and number -/

theorem summary_concat (l : List Nat) (x : Nat) : summary (l ++ [x]) = (summary l).add x := by
  unfold summary; rw [List.foldl_append]; rfl

theorem summary_some (l : List Nat) : (∀ m, (summary l).max = some m → m ∈ l ∧ ∀ x ∈ l, x ≤ m) ∧ (∀ m, (summary l).min = some m → m ∈ l ∧ ∀ x ∈ l, m ≤ x) ∧
    (l ≠ [] → (summary l).max.isSome ∧ (summary l).min.isSome) ∧ (summary l).sum = l.sum ∧ (summary l).count = l.length := by
  induction l using List.reverseRecOn with
  | nil => exact ⟨fun m h => (nomatch h), fun m h => (nomatch h), fun h => absurd rfl h, rfl, rfl⟩
  | append_singleton l x ih =>
    obtain ⟨h1, h2, h3, h4, h5⟩ := ih
    rw [summary_concat]
    refine ⟨?_, ?_, fun _ => ⟨rfl, rfl⟩, ?_, ?_⟩
    · intro m hm
      cases e : (summary l).max with
      | none =>
        have hl : l = [] := by
          by_contra hl
          have := (h3 hl).1
          rw [e] at this
          cases this
        subst hl
        simp only [Summary.add, e, Option.some.injEq] at hm
        subst hm
        simp
      | some k =>
        obtain ⟨g1, g2⟩ := h1 k e
        simp only [Summary.add, e, Option.some.injEq] at hm
        subst hm
        split
        · refine ⟨by simp, fun y hy => ?_⟩
          rcases List.mem_append.mp hy with hy | hy
          · have := g2 y hy; omega
          · rw [List.mem_singleton.mp hy]
        · refine ⟨by simp [g1], fun y hy => ?_⟩
          rcases List.mem_append.mp hy with hy | hy
          · exact g2 y hy
          · rw [List.mem_singleton.mp hy]; omega
    · intro m hm
      cases e : (summary l).min with
      | none =>
        have hl : l = [] := by
          by_contra hl
          have := (h3 hl).2
          rw [e] at this
          cases this
        subst hl
        simp only [Summary.add, e, Option.some.injEq] at hm
        subst hm
        simp
      | some k =>
        obtain ⟨g1, g2⟩ := h2 k e
        simp only [Summary.add, e, Option.some.injEq] at hm
        subst hm
        split
        · refine ⟨by simp, fun y hy => ?_⟩
          rcases List.mem_append.mp hy with hy | hy
          · have := g2 y hy; omega
          · rw [List.mem_singleton.mp hy]
        · refine ⟨by simp [g1], fun y hy => ?_⟩
          rcases List.mem_append.mp hy with hy | hy
          · exact g2 y hy
          · rw [List.mem_singleton.mp hy]; omega
    · simp [Summary.add, h4]
    · simp [Summary.add, h5]

/-- **C95** What is shown of a list of numbers is their maximum, minimum, sum and number. -/
theorem C95_summary (l : List Nat) : Summarises (summary l) l := by
  obtain ⟨h1, h2, h3, h4, h5⟩ := summary_some l
  refine ⟨fun m => ⟨h1 m, fun ⟨a, b⟩ => ?_⟩, fun m => ⟨h2 m, fun ⟨a, b⟩ => ?_⟩, h4, h5⟩
  · obtain ⟨k, e⟩ := Option.isSome_iff_exists.mp (h3 (List.ne_nil_of_mem a)).1
    obtain ⟨g1, g2⟩ := h1 k e
    rw [e, Nat.le_antisymm (b k g1) (g2 m a)]
  · obtain ⟨k, e⟩ := Option.isSome_iff_exists.mp (h3 (List.ne_nil_of_mem a)).2
    obtain ⟨g1, g2⟩ := h2 k e
    rw [e, Nat.le_antisymm (g2 m a) (b k g1)]

theorem Spec.Summarises.perm {s : Summary} {a b : List Nat} (h : Summarises s a) (p : a.Perm b) : Summarises s b where
  max m := by rw [h.max m, p.mem_iff]; simp only [p.mem_iff]
  min m := by rw [h.min m, p.mem_iff]; simp only [p.mem_iff]
  sum := by rw [h.sum, p.sum_eq]
  count := by rw [h.count, p.length_eq]

theorem Spec.Summarises.unique {s t : Summary} {a : List Nat} (h : Summarises s a) (h' : Summarises t a) : s = t := by
  have e1 : s.max = t.max := Option.ext fun m => by rw [h.max m, h'.max m]
  have e2 : s.min = t.min := Option.ext fun m => by rw [h.min m, h'.min m]
  cases s; cases t
  simp only at e1 e2
  have := h.sum.trans h'.sum.symm
  have := h.count.trans h'.count.symm
  simp_all

example : summary [3, 1, 2] = ⟨some 3, some 1, 6, 3⟩ := rfl

/-! ### The sizes of one graph -/

/-- **C95** The number of nodes of the graph built for a question is the number of different pairs of a server and a question met while resolving it. -/
theorem C95_nodes (ctx : Context) (w : World) (hr : Represents ctx w) (hw : WellFormed w) (thr fuel : Nat) (q : EC)
    (hq : Short q.name) (g : IG) (hb : buildIG fuel thr ctx q = .ok g) : VisitsTo w (ask q) g.verts.length := by
  refine ⟨(List.range g.verts.length).map (fun v => ((g.vtx v).ns, ask (g.vtx v).query)), ?_, by simp, ?_⟩
  · refine List.Nodup.map_on ?_ List.nodup_range
    intro u hu v hv e
    exact C31_one_node ctx w hr hw thr fuel q hq g hb u v (List.mem_range.mp hu) (List.mem_range.mp hv) (Prod.mk.inj e).1 (Prod.mk.inj e).2
  · rintro ⟨s, a⟩
    rw [← C33_nodes ctx w hr hw thr fuel q hq g hb s a, List.mem_map]
    constructor
    · rintro ⟨v, hv, e⟩
      exact ⟨v, List.mem_range.mp hv, (Prod.mk.inj e).1, (Prod.mk.inj e).2⟩
    · rintro ⟨v, hv, rfl, rfl⟩
      exact ⟨v, List.mem_range.mpr hv, rfl⟩

/-- **C95** The edges of the graph built for a question list the steps taken while resolving it. -/
theorem C95_edges (ctx : Context) (w : World) (hr : Represents ctx w) (hw : WellFormed w) (thr fuel : Nat) (q : EC)
    (hq : Short q.name) (g : IG) (hb : buildIG fuel thr ctx q = .ok g) : Moves w (ask q) g.edges.length := by
  let at_ : Nat → Str × Ask := fun v => ((g.vtx v).ns, ask (g.vtx v).query)
  refine ⟨g.edges.map (fun e => (at_ e.src, at_ e.dst, e.side.map (fun n => ask (g.vtx n).query))), by simp, ?_⟩
  have hnode := C33_nodes ctx w hr hw thr fuel q hq g hb
  rintro ⟨⟨s, a⟩, ⟨s', a'⟩, sd⟩
  rw [List.mem_map]
  constructor
  · rintro ⟨⟨v, u, o⟩, he, e⟩
    obtain ⟨hv, hu, ho⟩ := C33_edges_inside ctx w hr hw thr fuel q hq g hb _ he
    obtain ⟨sd', hm, hs⟩ := (C33_edges ctx w hr hw thr fuel q hq g hb v u hv hu o).mp he
    simp only [at_, Prod.mk.injEq] at e
    obtain ⟨⟨rfl, rfl⟩, ⟨rfl, rfl⟩, rfl⟩ := e
    have hsd : o.map (fun n => ask (g.vtx n).query) = sd' := by
      cases o with
      | none => cases sd' with
        | none => rfl
        | some _ => exact hm.elim
      | some n => cases sd' with
        | none => exact hm.elim
        | some b => simp only [Option.map_some, Option.some.injEq]; exact hm.2.2
    refine ⟨(hnode _ _).mp ⟨v, hv, rfl, rfl⟩, ?_⟩
    dsimp only
    rw [hsd]
    exact hs
  · rintro ⟨h1, h2⟩
    dsimp only at h1 h2
    obtain ⟨v, hv, rfl, rfl⟩ := (hnode _ _).mpr h1
    obtain ⟨u, hu, rfl, rfl⟩ := (hnode _ _).mpr (.step _ _ _ _ _ h1 h2)
    have : ∃ o, sideMatches g o sd ∧ o.map (fun n => ask (g.vtx n).query) = sd := by
      cases sd with
      | none => exact ⟨none, trivial, rfl⟩
      | some b =>
        obtain ⟨n, hn, e1, e2⟩ := (hnode _ _).mpr (.side _ _ _ _ _ h1 h2)
        exact ⟨some n, ⟨hn, e1, e2⟩, by rw [Option.map_some, e2]⟩
    obtain ⟨o, ho, e⟩ := this
    refine ⟨⟨v, u, o⟩, (C33_edges ctx w hr hw thr fuel q hq g hb v u hv hu o).mpr ⟨sd, ho, h2⟩, ?_⟩
    simp only [at_, e]

/-! ### The sizes of all graphs of a job -/

theorem sizesOf_inl (l : List Violation) : Conc.sizesOf (l.map (Sum.inl : _ → Violation ⊕ (Nat × Nat))) = [] := by
  unfold Conc.sizesOf
  induction l with
  | nil => rfl
  | cons x l ih => simp_all

theorem sizesOf_append (a b : List (Violation ⊕ (Nat × Nat))) : Conc.sizesOf (a ++ b) = Conc.sizesOf a ++ Conc.sizesOf b := by
  simp [Conc.sizesOf]

theorem sizes_ec {fuel thr : Nat} {ctx : Context} {lg : LGraph} {job : Job} {q : EC} {v : List Violation}
    (h : Driver.process fuel thr ctx lg job (.ec q) = .ok v) :
    ∃ g, buildIG fuel thr ctx q = .ok g ∧ Conc.sizesOf (Driver.emitted fuel thr ctx lg job (.ec q)) = [(g.verts.length, g.edges.length)] := by
  obtain ⟨r, h1, h2⟩ := bind_ok_iff.mp (show (processEC fuel thr ctx job.pathFns job.nodeFns q >>= fun r => Res.ok r.1) = .ok v from h)
  obtain ⟨g, hb, h1⟩ := bind_ok_iff.mp h1
  obtain ⟨l, hl, h1⟩ := bind_ok_iff.mp h1
  obtain ⟨c, hc, h1⟩ := bind_ok_iff.mp h1
  have e : Driver.outputs fuel thr ctx lg job (.ec q) = .ok (l.toList.map .inl ++ [.inr (g.verts.length, g.edges.length)] ++ c.map .inl) := by
    unfold Driver.outputs
    simp only [hb, hl, hc, Res.ok_bind]
  refine ⟨g, hb, ?_⟩
  unfold Driver.emitted
  rw [e]
  dsimp only
  rw [sizesOf_append, sizesOf_append, sizesOf_inl, sizesOf_inl]
  rfl

theorem sizes_structural {fuel thr : Nat} {ctx : Context} {lg : LGraph} {job : Job} (node : Nat) (domain : Str) :
    Conc.sizesOf (Driver.emitted fuel thr ctx lg job (.structural node domain)) = [] := by
  unfold Driver.emitted Driver.outputs
  dsimp only
  cases h : LGraph.structuralCheck thr lg ctx domain node with
  | ok v => exact sizesOf_inl v
  | _ => rfl

/-- One pair of sizes for each class. -/
theorem sizes_classes {fuel thr : Nat} {ctx : Context} {lg : LGraph} {job : Job} (ts : List Task) (v : List Violation)
    (h : concatM (Driver.process fuel thr ctx lg job) ts = .ok v) :
    List.Forall₂ (fun q x => ∃ g, buildIG fuel thr ctx q = .ok g ∧ x = (g.verts.length, g.edges.length)) (classes ts)
      (ts.flatMap (fun t => Conc.sizesOf (Driver.emitted fuel thr ctx lg job t))) := by
  induction ts generalizing v with
  | nil => exact .nil
  | cons t ts ih =>
    unfold concatM at h
    obtain ⟨a, ha, h⟩ := bind_ok_iff.mp h
    obtain ⟨b, hb, h⟩ := bind_ok_iff.mp h
    rw [List.flatMap_cons]
    cases t with
    | ec q =>
      obtain ⟨g, h1, h2⟩ := sizes_ec ha
      rw [h2]
      exact .cons ⟨g, h1, rfl⟩ (ih b hb)
    | structural n d =>
      rw [sizes_structural]
      exact ih b hb

theorem ecCount_classes (ts : List Task) : ecCount ts = (classes ts).length := by
  unfold ecCount classes
  induction ts with
  | nil => rfl
  | cons t ts ih => cases t <;> simp_all

theorem ecCount_perm {a b : List Task} (h : a.Perm b) : ecCount a = ecCount b := h.countP_eq _

/-- What the threads of a job leave behind, compared with the run in turn. -/
theorem measured_parts {fuel thr thr' : Nat} {ctx : Context} {xs : List (RR × Nat × Nat)} {job : Job} {st : JobStats} {lg : LGraph}
    (h : Measured fuel thr ctx (labelGraph thr' xs) job st lg) (hka : OnExisting xs (req job) → ∃ es, Disjoint thr' xs (req job) es)
    {ts : List Task} {v : List Violation} (hs : runSequential fuel thr ctx (labelGraph thr' xs) job = .ok (labelGraph thr' xs, ts, v)) :
    lg = labelGraph thr' xs ∧ ∃ taken sizes, st = jobStats taken sizes ∧ taken.Perm ts ∧
      sizes.Perm (ts.flatMap (fun t => Conc.sizesOf (Driver.emitted fuel thr ctx (labelGraph thr' xs) job t))) := by
  have hgen : LGraph.generateECs fuel (labelGraph thr' xs) (req job) = .ok (labelGraph thr' xs, ts) := by
    unfold runSequential at hs
    obtain ⟨r, h1, hs⟩ := bind_ok_iff.mp hs
    obtain ⟨w, h2, hs⟩ := bind_ok_iff.mp hs
    injection hs with hs
    injection hs with e1 hs
    injection hs with e2 e3
    rw [h1, ← e1, ← e2]
  cases h with
  | producers lg' es hsp s hr hret =>
    obtain ⟨hj, rfl⟩ := spawns_existing hsp
    obtain ⟨-, -, -, -, n, he⟩ := hsp
    obtain ⟨es', hd⟩ := hka hj
    have hes : es' = es := by
      obtain ⟨f, hf⟩ := hd.search
      have := mono_agree (f := fun n => LGraph.closestEnclosers n (labelGraph thr' xs) (stringToLabels job.domain)) (fun n r => searchNode_mono n _ _ _ _ r) hf he
      simpa using this
    subst hes
    obtain ⟨a, -, b, -, -, -, c⟩ := C74_exactly_once thr' xs (req job) es' hj hd fuel ts hgen _ s hr hret
    exact ⟨c, _, _, rfl, a, b⟩
  | generator hj n lg' ts' hg s hr hret =>
    have := mono_agree (f := fun n => LGraph.generateECs n (labelGraph thr' xs) (req job)) (fun n r => generateECs_mono n _ _ r) hgen hg
    injection this with e1 e2
    subst e1 e2
    obtain ⟨a, -, b, -⟩ := C54_exactly_once (by decide) _ _ _ hr hret
    refine ⟨rfl, _, _, rfl, by simpa using a, by simpa using b⟩

/-- **C95** The statistics of a job do not depend on the schedule of its threads: number of classes, greatest and least size, and sum. -/
theorem C95_schedule {fuel thr thr' : Nat} {ctx : Context} {xs : List (RR × Nat × Nat)} {job : Job}
    (hka : OnExisting xs (req job) → ∃ es, Disjoint thr' xs (req job) es)
    {ts : List Task} {v : List Violation} (hs : runSequential fuel thr ctx (labelGraph thr' xs) job = .ok (labelGraph thr' xs, ts, v))
    {st st' : JobStats} {lg lg' : LGraph} (h : Measured fuel thr ctx (labelGraph thr' xs) job st lg)
    (h' : Measured fuel thr ctx (labelGraph thr' xs) job st' lg') : st = st' := by
  obtain ⟨-, t1, s1, rfl, a1, b1⟩ := measured_parts h hka hs
  obtain ⟨-, t2, s2, rfl, a2, b2⟩ := measured_parts h' hka hs
  have ha := a1.trans a2.symm
  have hb := b1.trans b2.symm
  unfold jobStats
  rw [ecCount_perm ha, ((C95_summary _).perm (hb.map _)).unique (C95_summary (s2.map (·.1))),
    ((C95_summary _).perm (hb.map _)).unique (C95_summary (s2.map (·.2)))]

/-- **C95** Whatever the threads do, the statistics are true: the number is that of classes that together stand for all names of the job, one graph is
measured for each, and the sizes are those of the resolutions of the classes. -/
theorem C95_job {ctx : Context} {w : World} {xs : List (RR × Nat × Nat)} {job : Job} (S : Redirecting ctx w xs job) {fuel thr thr' : Nat}
    (hka : OnExisting xs (req job) → ∃ es, Disjoint thr' xs (req job) es)
    {ts : List Task} {v : List Violation} (hs : runSequential fuel thr ctx (labelGraph thr' xs) job = .ok (labelGraph thr' xs, ts, v))
    {st : JobStats} {lg : LGraph} (h : Measured fuel thr ctx (labelGraph thr' xs) job st lg) :
    lg = labelGraph thr' xs ∧ st.ecs = ecCount ts ∧ Reflects w (xs.map (·.1)) job st := by
  obtain ⟨h0, taken, sizes, rfl, a, b⟩ := measured_parts h hka hs
  have hgen := Redirecting.generated hs
  obtain ⟨-, hshort, hcov⟩ := S.tasks hgen
  have hproc : ∃ v', concatM (process fuel thr ctx (labelGraph thr' xs) job) ts = .ok v' := by
    unfold runSequential at hs
    obtain ⟨r, h1, hs⟩ := bind_ok_iff.mp hs
    obtain ⟨w, h2, hs⟩ := bind_ok_iff.mp hs
    injection hs with hs
    injection hs with e1 hs
    injection hs with e2 e3
    rw [← e1, ← e2]
    exact ⟨w, h2⟩
  obtain ⟨v', hv'⟩ := hproc
  have hf := sizes_classes ts v' hv'
  have hmap : ∀ (P : EC → Nat → Prop) (f : Nat × Nat → Nat) (qs : List EC) (l : List (Nat × Nat)), (∀ q ∈ qs, Short q.name) →
      (∀ q, Short q.name → ∀ g, buildIG fuel thr ctx q = .ok g → P q (f (g.verts.length, g.edges.length))) →
      List.Forall₂ (fun q x => ∃ g, buildIG fuel thr ctx q = .ok g ∧ x = (g.verts.length, g.edges.length)) qs l →
      List.Forall₂ P qs (l.map f) := by
    intro P f qs l hq hP hl
    induction hl with
    | nil => exact .nil
    | cons hx _ ih =>
      obtain ⟨g, hg, rfl⟩ := hx
      exact .cons (hP _ (hq _ (by simp)) g hg) (ih (fun q h => hq q (by simp [h])))
  refine ⟨h0, ecCount_perm a, classes ts, _, _, hcov, (ecCount_perm a).trans (ecCount_classes ts),
    hmap (fun q n => VisitsTo w (ask q) n) (·.1) _ _ (fun q hq => (hshort q hq).1)
      (fun q hq g hg => C95_nodes ctx w S.represents S.wellFormed thr fuel q hq g hg) hf,
    hmap (fun q n => Moves w (ask q) n) (·.2) _ _ (fun q hq => (hshort q hq).1)
      (fun q hq g hg => C95_edges ctx w S.represents S.wellFormed thr fuel q hq g hg) hf,
    (C95_summary _).perm (b.map _), (C95_summary _).perm (b.map _)⟩

/-! ### All jobs, from the files -/

theorem measured_of_threads {fuel thr : Nat} {ctx : Context} {lg lg' : LGraph} {job : Job} {items : List Violation}
    (h : Threads fuel thr ctx lg job items lg') : ∃ st, Measured fuel thr ctx lg job st lg' := by
  cases h with
  | producers l es hj s hs hr => exact ⟨_, .producers l es hj s hs hr⟩
  | generator hj n _ ts hg s hs hr => exact ⟨_, .generator hj n _ ts hg s hs hr⟩

theorem measuredAll_of_schedules {fuel thr : Nat} {ctx : Context} {lg : LGraph} {job : Job} {vs out : List Violation} {us : List UJob}
    (h : Schedules fuel thr ctx lg job vs us out) : ∃ sts, MeasuredAll fuel thr ctx lg job us sts := by
  induction h with
  | done lg job vs => exact ⟨[], .done _ _⟩
  | job lg lg' job job' vs items out u us hj ht _ ih =>
    obtain ⟨st, h1⟩ := measured_of_threads ht
    obtain ⟨sts, h2⟩ := ih
    exact ⟨st :: sts, .job _ _ _ _ _ _ _ _ hj h1 h2⟩

/-- The jobs one after the other: each is run in turn as by `runSequential`, and measured. -/
theorem measured_runs {fuel thr thr' : Nat} {ctx : Context} {xs : List (RR × Nat × Nat)} (us pre : List UJob) (job : Job)
    (hka : ∀ u ∈ us, ∀ req : LGraph.Req, req.domain = toLower u.domain → OnExisting xs req → ∃ es, Disjoint thr' xs req es)
    (t t' : Totals) (hp : job.structural = decide (SomeStructural pre)) (h : jobLoop fuel thr ctx (labelGraph thr' xs) job t us = .ok t')
    {sts : List JobStats} (ho : MeasuredAll fuel thr ctx (labelGraph thr' xs) job us sts) :
    t'.ecs = t.ecs + (sts.map (·.ecs)).sum ∧
    List.Forall₂ (fun u st => ∃ j0 b ts v, setJob {} u = .ok j0 ∧
      runSequential fuel thr ctx (labelGraph thr' xs) { j0 with structural := b } = .ok (labelGraph thr' xs, ts, v) ∧
      Measured fuel thr ctx (labelGraph thr' xs) { j0 with structural := b } st (labelGraph thr' xs)) us sts := by
  induction us generalizing pre job t sts with
  | nil =>
    cases ho
    unfold jobLoop at h
    injection h with h
    subst h
    exact ⟨by simp, .nil⟩
  | cons u us ih =>
    unfold jobLoop at h
    obtain ⟨j, h1, h⟩ := bind_ok_iff.mp h
    obtain ⟨r, h2, h⟩ := bind_ok_iff.mp h
    unfold runJob at h2
    obtain ⟨x, h3, h2⟩ := bind_ok_iff.mp h2
    injection h2 with h2
    subst h2
    have hx := runSequential_graph h3
    obtain ⟨j0, h4, h5⟩ := setJob_history hp h1
    cases ho with
    | job _ lg' _ job' st sts _ _ hj ht hrest =>
    rw [h1] at hj
    injection hj with hj
    subst hj
    obtain ⟨lg, ts, v⟩ := x
    dsimp only at hx h
    subst hx
    obtain ⟨e, taken, sizes, hst, hperm, -⟩ := measured_parts ht (fun he => hka u (by simp) (req j) ((C57_job _ _ _).mp h1).domain he) h3
    subst e
    obtain ⟨e1, e2⟩ := ih (pre ++ [u]) j (fun w hw => hka w (by simp [hw])) _ (by rw [h5]) h hrest
    refine ⟨?_, .cons ⟨j0, _, ts, v, h4, h5 ▸ h3, h5 ▸ ht⟩ e2⟩
    rw [e1, hst]
    simp only [List.map_cons, List.sum_cons, jobStats, ecCount_perm hperm]
    omega

theorem measured_unique {fuel thr thr' : Nat} {ctx : Context} {xs : List (RR × Nat × Nat)} (us : List UJob) (job : Job)
    (hka : ∀ u ∈ us, ∀ req : LGraph.Req, req.domain = toLower u.domain → OnExisting xs req → ∃ es, Disjoint thr' xs req es)
    (t t' : Totals) (h : jobLoop fuel thr ctx (labelGraph thr' xs) job t us = .ok t')
    {sts sts' : List JobStats} (ho : MeasuredAll fuel thr ctx (labelGraph thr' xs) job us sts)
    (ho' : MeasuredAll fuel thr ctx (labelGraph thr' xs) job us sts') : sts = sts' := by
  induction us generalizing job t sts sts' with
  | nil => cases ho; cases ho'; rfl
  | cons u us ih =>
    unfold jobLoop at h
    obtain ⟨j, h1, h⟩ := bind_ok_iff.mp h
    obtain ⟨r, h2, h⟩ := bind_ok_iff.mp h
    unfold runJob at h2
    obtain ⟨x, h3, h2⟩ := bind_ok_iff.mp h2
    injection h2 with h2
    subst h2
    have hx := runSequential_graph h3
    obtain ⟨lg, ts, v⟩ := x
    dsimp only at hx h
    subst hx
    have hk := fun he => hka u (by simp) (req j) ((C57_job _ _ _).mp h1).domain he
    cases ho with
    | job _ lg1 _ j1 st1 sts1 _ _ hj1 ht1 hr1 =>
    cases ho' with
    | job _ lg2 _ j2 st2 sts2 _ _ hj2 ht2 hr2 =>
    rw [h1] at hj1 hj2
    injection hj1 with hj1
    injection hj2 with hj2
    subst hj1 hj2
    rw [(measured_parts ht1 hk h3).1] at hr1
    rw [(measured_parts ht2 hk h3).1] at hr2
    rw [C95_schedule hk h3 ht1 ht2, ih j (fun w hw => hka w (by simp [hw])) _ h hr1 hr2]

/-- **C95** On good input, whatever the threads do, the statistics logged after each job are true of the job, they are the same for every schedule, and the
numbers of classes add up to the total of the run in turn. -/
theorem C95_program (thr : Nat) (lint : Bool) {read : Str → Str} {exists_ : Str → Bool} {m : Meta} {us : List UJob} {tops : List Str} {zs : List Listing}
    {ess : List (List (Entry × Nat))} (h : GoodInput read exists_ m us tops zs ess) :
    ∃ N d t, setContext thr lint read exists_ m = .ok d ∧ ∀ fuel, N ≤ fuel → main fuel thr lint read exists_ m (some us) = .ok t ∧
      (∃ sts, MeasuredAll fuel thr d.ctx d.lg {} us sts) ∧
      (∀ sts, MeasuredAll fuel thr d.ctx d.lg {} us sts → t.ecs = (sts.map (·.ecs)).sum ∧
        List.Forall₂ (fun u st => ∀ job, JobMeans {} u job → Short (stringToLabels (toLower u.domain)) → Testable u →
          Reflects (worldOf tops zs ess) (allRecords zs ess) job st) us sts) ∧
      ∀ sts sts', MeasuredAll fuel thr d.ctx d.lg {} us sts → MeasuredAll fuel thr d.ctx d.lg {} us sts' → sts = sts' := by
  obtain ⟨N, t, hmain⟩ := ends_in_turn thr lint h.loadable h.zones h.redirects (fun u hu => ⟨(h.jobs u hu).1, (h.jobs u hu).2.1⟩)
  obtain ⟨d, xs, h1, h2, h3, h4⟩ := load_redirecting thr lint h.loadable h.redirects
  have hka := producers_apart (thr := thr) (xs := xs) (rs := allRecords zs ess) (fun x hx => by rw [← h3]; exact List.mem_map_of_mem hx)
    (fun u hu => (h.jobs u hu).2.2)
  refine ⟨N, d, t, h1, fun fuel hf => ?_⟩
  have hm := hmain fuel hf
  have hm' := hm
  rw [main_eq, h1, Res.ok_bind] at hm'
  unfold afterLoading at hm'
  dsimp only at hm'
  rw [h2] at hm' ⊢
  have hka' : ∀ u ∈ us, ∀ j0 b, setJob {} u = .ok j0 → OnExisting xs (req { j0 with structural := b }) →
      ∃ es, Disjoint thr xs (req { j0 with structural := b }) es :=
    fun u hu j0 b hj he => hka u hu _ ((C57_job _ _ _).mp hj).domain he
  refine ⟨hm, ?_, fun sts hs => ?_, fun sts sts' hs hs' => ?_⟩
  · obtain ⟨out, ho⟩ := C75_some_schedule fuel thr thr d.ctx xs us (fun u hu => (h.jobs u hu).1) hka
    exact measuredAll_of_schedules ho
  · obtain ⟨e1, e2⟩ := measured_runs us [] {} hka {} t (by simp [SomeStructural]) hm' hs
    refine ⟨by simpa using e1, ?_⟩
    have : ∀ (l : List UJob) (sts : List JobStats), (∀ u ∈ l, u ∈ us) →
        List.Forall₂ (fun u st => ∃ j0 b ts v, setJob {} u = .ok j0 ∧
          runSequential fuel thr d.ctx (labelGraph thr xs) { j0 with structural := b } = .ok (labelGraph thr xs, ts, v) ∧
          Measured fuel thr d.ctx (labelGraph thr xs) { j0 with structural := b } st (labelGraph thr xs)) l sts →
        List.Forall₂ (fun u st => ∀ job, JobMeans {} u job → Short (stringToLabels (toLower u.domain)) → Testable u →
          Reflects (worldOf tops zs ess) (allRecords zs ess) job st) l sts := by
      intro l sts hl hf
      induction hf with
      | nil => exact .nil
      | @cons u st l sts hu _ ih =>
        refine .cons (fun job hj hdom ht => ?_) (ih (fun u h => hl u (by simp [h])))
        obtain ⟨j0, b, ts, v, g1, g2, g3⟩ := hu
        have e : j0 = job := by
          rw [(C57_job _ _ _).mpr hj] at g1
          injection g1 with g1
          exact g1.symm
        subst e
        have := (C95_job (h4 u j0 hj hdom ht b) (hka' u (hl u (by simp)) j0 b g1) g2 g3).2.2
        rw [h3] at this
        exact this
    exact this us sts (fun u h => h) e2
  · exact measured_unique us {} hka {} t hm' hs hs'

/-! ### A run -/

/-- The file with a DNAME and its job: the run in turn has three classes. -/
example : ∃ N d t, setContext 500 true (fun _ => redirectFile) (fun _ => true) programMeta = .ok d ∧
    main N 500 true (fun _ => redirectFile) (fun _ => true) programMeta (some [redirectUJob 0]) = .ok t ∧
    ∃ st, MeasuredAll N 500 d.ctx d.lg {} [redirectUJob 0] [st] ∧
      Reflects (worldOf ["NS.x.".toList] redirectListing [redirectEntries]) (allRecords redirectListing [redirectEntries]) (redirectJob 0) st := by
  obtain ⟨N, d, t, h1, h2⟩ := C95_program 500 true redirect_sane
  obtain ⟨h3, ⟨sts, h4⟩, h5, -⟩ := h2 N (Nat.le_refl _)
  obtain ⟨-, h6⟩ := h5 sts h4
  cases h6 with
  | @cons _ st _ sts' hst hrest =>
  cases hrest
  refine ⟨N, d, t, h1, h3, st, h4, hst _ redirectJob_means.1 (by decide +kernel) ?_⟩
  exact ⟨⟨_, List.mem_singleton.mpr rfl, .inr ⟨_, rfl, _, List.mem_singleton.mpr rfl, .A, by unfold Names; decide +kernel, by decide⟩⟩, by decide +kernel⟩

/-- What is measured in it. -/
example : (match setContext 500 true (fun _ => redirectFile) (fun _ => true) programMeta with
    | .ok d => match runSequential 300 500 d.ctx d.lg (redirectJob 0) with
      | .ok (_, ts, _) => some (jobStats ts (ts.flatMap (fun t => Conc.sizesOf (Driver.emitted 300 500 d.ctx d.lg (redirectJob 0) t))))
      | _ => none
    | _ => none) = some ⟨3, ⟨some 3, some 2, 8, 3⟩, ⟨some 2, some 1, 5, 3⟩⟩ := by decide +kernel

end Groot
