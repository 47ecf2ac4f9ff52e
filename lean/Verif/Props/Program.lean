import Verif.Lemmas.Program
import Verif.Props.Input
import Verif.Props.Inhabited

/-!
# C86: from the text of the zone files to the output file
-/

namespace Groot

open Spec Driver

/-- **C86** Files that can be loaded are loaded, and what is loaded is what the files say. -/
theorem C86_world (thr : Nat) (lint : Bool) (read : Str → Str) (exists_ : Str → Bool) (m : Meta) (tops : List Str) (zs : List Listing)
    (ess : List (List (Entry × Nat))) (h : Loadable read exists_ m tops zs ess) :
    ∃ d, setContext thr lint read exists_ m = .ok d ∧ Represents d.ctx (worldOf tops zs ess) := by
  obtain ⟨d, xs, h1, h2, -⟩ := load_world thr lint h
  exact ⟨d, h1, h2⟩

/-! ### What a job adds to the output file -/

/-- A property means one thing only. -/
theorem asks_unique {p : UProp} (hv : ValidTypes p) {w w' : Wanted} (h : Asks p w) (h' : Asks p w') : w = w' := by
  have ht : ∃ pt, TypesListed p pt := by
    rcases htypes : p.types with _ | l
    · exact ⟨0, fun t => ⟨fun h => absurd h (not_member_zero t), fun ⟨l, hl, _⟩ => by rw [htypes] at hl; cases hl⟩⟩
    · obtain ⟨tr, pt, -, -, h3⟩ := addTypes_ok l 0 0 (hv l htypes)
      refine ⟨pt, fun t => ?_⟩
      rw [h3 t, or_iff_right (not_member_zero t)]
      constructor
      · rintro h; exact ⟨l, htypes, h⟩
      · rintro ⟨l', hl', h⟩; rw [htypes] at hl'; cases hl'; exact h
  obtain ⟨pt, ht⟩ := ht
  have e := (setNamed_of_asks (job := {}) ht h).symm.trans (setNamed_of_asks (job := {}) ht h')
  injection e with e
  have e1 := congrArg Job.pathFns e
  have e2 := congrArg Job.nodeFns e
  have e3 := congrArg Job.structural e
  cases w <;> cases w' <;> simp [applied, Wanted.path?, Wanted.node?, Wanted.isStructural] at e1 e2 e3 ⊢ <;> assumption

theorem pathFn_of_asks {prev job : Job} {u : UJob} (h : JobMeans prev u job) {p : UProp} (hp : p ∈ u.properties) {w : Wanted} (ha : Asks p w) :
    (∀ f, w = .path f → f ∈ job.pathFns) ∧ ∀ f, w = .node f → f ∈ job.nodeFns := by
  obtain ⟨ws, h1, h2, h3⟩ := h.checks
  obtain ⟨x, hx, hax⟩ := forall₂_mem' h1 hp
  have e := asks_unique (h.valid p hp) hax ha
  subst e
  constructor
  · rintro f rfl
    rw [h2]; exact List.mem_filterMap.mpr ⟨_, hx, rfl⟩
  · rintro f rfl
    rw [h3]; exact List.mem_filterMap.mpr ⟨_, hx, rfl⟩

theorem some_of_take {us : List UJob} {i : Nat} (h : decide (SomeStructural (us.take i)) = true) : SomeStructural us := by
  obtain ⟨v, hv, h⟩ := of_decide_eq_true h
  exact ⟨v, List.mem_of_mem_take hv, h⟩

/-- The objects `js` of an output file give account of the jobs: each job is run, each of its reports is among them (the aliases in groups), and each is contributed
by the run of some job. -/
def Account (ord : List Str → List Str) (fuel thr : Nat) (d : Loaded) (us : List UJob) (js : List Json) : Prop :=
  (∀ u ∈ us, ∃ job, JobMeans {} u job ∧ ∃ b g ts vs, runSequential fuel thr d.ctx d.lg { job with structural := b } = .ok (g, ts, vs) ∧
    (b = true → SomeStructural us) ∧ (∀ v ∈ vs, Direct v → (∀ gs, v ≠ .allAliases gs) → ∃ j ∈ js, (leaves j).Perm (entries ord v)) ∧
    ∀ al cn, .alias al cn ∈ vs → ∃ groups als, (cn, als) ∈ groups ∧ al ∈ als ∧ ∃ j ∈ js, (leaves j).Perm (entries ord (.allAliases groups))) ∧
  ∀ j ∈ js, ∃ v u job b g ts vs, (leaves j).Perm (entries ord v) ∧ u ∈ us ∧ JobMeans {} u job ∧
    runSequential fuel thr d.ctx d.lg { job with structural := b } = .ok (g, ts, vs) ∧ (b = true → SomeStructural us) ∧ Contributes vs v

/-- The same, with the place of each job in the job file. -/
def AccountAt (ord : List Str → List Str) (fuel thr : Nat) (d : Loaded) (us : List UJob) (js : List Json) : Prop :=
  (∀ i u, us[i]? = some u → ∃ job, JobMeans {} u job ∧ ∃ g ts vs,
    runSequential fuel thr d.ctx d.lg { job with structural := decide (SomeStructural (us.take (i + 1))) } = .ok (g, ts, vs) ∧
    (∀ v ∈ vs, Direct v → (∀ gs, v ≠ .allAliases gs) → ∃ j ∈ js, (leaves j).Perm (entries ord v)) ∧
    ∀ al cn, .alias al cn ∈ vs → ∃ groups als, (cn, als) ∈ groups ∧ al ∈ als ∧ ∃ j ∈ js, (leaves j).Perm (entries ord (.allAliases groups))) ∧
  ∀ j ∈ js, ∃ v i u job g ts vs, (leaves j).Perm (entries ord v) ∧ us[i]? = some u ∧ JobMeans {} u job ∧
    runSequential fuel thr d.ctx d.lg { job with structural := decide (SomeStructural (us.take (i + 1))) } = .ok (g, ts, vs) ∧ Contributes vs v

theorem AccountAt.account {ord : List Str → List Str} {fuel thr : Nat} {d : Loaded} {us : List UJob} {js : List Json} (h : AccountAt ord fuel thr d us js) :
    Account ord fuel thr d us js := by
  constructor
  · intro u hu
    obtain ⟨i, hi⟩ := List.mem_iff_getElem?.mp hu
    obtain ⟨job, h1, g, ts, vs, h2, h3⟩ := h.1 i u hi
    exact ⟨job, h1, _, g, ts, vs, h2, some_of_take, h3⟩
  · intro j hj
    obtain ⟨v, i, u, job, g, ts, vs, h1, h2, h3, h4, h5⟩ := h.2 j hj
    exact ⟨v, u, job, _, g, ts, vs, h1, List.mem_of_getElem? h2, h3, h4, some_of_take, h5⟩

theorem account_of {ord : List Str → List Str} {fuel thr : Nat} {d : Loaded} {us : List UJob} {js : List Json} {out : List Violation}
    {rs : List (List Task × List Violation)} (g2 : rs.length = us.length) (g3 : ∀ i r, rs[i]? = some r → Alone fuel thr d us i r.1 r.2)
    (gs : ∀ v ∈ out, ∃ l ∈ rs.map (·.2), Contributes l v) (gc : ∀ l ∈ rs.map (·.2), ∀ v, Contributes l v → ∃ v' ∈ out, SameUpToOrder v v') (h4 : ∀ v ∈ out, ∃ j ∈ js, (leaves j).Perm (entries ord v))
    (h5 : ∀ j ∈ js, ∃ v ∈ out, (leaves j).Perm (entries ord v)) : AccountAt ord fuel thr d us js := by
  constructor
  · intro i u hu
    obtain ⟨hi, e⟩ := List.getElem?_eq_some_iff.mp hu
    have hi' : i < rs.length := by rw [g2]; exact hi
    obtain ⟨u', job, lg, a1, a2, a3⟩ := g3 i rs[i] (List.getElem?_eq_getElem hi')
    have : u' = u := by rw [hu] at a1; injection a1 with a1; exact a1.symm
    subst this
    refine ⟨job, (C57_job _ _ _).mp a2, lg, _, _, a3, fun v hv hd hg => ?_, fun al cn hal => ?_⟩
    · obtain ⟨v', hv', hsame⟩ := gc rs[i].2 (List.mem_map.mpr ⟨rs[i], List.getElem_mem hi', rfl⟩) v (.direct v hv hd)
      obtain ⟨j, hj, hp⟩ := h4 v' hv'
      cases hsame with
      | refl => exact ⟨j, hj, hp⟩
      | groups gs gs' _ => exact absurd rfl (hg gs)
    · obtain ⟨groups, hg, -⟩ := C55_collected [] rs[i].2
      obtain ⟨als, hals⟩ := hg.all al cn hal
      have hin := ((hg.members cn als hals).2.2 al).mpr hal
      obtain ⟨v', hv', hsame⟩ := gc rs[i].2 (List.mem_map.mpr ⟨rs[i], List.getElem_mem hi', rfl⟩) _ (.aliases al cn hal groups hg)
      obtain ⟨j, hj, hp⟩ := h4 v' hv'
      cases hsame with
      | refl => exact ⟨groups, als, hals, hin, j, hj, hp⟩
      | groups _ gs' hperm => exact ⟨gs', als, hperm.mem_iff.mp hals, hin, j, hj, hp⟩
  · intro j hj
    obtain ⟨v, hv, hp⟩ := h5 j hj
    obtain ⟨l, hl, hc⟩ := gs v hv
    obtain ⟨r, hr, rfl⟩ := List.mem_map.mp hl
    obtain ⟨i, hi, e⟩ := List.mem_iff_getElem.mp hr
    obtain ⟨u, job, lg, a1, a2, a3⟩ := g3 i r (by rw [← e]; exact List.getElem?_eq_getElem hi)
    exact ⟨v, i, u, job, lg, r.1, r.2, hp, a1, (C57_job _ _ _).mp a2, a3, hc⟩

/-- The run of one job of a program that ended, and where its reports are in the output file. -/
theorem job_run_at {ord : List Str → List Str} (hord : ∀ l, (ord l).Perm l) {fuel thr : Nat} {lint : Bool} {read : Str → Str} {exists_ : Str → Bool}
    {m : Meta} {us : List UJob} {f : Files} (h : program ord fuel thr lint read exists_ m (some us) = .ok f) (hf : f.finished = true) :
    ∃ d js, setContext thr lint read exists_ m = .ok d ∧ JsonText.parse f.output = some (.arr js) ∧ AccountAt ord fuel thr d us js := by
  obtain ⟨t, h1, -, h2, -⟩ := C76_output ord hord fuel thr lint read exists_ m (some us) f h
  obtain ⟨-, js, h3, -, h4, h5⟩ := h2 hf
  obtain ⟨d, rs, g1, g2, g3, g4, -⟩ := C75_report fuel thr lint read exists_ m us t h1
  exact ⟨d, js, g1, h3, account_of g2 g3 g4.sound g4.complete h4 h5⟩

theorem job_run {ord : List Str → List Str} (hord : ∀ l, (ord l).Perm l) {fuel thr : Nat} {lint : Bool} {read : Str → Str} {exists_ : Str → Bool}
    {m : Meta} {us : List UJob} {f : Files} (h : program ord fuel thr lint read exists_ m (some us) = .ok f) (hf : f.finished = true) :
    ∃ d js, setContext thr lint read exists_ m = .ok d ∧ JsonText.parse f.output = some (.arr js) ∧ Account ord fuel thr d us js := by
  obtain ⟨d, js, h1, h2, h3⟩ := job_run_at hord h hf
  exact ⟨d, js, h1, h2, h3.account⟩

theorem program_of_values {ord : List Str → List Str} {fuel thr : Nat} {lint : Bool} {read : Str → Str} {exists_ : Str → Bool} {jm jj : JVal} {m : Meta}
    {us : List UJob} (hm : MetaOf jm m) (hus : JobsOf jj us) {f : Files} (h : programJ ord fuel thr lint read exists_ jm (some jj) = .ok f) :
    program ord fuel thr lint read exists_ m (some us) = .ok f := by
  obtain ⟨m', us', h1, h2, h3⟩ := (C78_program ord fuel thr lint read exists_ jm (some jj) f).mp h
  rw [(C78_unique jm).1 m m' hm h1]
  cases us' with
  | none => exact absurd h2 (by simp [JobsGiven])
  | some us' =>
    rw [(C78_unique jj).2.2.2.2 us us' hus h2]
    exact h3

/-- **C86** Every problem is reported: if a property of a job forbids something, and it happens to some name in the scope of the job, the output
file of the program has an object that says so — or one that tells of a loop. -/
theorem C86_found (ord : List Str → List Str) (hord : ∀ l, (ord l).Perm l) (fuel thr : Nat) (lint : Bool) (read : Str → Str) (exists_ : Str → Bool)
    (jm jj : JVal) (m : Meta) (us : List UJob) (hm : MetaOf jm m) (hus : JobsOf jj us) (tops : List Str) (zs : List Listing)
    (ess : List (List (Entry × Nat))) (hl : Loadable read exists_ m tops zs ess) (hn : NoDname (allRecords zs ess)) (f : Files)
    (h : programJ ord fuel thr lint read exists_ jm (some jj) = .ok f) (hf : f.finished = true) (u : UJob) (hu : u ∈ us) (job : Job)
    (hj : JobMeans {} u job) (hdom : Short (stringToLabels (toLower u.domain))) (ht : Testable u) (n : Name) (hs : InScope job n) (hsh : Short n)
    (p : UProp) (hp : p ∈ u.properties) (want : Wanted) (ha : Asks p want) (report : Violation → Prop)
    (hpr : Problem (worldOf tops zs ess) (allRecords zs ess) job n want report) :
    ∃ js, JsonText.parse f.output = some (.arr js) ∧
      ((∃ ns, ∃ j ∈ js, (leaves j).Perm (entries ord (.loop ns))) ∨ ∃ v, report v ∧ ∃ j ∈ js, (leaves j).Perm (entries ord v)) := by
  obtain ⟨d, js, h1, h2, h3, -⟩ := job_run hord (program_of_values hm hus h) hf
  obtain ⟨job', hj', b, g, ts, vs, hrun, -, hout, hals⟩ := h3 u hu
  obtain ⟨d', xs, e1, e2, e3, e4⟩ := load_setting thr lint hl hn
  rw [h1] at e1
  injection e1 with e1
  subst e1
  have hjj : job' = job := by
    have a := (C57_job _ _ _).mpr hj'
    have a' := (C57_job _ _ _).mpr hj
    rw [a] at a'
    injection a'
  subst hjj
  have S := e4 u job' hj hdom ht b
  rw [e2] at hrun
  have hs' : InScope { job' with structural := b } n := hs
  obtain ⟨hpath, hnode⟩ := pathFn_of_asks hj hp ha
  refine ⟨js, h2, ?_⟩
  have loopOut : (∃ ns, Violation.loop ns ∈ vs) → ∃ ns, ∃ j ∈ js, (leaves j).Perm (entries ord (.loop ns)) := by
    rintro ⟨ns, hv⟩
    exact ⟨ns, hout _ hv trivial (fun _ e => nomatch e)⟩
  have hrec : ∀ (P : List RR → Prop), P (allRecords zs ess) → P (xs.map (·.1)) := fun P hP => by rw [e3]; exact hP
  have hq : question { job' with structural := b } (xs.map (·.1)) n = question job' (allRecords zs ess) n := by rw [e3]; rfl
  cases hpr with
  | hops k p h0 hr hk =>
    rcases C83_hops_any S hrun (hpath _ rfl) h0 hs' hsh hr hk with hv | ⟨q, -, hst, k', hk', hv⟩
    · exact .inl (loopOut hv)
    · exact .inr ⟨_, ⟨q, k', by rw [← e3]; exact hst, hk', rfl⟩, hout _ hv trivial (fun _ e => nomatch e)⟩
  | rewrites k p hr hk =>
    rcases C83_rewrites_any S hrun (hpath _ rfl) hs' hsh hr hk with hv | ⟨q, -, hst, k', hk', hv⟩
    · exact .inl (loopOut hv)
    · exact .inr ⟨_, ⟨q, k', by rw [← e3]; exact hst, hk', rfl⟩, hout _ hv trivial (fun _ e => nomatch e)⟩
  | blackhole p s hc hb =>
    rcases C83_blackhole_any S hrun (hpath _ rfl) hs' hsh hc hb with hv | ⟨a, c, hv⟩
    · exact .inl (loopOut hv)
    · exact .inr ⟨_, ⟨a, c, rfl⟩, hout _ hv trivial (fun _ e => nomatch e)⟩
  | queryRewrite ds p s hr hb =>
    rcases C83_rewrite_any S hrun (hpath _ rfl) hs' hsh hr hb with hv | ⟨a, c, hv⟩
    · exact .inl (loopOut hv)
    · exact .inr ⟨_, ⟨a, c, rfl⟩, hout _ hv trivial (fun _ e => nomatch e)⟩
  | contact ds p s hr hb =>
    rcases C83_contact_any S hrun (hpath _ rfl) hs' hsh hr hb with hv | ⟨a, hv⟩
    · exact .inl (loopOut hv)
    · exact .inr ⟨_, ⟨a, rfl⟩, hout _ hv trivial (fun _ e => nomatch e)⟩
  | lame s t h1 h2 h3 h4 =>
    obtain ⟨q, -, hst, hv⟩ := C82_lame_complete S hrun (hpath _ rfl) hs' hsh h1 h2 h3 h4
    exact .inr ⟨_, ⟨q, by rw [← e3]; exact hst, rfl⟩, hout _ hv trivial (fun _ e => nomatch e)⟩
  | servers s t id id' hns h1 h2 h3 =>
    have hv := C82_servers_complete S hrun (hpath _ rfl) hns hs' hsh h1 h2 h3
    exact .inr ⟨_, rfl, hout _ hv trivial (fun _ e => nomatch e)⟩
  | addresses s t id id' hns h1 h2 h3 =>
    have hv := C82_addresses_complete S hrun (hpath _ rfl) hns hs' hsh h1 h2 h3
    exact .inr ⟨_, rfl, hout _ hv trivial (fun _ e => nomatch e)⟩
  | alias_ cs n k p hin hr hal =>
    rcases C83_alias_complete S hrun (hpath _ rfl) hs' hsh hr hal hin with hv | ⟨q, -, hst, al, hv, hnm⟩
    · exact .inl (loopOut hv)
    · obtain ⟨groups, als, h4, h5, h6⟩ := hals al _ hv
      exact .inr ⟨_, ⟨groups, als, al, q, rfl, h4, h5, by rw [← e3]; exact hst, hnm⟩, h6⟩
  | infinite p hr hv =>
    rcases C83_infinite_any S hrun (hpath _ rfl) hs' hsh hr hv with hv | ⟨a, c, used, hv⟩
    · exact .inl (loopOut hv)
    · exact .inr ⟨_, ⟨a, c, used, rfl⟩, hout _ hv trivial (fun _ e => nomatch e)⟩
  | tooLong p y hr hk =>
    rcases C83_too_long_any S hrun (hpath _ rfl) hs' hsh hr hk with hv | ⟨a, c, hv⟩
    · exact .inl (loopOut hv)
    · exact .inr ⟨_, ⟨a, c, rfl⟩, hout _ hv trivial (fun _ e => nomatch e)⟩
  | zeroTTL tys x r h1 h2 h3 h4 =>
    obtain ⟨k, hv⟩ := C81_zero_ttl_complete S hrun (hnode _ rfl) hs' hsh (by rw [hq]; exact h1) h2 h3 h4
    exact .inr ⟨_, ⟨k, rfl⟩, hout _ hv trivial (fun _ e => nomatch e)⟩
  | consistency tys x y h1 h2 h3 h4 h5 =>
    obtain ⟨k, hv⟩ := C81_consistency_complete S hrun (hnode _ rfl) hs' hsh (by rw [hq]; exact h1) (by rw [hq]; exact h2) h3 h4 h5
    exact .inr ⟨_, ⟨k, rfl⟩, hout _ hv trivial (fun _ e => nomatch e)⟩
  | value tys values x h1 h2 =>
    obtain ⟨l, hv, found, k, h3, h4, -⟩ := C81_value_complete S hrun (hnode _ rfl) hs' hsh (by rw [hq]; exact h1) h2
    exact .inr ⟨_, ⟨l, found, k, rfl, h3, h4⟩, hout _ hv trivial (fun _ e => nomatch e)⟩
  | missing tys x a h1 h2 h3 h4 h5 h6 =>
    obtain ⟨k, hv⟩ := C81_missing_complete S hrun (hnode _ rfl) hs' hsh (by rw [e3]; exact h1) h2 h3 h4 h5 h6
    exact .inr ⟨_, ⟨k, rfl⟩, hout _ hv trivial (fun _ e => nomatch e)⟩

/-- **C86** If resolving some name in the scope of a job can go in circles, the output file has an object that tells of a loop. -/
theorem C86_loop_found (ord : List Str → List Str) (hord : ∀ l, (ord l).Perm l) (fuel thr : Nat) (lint : Bool) (read : Str → Str) (exists_ : Str → Bool)
    (jm jj : JVal) (m : Meta) (us : List UJob) (hm : MetaOf jm m) (hus : JobsOf jj us) (tops : List Str) (zs : List Listing)
    (ess : List (List (Entry × Nat))) (hl : Loadable read exists_ m tops zs ess) (hn : NoDname (allRecords zs ess)) (f : Files)
    (h : programJ ord fuel thr lint read exists_ jm (some jj) = .ok f) (hf : f.finished = true) (u : UJob) (hu : u ∈ us) (job : Job)
    (hj : JobMeans {} u job) (hdom : Short (stringToLabels (toLower u.domain))) (ht : Testable u) (n : Name) (hs : InScope job n) (hsh : Short n)
    (hc : Circular (worldOf tops zs ess) ⟨n, job.types, false⟩) :
    ∃ js ns, JsonText.parse f.output = some (.arr js) ∧ ∃ j ∈ js, (leaves j).Perm (entries ord (.loop ns)) := by
  obtain ⟨d, js, h1, h2, h3, -⟩ := job_run hord (program_of_values hm hus h) hf
  obtain ⟨job', hj', b, g, ts, vs, hrun, -, hout, hals⟩ := h3 u hu
  obtain ⟨d', xs, e1, e2, e3, e4⟩ := load_setting thr lint hl hn
  rw [h1] at e1
  injection e1 with e1
  subst e1
  have hjj : job' = job := by
    have a := (C57_job _ _ _).mpr hj'
    have a' := (C57_job _ _ _).mpr hj
    rw [a] at a'
    injection a'
  subst hjj
  rw [e2] at hrun
  obtain ⟨ns, hv⟩ := C67_loops_complete (e4 u job' hj hdom ht b) hrun (m := n) hs hsh hc
  exact ⟨js, ns, h2, hout _ hv trivial (fun _ e => nomatch e)⟩

/-- **C86** A clean bill: if the output file is an empty list, nothing a property of a job forbids happens to any name in the scope of the job,
and no resolution of one goes in circles. -/
theorem C86_clean (ord : List Str → List Str) (hord : ∀ l, (ord l).Perm l) (fuel thr : Nat) (lint : Bool) (read : Str → Str) (exists_ : Str → Bool)
    (jm jj : JVal) (m : Meta) (us : List UJob) (hm : MetaOf jm m) (hus : JobsOf jj us) (tops : List Str) (zs : List Listing)
    (ess : List (List (Entry × Nat))) (hl : Loadable read exists_ m tops zs ess) (hn : NoDname (allRecords zs ess)) (f : Files)
    (h : programJ ord fuel thr lint read exists_ jm (some jj) = .ok f) (hempty : JsonText.parse f.output = some (.arr [])) (u : UJob) (hu : u ∈ us)
    (job : Job) (hj : JobMeans {} u job) (hdom : Short (stringToLabels (toLower u.domain))) (ht : Testable u) (n : Name) (hs : InScope job n)
    (hsh : Short n) :
    ¬ Circular (worldOf tops zs ess) ⟨n, job.types, false⟩ ∧
      ∀ p ∈ u.properties, ∀ want, Asks p want → ∀ report, ¬ Problem (worldOf tops zs ess) (allRecords zs ess) job n want report := by
  have hf : f.finished = true := by
    by_contra hc
    obtain ⟨t, -, -, -, h3⟩ := C76_output ord hord fuel thr lint read exists_ m (some us) f (program_of_values hm hus h)
    rw [h3 (by simpa using hc)] at hempty
    cases hempty
  constructor
  · intro hc
    obtain ⟨js, ns, e1, j, hj', -⟩ := C86_loop_found ord hord fuel thr lint read exists_ jm jj m us hm hus tops zs ess hl hn f h hf u hu job hj hdom ht n hs hsh hc
    rw [hempty] at e1
    injection e1 with e1
    injection e1 with e1
    rw [← e1] at hj'; cases hj'
  · intro p hp want ha report hpr
    obtain ⟨js, e1, e2⟩ := C86_found ord hord fuel thr lint read exists_ jm jj m us hm hus tops zs ess hl hn f h hf u hu job hj hdom ht n hs hsh p hp want ha
      report hpr
    rw [hempty] at e1
    injection e1 with e1
    injection e1 with e1
    subst e1
    rcases e2 with ⟨_, j, hj', -⟩ | ⟨_, -, j, hj', -⟩ <;> cases hj'

theorem Spec.Warranted.structural {w : World} {rs : List RR} {job : Job} {b : Bool} {n : Name} {v : Violation}
    (h : Warranted w rs { job with structural := b } n v) : Warranted w rs job n v := by
  cases h with
  | loop ns h => exact .loop ns h
  | hops q p n h1 h2 h3 h4 => exact .hops q p n h1 h2 h3 h4
  | rewrites q p n h1 h2 h3 h4 => exact .rewrites q p n h1 h2 h3 h4
  | blackhole a b s p h1 h2 h3 => exact .blackhole a b s p h1 h2 h3
  | queryRewrite a b s ds p h1 h2 h3 => exact .queryRewrite a b s ds p h1 h2 h3
  | contact a s ds p h1 h2 h3 => exact .contact a s ds p h1 h2 h3
  | lame q s t a h1 h2 h3 h4 h5 => exact .lame q s t a h1 h2 h3 h4 h5
  | delegation q s t b id id' a h1 h2 h3 h4 h5 h6 h7 h8 => exact .delegation q s t b id id' a h1 h2 h3 h4 h5 h6 h7 h8
  | zeroTTL n tys x r h1 h2 h3 h4 h5 => exact .zeroTTL n tys x r h1 h2 h3 h4 h5
  | consistency n tys x y h1 h2 h3 h4 h5 h6 => exact .consistency n tys x y h1 h2 h3 h4 h5 h6
  | value tys values l h1 h2 h3 => exact .value tys values l h1 h2 h3
  | missing n tys x a h1 h2 h3 h4 h5 h6 => exact .missing n tys x a h1 h2 h3 h4 h5 h6
  | alias_ q al cs n h1 h2 h3 h4 => exact .alias_ q al cs n h1 h2 h3 h4
  | infinite a b used p h1 h2 h3 => exact .infinite a b used p h1 h2 h3
  | tooLong a b p y h1 h2 h3 => exact .tooLong a b p y h1 h2 h3

/-- **C86** Every report is true: each object of the output file is about a job, and is a report of the structural check some job asks for, or true
of some name of legal length the job is about, or lists aliases each of which is true of some such name. -/
theorem C86_true (ord : List Str → List Str) (hord : ∀ l, (ord l).Perm l) (fuel thr : Nat) (lint : Bool) (read : Str → Str) (exists_ : Str → Bool)
    (jm jj : JVal) (m : Meta) (us : List UJob) (hm : MetaOf jm m) (hus : JobsOf jj us) (tops : List Str) (zs : List Listing)
    (ess : List (List (Entry × Nat))) (hl : Loadable read exists_ m tops zs ess) (hn : NoDname (allRecords zs ess)) (hroom : Roomy (allRecords zs ess))
    (hjobs : ∀ u ∈ us, Short (stringToLabels (toLower u.domain)) ∧ octets (stringToLabels (toLower u.domain)) < 253 ∧ Testable u) (f : Files)
    (h : programJ ord fuel thr lint read exists_ jm (some jj) = .ok f) (hf : f.finished = true) :
    ∃ js, JsonText.parse f.output = some (.arr js) ∧ ∀ j ∈ js, ∃ v, (leaves j).Perm (entries ord v) ∧ ∃ u ∈ us, ∃ job, JobMeans {} u job ∧
      ((SomeStructural us ∧ ∃ d ps, v = .structural d ps) ∨ (∃ n, InScope job n ∧ Short n ∧ Warranted (worldOf tops zs ess) (allRecords zs ess) job n v) ∨
        ∃ groups, v = .allAliases groups ∧ groups ≠ [] ∧ ∀ c als, (c, als) ∈ groups → als ≠ [] ∧ ∀ al ∈ als, ∃ n, InScope job n ∧ Short n ∧
          Warranted (worldOf tops zs ess) (allRecords zs ess) job n (.alias al c)) := by
  obtain ⟨d, js, h1, h2, -, h3⟩ := job_run hord (program_of_values hm hus h) hf
  obtain ⟨d', xs, e1, e2, e3, e4⟩ := load_setting thr lint hl hn
  rw [h1] at e1
  injection e1 with e1
  subst e1
  refine ⟨js, h2, fun j hj => ?_⟩
  obtain ⟨v, u, job, b, g, ts, vs, hp, hu, hmeans, hrun, hb, hc⟩ := h3 j hj
  obtain ⟨hs, ho, ht⟩ := hjobs u hu
  have S := e4 u job hmeans hs ht b
  rw [e2] at hrun
  have ho' : octets (stringToLabels { job with structural := b }.domain) < 253 := by
    show octets (stringToLabels job.domain) < 253
    rw [hmeans.domain]; exact ho
  have key : ∀ {v : Violation}, v ∈ vs → (SomeStructural us ∧ ∃ d ps, v = .structural d ps) ∨
      ∃ n, InScope job n ∧ Short n ∧ Warranted (worldOf tops zs ess) (allRecords zs ess) job n v := by
    intro v hv
    rcases C87_true S (by rw [e3]; exact hroom) ho' hrun hv with hst | ⟨n, h4, h5, h6⟩
    · exact .inl ⟨hb hst.1, hst.2⟩
    · refine .inr ⟨n, h4, h5, ?_⟩
      rw [e3] at h6
      exact h6.structural
  refine ⟨v, hp, u, hu, job, hmeans, ?_⟩
  cases hc with
  | direct v hv hd => exact (key hv).imp id .inl
  | aliases q c hal groups hg =>
    refine .inr (.inr ⟨groups, rfl, ?_, fun c als hca => ⟨(hg.members c als hca).1, fun al hal => ?_⟩⟩)
    · obtain ⟨qs, hq⟩ := hg.all q c hal
      exact List.ne_nil_of_mem hq
    rcases key (((hg.members c als hca).2.2 al).mp hal) with ⟨_, _, _, e⟩ | h
    · cases e
    · exact h

/-! ### A run -/

private def k (s : String) (v : JVal) : Str × JVal := (s.toList, v)
private def t (s : String) : JVal := .str s.toList

/-- One file, served by "NS.x.". -/
def programMeta : Meta := ⟨some ["NS.x.".toList], some [⟨some "f".toList, some "NS.x.".toList, some "X.".toList⟩]⟩

def programMetaJ : JVal := .obj [k "TopNameServers" (.arr [t "NS.x."]), k "ZoneFiles" (.arr [
  .obj [k "FileName" (t "f"), k "NameServer" (t "NS.x."), k "Origin" (t "X.")]])]

theorem programMetaJ_of : MetaOf programMetaJ programMeta where
  top := ⟨_, ["NS.x.".toList], ⟨_, rfl, rfl⟩, .array _, rfl⟩
  files := ⟨_, _, _, ⟨_, rfl, rfl⟩, .array _,
    .cons ⟨⟨_, ⟨_, rfl, rfl⟩, rfl⟩, ⟨_, ⟨_, rfl, rfl⟩, rfl⟩, .inr ⟨_, ⟨_, rfl, rfl⟩, rfl⟩⟩ .nil, rfl⟩

/-- A job: only servers at or below `d` may be contacted. -/
def programJobJ (d : String) : JVal := .obj [k "Domain" (t "WWW.x"), k "Properties" (.arr [
  .obj [k "PropertyName" (t "NameserverContact"), k "Types" (.arr [t "A"]), k "Value" (.arr [t d])]]), k "SubDomain" (.bool false)]

def programUJob (d : String) : UJob := ⟨"WWW.x".toList, false, [⟨"NameserverContact".toList, some ["A".toList], .strs [d.toList]⟩]⟩

theorem programJobJ_of (d : String) : JobsOf (.arr [programJobJ d]) [programUJob d] := by
  refine ⟨_, .array _, .cons ?_ .nil⟩
  exact {
    domain := ⟨_, rfl, rfl⟩
    subdomain := ⟨_, rfl, rfl⟩
    properties := ⟨_, _, ⟨_, rfl, rfl⟩, .array _,
      .cons ⟨⟨_, rfl, rfl⟩, .inr ⟨_, ["A".toList], ⟨_, rfl, rfl⟩, .array _, rfl⟩, .inr ⟨_, ⟨_, rfl, rfl⟩, .list _ _ (.array _)⟩⟩ .nil⟩ }

theorem program_loadable : Loadable (fun _ => sampleFile) (fun _ => true) programMeta ["NS.x.".toList]
    [("f".toList, "NS.x.".toList, some "X.".toList)] [sampleEntries] where
  good := ⟨rfl, rfl, fun _ _ => rfl, "NS.x.".toList, by simp, _, List.mem_singleton.mpr rfl, rfl⟩
  files := .cons sampleFile_good .nil
  top := by simp

/-- What the files say. -/
example : worldOf ["NS.x.".toList] [("f".toList, "NS.x.".toList, some "X.".toList)] [sampleEntries] =
    { zones := [(1, Listing.records ("f".toList, "NS.x.".toList, some "X.".toList) sampleEntries)], nsZones := [("ns.x.".toList, [1])],
      top := ["ns.x.".toList] } ∧
    Listing.records ("f".toList, "NS.x.".toList, some "X.".toList) sampleEntries = kept (offeredBy "x.".toList sampleEntries) := by
  refine ⟨?_, rfl⟩
  unfold worldOf sitesFrom sitesFrom servedBy
  rw [if_pos (show HasSOA sampleEntries by decide +kernel)]
  rfl

def programJob (d : Name) : Job where
  domain := "www.x".toList
  types := TypeSet.single .A
  pathFns := [.nsContact [d]]

theorem programJob_means : JobMeans {} (programUJob "org") (programJob ["org".toList]) ∧ JobMeans {} (programUJob "x") (programJob ["x".toList]) :=
  ⟨(C57_job _ _ _).mp rfl, (C57_job _ _ _).mp rfl⟩

/-- The program reports the server for "org", and nothing for "x". -/
theorem program_runs : (∃ f, programJ id 300 500 true (fun _ => sampleFile) (fun _ => true) programMetaJ (some (.arr [programJobJ "org"])) = .ok f ∧
      f.finished = true ∧ (JsonText.parse f.output).map (fun j => match j with | .arr l => l.length | _ => 0) = some 2) ∧
    ∃ f, programJ id 300 500 true (fun _ => sampleFile) (fun _ => true) programMetaJ (some (.arr [programJobJ "x"])) = .ok f ∧
      JsonText.parse f.output = some (.arr []) :=
  ⟨files_of_check (by decide +kernel), files_of_check (by decide +kernel)⟩

/-- The hypotheses of `C86_found` are met by the job that allows "org" only. -/
example : NoDname (allRecords [("f".toList, "NS.x.".toList, some "X.".toList)] [sampleEntries]) ∧
    Short (stringToLabels (toLower (programUJob "org").domain)) ∧ Testable (programUJob "org") ∧
    InScope (programJob ["org".toList]) ["x".toList, "www".toList] ∧ Short ["x".toList, "www".toList] ∧
    (∃ p ∈ (programUJob "org").properties, Asks p (.path (.nsContact [["org".toList]]))) ∧
    Problem (worldOf ["NS.x.".toList] [("f".toList, "NS.x.".toList, some "X.".toList)] [sampleEntries])
      (allRecords [("f".toList, "NS.x.".toList, some "X.".toList)] [sampleEntries]) (programJob ["org".toList]) ["x".toList, "www".toList]
      (.path (.nsContact [["org".toList]])) (fun v => ∃ a, v = .nsContact a "ns.x.".toList (printList [["org".toList]])) := by
  refine ⟨by unfold NoDname; decide +kernel, by decide +kernel, ?_, ?_, by decide +kernel, ⟨_, List.mem_singleton.mpr rfl, .nsContact ["org".toList] rfl rfl (by simp)⟩, ?_⟩
  · exact ⟨⟨_, List.mem_singleton.mpr rfl, .inr ⟨_, rfl, _, List.mem_singleton.mpr rfl, .A, by unfold Names; decide +kernel, by decide⟩⟩, by decide +kernel⟩
  · unfold InScope
    rw [if_neg (by decide)]
    rfl
  · exact .contact _ [("ns.x.".toList, ⟨["x".toList, "www".toList], TypeSet.single .A, false⟩, none)] _
      (.step _ _ _ _ _ _ (.top _ _ (by unfold worldOf; decide +kernel)) (.done _ _)) ⟨_, List.mem_singleton.mpr rfl, rfl, by decide +kernel⟩

/-- So are those of `C86_true`. -/
example : Roomy (allRecords [("f".toList, "NS.x.".toList, some "X.".toList)] [sampleEntries]) ∧
    ∀ u ∈ [programUJob "org"], Short (stringToLabels (toLower u.domain)) ∧ octets (stringToLabels (toLower u.domain)) < 253 := by
  refine ⟨⟨⟨'q', by decide +kernel⟩, by decide +kernel⟩, ?_⟩
  intro u hu
  rw [List.mem_singleton.mp hu]
  decide +kernel

end Groot
