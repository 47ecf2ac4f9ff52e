import Verif.Spec.Default
import Verif.Props.Threaded
import Verif.Props.Asked

/-!
# C94: the program without a job file
-/

namespace Groot

open Spec Driver

private def k (s : String) (v : JVal) : Str × JVal := (s.toList, v)
private def t (s : String) : JVal := .str s.toList

/-- A job file that says what is done without one. -/
def defaultJ : JVal := .arr [.obj [k "Domain" (t "."), k "SubDomain" (.bool true), k "Properties" (.arr [
  .obj [k "PropertyName" (t "Hops"), k "Value" (.int 2)],
  .obj [k "PropertyName" (t "Rewrites"), k "Value" (.int 1)],
  .obj [k "PropertyName" (t "DelegationConsistency")],
  .obj [k "PropertyName" (t "LameDelegation")],
  .obj [k "PropertyName" (t "QueryRewrite"), k "Value" (.arr [t "."])],
  .obj [k "PropertyName" (t "RewriteBlackholing")]])]]

theorem setDefault_eq : setDefaultJob {} ".".toList = defaultJob := by decide +kernel

theorem setJob_default : setJob {} defaultUJob = .ok defaultJob := by decide +kernel

theorem default_means : JobMeans {} defaultUJob defaultJob := (C57_job _ _ _).mp setJob_default

theorem default_root : stringToLabels (toLower defaultUJob.domain) = [] := by decide +kernel

theorem default_scope (n : Name) (h : octets n < 253) : InScope defaultJob n := by
  unfold InScope
  have e : stringToLabels defaultJob.domain = [] := by decide +kernel
  rw [e]
  exact ⟨⟨n, rfl⟩, h⟩

theorem default_lists : Testable defaultUJob := ⟨⟨_, List.mem_cons_self, .inl rfl⟩, by decide +kernel⟩

theorem default_short : Short (stringToLabels (toLower defaultUJob.domain)) := by rw [default_root]; decide +kernel

theorem default_asks : ∀ want ∈ defaultWants, ∃ p ∈ defaultUJob.properties, Asks p want := by
  intro want hw
  simp only [defaultWants, List.mem_cons, List.not_mem_nil, or_false] at hw
  rcases hw with rfl | rfl | rfl | rfl | rfl
  · exact ⟨⟨"Hops".toList, none, .int 2⟩, by decide +kernel, .hops 2 rfl rfl⟩
  · exact ⟨⟨"Rewrites".toList, none, .int 1⟩, by decide +kernel, .rewrites 1 rfl rfl⟩
  · exact ⟨⟨"DelegationConsistency".toList, none, .missing⟩, by decide +kernel, .delegation rfl⟩
  · exact ⟨⟨"LameDelegation".toList, none, .missing⟩, by decide +kernel, .lame rfl⟩
  · exact ⟨⟨"RewriteBlackholing".toList, none, .missing⟩, by decide +kernel, .blackholing rfl⟩

private theorem no {m : List (Str × JVal)} {x : String} (h : m.lookup x.toList = none) : NoMember (.obj m) x := by
  intro m' e
  injection e with e
  rw [← e]
  exact h

theorem defaultJ_of : JobsOf defaultJ [defaultUJob] := by
  refine ⟨_, .array _, .cons ?_ .nil⟩
  exact {
    domain := ⟨_, rfl, rfl⟩
    subdomain := ⟨_, rfl, rfl⟩
    properties := ⟨_, _, ⟨_, rfl, rfl⟩, .array _,
      .cons ⟨⟨_, rfl, rfl⟩, .inl ⟨no rfl, rfl⟩, .inr ⟨_, ⟨_, rfl, rfl⟩, .int _ _ ⟨by omega, by omega, 0, by omega⟩⟩⟩
      (.cons ⟨⟨_, rfl, rfl⟩, .inl ⟨no rfl, rfl⟩, .inr ⟨_, ⟨_, rfl, rfl⟩, .int _ _ ⟨by omega, by omega, 0, by omega⟩⟩⟩
      (.cons ⟨⟨_, rfl, rfl⟩, .inl ⟨no rfl, rfl⟩, .inl ⟨no rfl, rfl⟩⟩
      (.cons ⟨⟨_, rfl, rfl⟩, .inl ⟨no rfl, rfl⟩, .inl ⟨no rfl, rfl⟩⟩
      (.cons ⟨⟨_, rfl, rfl⟩, .inl ⟨no rfl, rfl⟩, .inr ⟨_, ⟨_, rfl, rfl⟩, .list _ [".".toList] (.array _)⟩⟩
      (.cons ⟨⟨_, rfl, rfl⟩, .inl ⟨no rfl, rfl⟩, .inl ⟨no rfl, rfl⟩⟩ .nil)))))⟩ }

section

variable {ord : List Str → List Str} {thr : Nat} {lint : Bool} {read : Str → Str} {exists_ : Str → Bool} {jm : JVal} {m : Meta}
  {tops : List Str} {zs : List Listing} {ess : List (List (Entry × Nat))}

theorem threadedDefault_iff {fuel : Nat} {text : Str} {whole : Bool} :
    ThreadedDefault ord fuel thr lint read exists_ jm text whole ↔ Threaded ord fuel thr lint read exists_ jm defaultJ text whole := by
  constructor
  · rintro ⟨m, d, items, lg', h1, h2, h3, h4⟩
    rw [setDefault_eq] at h3
    exact ⟨m, _, d, _, h1, defaultJ_of, h2, .job _ _ _ _ _ _ _ _ _ setJob_default h3 (.done _ _ _), h4⟩
  · rintro ⟨m, us, d, out, h1, h2, h3, h4, h5⟩
    have e := (C78_unique defaultJ).2.2.2.2 us [defaultUJob] h2 defaultJ_of
    subst e
    cases h4 with
    | job _ lg' _ job' _ items _ _ _ hj ht h =>
      rw [setJob_default] at hj
      injection hj with hj
      subst hj
      cases h
      refine ⟨m, d, items, lg', h1, h3, ?_, h5⟩
      rw [setDefault_eq]
      exact ht

theorem programJ_default {fuel : Nat} {f : Files} :
    programJ ord fuel thr lint read exists_ jm none = .ok f ↔ programJ ord fuel thr lint read exists_ jm (some defaultJ) = .ok f := by
  have same : ∀ m, program ord fuel thr lint read exists_ m none = program ord fuel thr lint read exists_ m (some [defaultUJob]) := by
    intro m
    unfold program
    rw [C75_default]
  rw [C78_program, C78_program]
  constructor
  · rintro ⟨m, us, h1, h2, h3⟩
    have e : us = none := by cases us with | none => rfl | some _ => exact h2.elim
    subst e
    rw [same] at h3
    exact ⟨m, some [defaultUJob], h1, defaultJ_of, h3⟩
  · rintro ⟨m, us, h1, h2, h3⟩
    cases us with
    | none => exact h2.elim
    | some us =>
      have e := (C78_unique defaultJ).2.2.2.2 us [defaultUJob] h2 defaultJ_of
      subst e
      rw [← same] at h3
      exact ⟨m, none, h1, trivial, h3⟩

theorem Spec.GoodFiles.input (h : GoodFiles read exists_ m tops zs ess) : GoodInput read exists_ m [defaultUJob] tops zs ess where
  loadable := h.loadable
  zones := h.zones
  redirects := h.redirects
  jobs := by
    intro u hu
    rw [List.mem_singleton.mp hu]
    refine ⟨⟨fun p hp => ?_, by decide +kernel⟩, ⟨_, List.mem_cons_self, .inl rfl⟩, ?_⟩
    · refine ⟨default_means.valid p hp, ?_⟩
      obtain ⟨ws, h1, -⟩ := default_means.checks
      obtain ⟨w, -, hw⟩ := forall₂_mem' h1 hp
      exact ⟨w, hw⟩
    · intro r _ _ hb
      rw [default_root] at hb ⊢
      obtain ⟨rest, e⟩ := hb
      exact (List.append_eq_nil_iff.mp e.symm).1
  utf8 := by
    rintro s (hs | hs | ⟨us, e, u, hu, hs⟩)
    · exact h.utf8 s (.inl hs)
    · exact h.utf8 s (.inr (.inl hs))
    · injection e with e
      subst e
      rw [List.mem_singleton.mp hu] at hs
      have dot : Utf8 ".".toList := (Json.utf8Ok_iff _).mp (by decide +kernel)
      rcases hs with rfl | ⟨p, hp, l, hl, hs⟩
      · exact dot
      · have : ∀ p ∈ defaultUJob.properties, ∀ l, p.value = .strs l → l = [".".toList] := by
          intro p hp l hl
          simp only [defaultUJob, List.mem_cons, List.not_mem_nil, or_false] at hp
          rcases hp with rfl | rfl | rfl | rfl | rfl | rfl <;> cases hl
          rfl
        rw [this p hp l hl] at hs
        rw [List.mem_singleton.mp hs]
        exact dot

/-- **C94** Without a job file, on good zone files, the program ends when everything happens in turn, and writes complete files. -/
theorem C94_ends (hord : ∀ l, (ord l).Perm l) (hm : MetaOf jm m) (h : GoodFiles read exists_ m tops zs ess) :
    ∃ N f, (∀ fuel, N ≤ fuel → programJ ord fuel thr lint read exists_ jm none = .ok f) ∧ f.finished = true := by
  obtain ⟨N, f, h1, h2⟩ := C90_ends (thr := thr) (lint := lint) hord hm defaultJ_of h.input
  exact ⟨N, f, fun fuel hf => programJ_default.mpr (h1 fuel hf), h2⟩

/-- **C94** Some schedule of the threads gets to the end, and each that does writes a complete file. -/
theorem C94_threads_end (hord : ∀ l, (ord l).Perm l) (hm : MetaOf jm m) (h : GoodFiles read exists_ m tops zs ess) :
    ∃ N, ∀ fuel, N ≤ fuel → (∃ text, ThreadedDefault ord fuel thr lint read exists_ jm text true) ∧
      ∀ text whole, ThreadedDefault ord fuel thr lint read exists_ jm text whole → whole = true := by
  simp only [threadedDefault_iff]
  exact C90_threads_end hord hm defaultJ_of h.input

/-- **C94** The schedule does not matter. -/
theorem C94_same (hord : ∀ l, (ord l).Perm l) (hm : MetaOf jm m) (h : GoodFiles read exists_ m tops zs ess) :
    ∃ N, ∀ fuel, N ≤ fuel → ∀ f text whole, programJ ord fuel thr lint read exists_ jm none = .ok f →
      ThreadedDefault ord fuel thr lint read exists_ jm text whole →
      ∃ js js', JsonText.parse f.output = some (.arr js) ∧ JsonText.parse text = some (.arr js') ∧ js.Nodup ∧ js'.Nodup ∧
        (∀ j ∈ js, ∃ j' ∈ js', SameObject ord j j') ∧ ∀ j' ∈ js', ∃ j ∈ js, SameObject ord j j' := by
  simp only [threadedDefault_iff, programJ_default]
  exact C90_same hord hm defaultJ_of h.input

/-- **C94** Every problem is reported: if resolving the NS records of some name contacts more than two servers, rewrites the question more than once, is
rewritten and ends nowhere, or finds the delegation of the name lame or inconsistent, the output file has an object that says so, or one that tells of a loop. -/
theorem C94_found (hord : ∀ l, (ord l).Perm l) (hm : MetaOf jm m) (h : GoodFiles read exists_ m tops zs ess) :
    ∃ N, ∀ fuel, N ≤ fuel → ∀ text whole, ThreadedDefault ord fuel thr lint read exists_ jm text whole → ∃ js, JsonText.parse text = some (.arr js) ∧
      ∀ n, octets n < 253 → Fits (worldOf tops zs ess) ⟨n, TypeSet.single .NS, false⟩ → ∀ want ∈ defaultWants, ∀ report : Violation → Prop,
        Trouble (worldOf tops zs ess) (allRecords zs ess) defaultJob n want report →
        (∃ ns, ∃ j ∈ js, (leaves j).Perm (entries ord (.loop ns))) ∨ ∃ v, report v ∧ ∃ j ∈ js, (leaves j).Perm (entries ord v) := by
  simp only [threadedDefault_iff]
  obtain ⟨N, hN⟩ := C90_found (thr := thr) (lint := lint) hord hm defaultJ_of h.input
  refine ⟨N, fun fuel hf text whole ht => ?_⟩
  obtain ⟨js, h1, h2⟩ := hN fuel hf text whole ht
  refine ⟨js, h1, fun n hn hfit want hw report hr => ?_⟩
  obtain ⟨p, hp, ha⟩ := default_asks want hw
  exact h2 _ (List.mem_singleton.mpr rfl) _ default_means default_short default_lists n (default_scope n hn) hfit p hp want ha report hr

/-- **C94** Circular resolutions are reported. -/
theorem C94_loop_found (hord : ∀ l, (ord l).Perm l) (hm : MetaOf jm m) (h : GoodFiles read exists_ m tops zs ess) :
    ∃ N, ∀ fuel, N ≤ fuel → ∀ text whole, ThreadedDefault ord fuel thr lint read exists_ jm text whole → ∃ js, JsonText.parse text = some (.arr js) ∧
      ∀ n, octets n < 253 → Fits (worldOf tops zs ess) ⟨n, TypeSet.single .NS, false⟩ → Circular (worldOf tops zs ess) ⟨n, TypeSet.single .NS, false⟩ →
        ∃ ns, ∃ j ∈ js, (leaves j).Perm (entries ord (.loop ns)) := by
  simp only [threadedDefault_iff]
  obtain ⟨N, hN⟩ := C90_loop_found (thr := thr) (lint := lint) hord hm defaultJ_of h.input
  refine ⟨N, fun fuel hf text whole ht => ?_⟩
  obtain ⟨js, h1, h2⟩ := hN fuel hf text whole ht
  exact ⟨js, h1, fun n hn hfit hc => h2 _ (List.mem_singleton.mpr rfl) _ default_means default_short default_lists n (default_scope n hn) hfit hc⟩

/-- **C94** Every report is true, and of one of the five kinds or a loop. -/
theorem C94_all_true (hord : ∀ l, (ord l).Perm l) (hm : MetaOf jm m) (h : GoodFiles read exists_ m tops zs ess) (hfree : FreeLabel (allRecords zs ess)) :
    ∃ N, ∀ fuel, N ≤ fuel → ∀ text whole, ThreadedDefault ord fuel thr lint read exists_ jm text whole → ∃ js, JsonText.parse text = some (.arr js) ∧
      ∀ j ∈ js, ∃ v q, (leaves j).Perm (entries ord v) ∧ ((∃ ns, v = .loop ns) ∨ ∃ want ∈ defaultWants, Fulfils want v) ∧
        Sustained (worldOf tops zs ess) (allRecords zs ess) defaultJob q v := by
  simp only [threadedDefault_iff]
  obtain ⟨N, hN⟩ := threaded_account (thr := thr) (lint := lint) hord hm defaultJ_of h.input
  refine ⟨N, fun fuel hf text whole ht => ?_⟩
  obtain ⟨d, js, h1, h2, h3⟩ := hN fuel hf text whole ht
  refine ⟨js, h2, fun j hj => ?_⟩
  obtain ⟨v, u, job, b, g, ts, vs, hp, hu, hmeans, hrun, hb, hc⟩ := h3.2 j hj
  have htrue := true_of_run h.loadable h.redirects hfree (by
    intro u hu
    rw [List.mem_singleton.mp hu]
    exact ⟨default_short, by rw [default_root]; decide +kernel, default_lists⟩) h1 hu hmeans hrun hb hc
  rw [List.mem_singleton.mp hu] at hmeans
  have ej : job = defaultJob := by
    have := (C57_job _ _ _).mpr hmeans
    rw [setJob_default] at this
    injection this with this
    exact this.symm
  subst ej
  have nost : ¬ SomeStructural [defaultUJob] := by decide +kernel
  have hbf : b = false := by
    cases b with
    | false => rfl
    | true => exact absurd (hb rfl) nost
  subst hbf
  have ans : ∀ v ∈ vs, (∃ ns, v = .loop ns) ∨ ∃ want ∈ defaultWants, Fulfils want v := by
    intro v hv
    have hj := runSequential_ans fuel thr d.ctx d.lg { defaultJob with structural := false } (stored_of_job setJob_default) _ hrun v hv
    rcases hj with hj | ⟨f, hf, hj⟩ | ⟨f, hf, hj⟩ | ⟨hf, -⟩
    · exact .inl hj
    · simp only [defaultJob, List.mem_cons, List.not_mem_nil, or_false] at hf
      rcases hf with rfl | rfl | rfl | rfl | rfl | rfl
      · exact .inr ⟨_, by simp [defaultWants], hj⟩
      · exact .inr ⟨_, by simp [defaultWants], hj⟩
      · exact .inr ⟨_, by simp [defaultWants], hj⟩
      · exact .inr ⟨_, by simp [defaultWants], hj⟩
      · exact absurd hj (C93_root_allowed _ _ [[]] (by simp) (.inl rfl))
      · exact .inr ⟨_, by simp [defaultWants], hj⟩
    · cases hf
    · cases hf
  cases hc with
  | direct _ hv _ =>
    rcases htrue with ⟨hs, -⟩ | ⟨q, hq⟩ | ⟨groups, rfl, hg⟩
    · exact absurd hs nost
    · exact ⟨v, q, hp, ans v hv, hq⟩
    · rcases ans _ hv with ⟨_, e⟩ | ⟨want, hw, e⟩
      · cases e
      · cases e
  | aliases q c hv groups hg =>
    exfalso
    rcases ans _ hv with ⟨_, e⟩ | ⟨want, hw, e⟩
    · cases e
    · cases e
      simp [defaultWants] at hw

/-- **C94** A clean bill: if the output file is an empty list after some schedule of the threads, none of the problems happens to any name, and no
resolution goes in circles. -/
theorem C94_clean (hord : ∀ l, (ord l).Perm l) (hm : MetaOf jm m) (h : GoodFiles read exists_ m tops zs ess) :
    ∃ N, ∀ fuel, N ≤ fuel → ∀ text whole, ThreadedDefault ord fuel thr lint read exists_ jm text whole → JsonText.parse text = some (.arr []) →
      ∀ n, octets n < 253 → Fits (worldOf tops zs ess) ⟨n, TypeSet.single .NS, false⟩ → ¬ Circular (worldOf tops zs ess) ⟨n, TypeSet.single .NS, false⟩ ∧
        ∀ want ∈ defaultWants, ∀ report, ¬ Trouble (worldOf tops zs ess) (allRecords zs ess) defaultJob n want report := by
  simp only [threadedDefault_iff]
  obtain ⟨N, hN⟩ := C90_clean (thr := thr) (lint := lint) hord hm defaultJ_of h.input
  refine ⟨N, fun fuel hf text whole ht hempty n hn hfit => ?_⟩
  obtain ⟨h1, h2⟩ := hN fuel hf text whole ht hempty _ (List.mem_singleton.mpr rfl) _ default_means default_short default_lists n (default_scope n hn) hfit
  refine ⟨h1, fun want hw report => ?_⟩
  obtain ⟨p, hp, ha⟩ := default_asks want hw
  exact h2 p hp want ha report

end

/-! ### A run -/

/-- The file with a DNAME is a good zone file. -/
theorem redirect_good : GoodFiles (fun _ => redirectFile) (fun _ => true) programMeta ["NS.x.".toList] redirectListing [redirectEntries] where
  loadable := redirect_loadable
  zones := redirect_sane.zones
  redirects := redirect_sane.redirects
  utf8 := by
    rintro s (hs | hs | ⟨us, e, -⟩)
    · exact redirect_sane.utf8 s (.inl hs)
    · exact redirect_sane.utf8 s (.inr (.inl hs))
    · cases e

/-- So the default job can be run on it. -/
example : ∃ fuel text, ThreadedDefault id fuel 500 true (fun _ => redirectFile) (fun _ => true) programMetaJ text true := by
  obtain ⟨N, h⟩ := C94_threads_end (ord := id) (thr := 500) (lint := true) (fun _ => .refl _) programMetaJ_of redirect_good
  obtain ⟨⟨text, ht⟩, -⟩ := h N (Nat.le_refl _)
  exact ⟨N, text, ht⟩

/-- Names below `d.x` are redirected to names that do not exist: the hypotheses of `C94_found` are met, and `C94_found` says that this is reported. -/
example : octets ["x".toList, "d".toList, "u".toList] < 253 ∧
    Fits (worldOf ["NS.x.".toList] redirectListing [redirectEntries]) ⟨["x".toList, "d".toList, "u".toList], TypeSet.single .NS, false⟩ ∧
    .path .blackholing ∈ defaultWants ∧
    Trouble (worldOf ["NS.x.".toList] redirectListing [redirectEntries]) (allRecords redirectListing [redirectEntries]) defaultJob
      ["x".toList, "d".toList, "u".toList] (.path .blackholing) (fun v => ∃ a b, v = .blackhole a b "ns.x.".toList) := by
  rw [redirect_world]
  have hw : WellFormed redirectWorld := wellFormed_of _ (by decide +kernel) (by decide +kernel) (by decide +kernel)
  have hr : Represents (contextOf redirectWorld) redirectWorld := represents_of (thr := 500) rfl rfl rfl
  refine ⟨by decide +kernel, fits_of_check hr hw (by decide +kernel) (by decide +kernel), by unfold defaultWants; simp, ?_⟩
  have he : Encloser (redirectWorld.log 1) ["x".toList, "d".toList, "u".toList] ["x".toList, "d".toList] := by
    have h := encloser_self (log := redirectWorld.log 1) (n := ["x".toList, "d".toList]) (by decide +kernel) (by decide +kernel)
    exact ⟨⟨["u".toList], rfl⟩, h.2.1, h.2.2.1, .inl (by decide +kernel)⟩
  have he' : Encloser (redirectWorld.log 1) ["x".toList, "tt".toList, "u".toList] ["x".toList, "tt".toList] := by
    have h := encloser_self (log := redirectWorld.log 1) (n := ["x".toList, "tt".toList]) (by decide +kernel) (by decide +kernel)
    refine ⟨⟨["u".toList], rfl⟩, h.2.1, h.2.2.1, .inr (.inr ?_)⟩
    rintro l ⟨rest, e⟩
    injection e with e1 e2; injection e2 with e2 e3; injection e3 with e3 e4
    subst e3
    decide +kernel
  obtain ⟨ts, hts⟩ : ∃ ts, TypesAt (redirectWorld.log 1) ["x".toList, "d".toList] ts := by
    refine ⟨TypeSet.single .DNAME, fun t => ?_⟩
    cases t <;> first | (unfold Member; decide +kernel) | skip
  obtain ⟨r, hr1, hr2, hr3, hr4⟩ : ∃ r ∈ redirectWorld.log 1, r.name = ["x".toList, "d".toList] ∧ r.type = .DNAME ∧
      stringToLabels r.rdata = ["x".toList, "tt".toList] := by decide +kernel
  have hsays : Says redirectWorld "ns.x.".toList ⟨["x".toList, "d".toList, "u".toList], TypeSet.single .NS, false⟩ [⟨.REWRITE, ts, [r]⟩] :=
    .zone 1 _ (by decide +kernel) ⟨[], [], by decide +kernel, by decide +kernel, by simp, by simp⟩
      (.dname _ ts r he (by decide +kernel) (by unfold ExactFor; rintro ⟨h, -⟩; revert h; decide +kernel) hr1 hr2 hr3 hts)
  have hnx : Says redirectWorld "ns.x.".toList ⟨["x".toList, "tt".toList, "u".toList], TypeSet.single .NS, false⟩ [⟨.NX, TypeSet.single .NS, []⟩] :=
    .zone 1 _ (by decide +kernel) ⟨[], [], by decide +kernel, by decide +kernel, by simp, by simp⟩
      (.nx _ he' (by decide +kernel) (by unfold ExactFor; rintro ⟨h, -⟩; revert h; decide +kernel) (by decide +kernel) (by decide +kernel))
  have hstep : Step redirectWorld "ns.x.".toList ⟨["x".toList, "d".toList, "u".toList], TypeSet.single .NS, false⟩ "ns.x.".toList
      ⟨["x".toList, "tt".toList, "u".toList], TypeSet.single .NS, false⟩ none :=
    .rewriteHere _ _ _ _ r _ (by decide) hsays List.mem_cons_self rfl List.mem_cons_self
      (.dname ["u".toList] hr3 (by rw [hr2]; rfl) (by rw [hr4]; rfl) rfl rfl) (.inr ⟨1, by decide +kernel, by decide +kernel⟩)
  refine .blackhole [("ns.x.".toList, ⟨["x".toList, "d".toList, "u".toList], TypeSet.single .NS, false⟩, none),
    ("ns.x.".toList, ⟨["x".toList, "tt".toList, "u".toList], TypeSet.single .NS, false⟩, none)] _
    (.step _ _ _ _ _ _ (.top _ _ (by simp [redirectWorld])) (.step _ _ _ _ _ _ hstep (.done _ _))) ?_
  exact ⟨[_], _, rfl, ⟨_, List.mem_singleton.mpr rfl, ⟨_, _, hsays, rfl⟩⟩, ⟨_, _, hnx, rfl⟩, rfl⟩

end Groot
