import Verif.Lemmas.Driver
import Verif.Props.Concurrency
import Verif.Props.Labels

/-!
# C56-C59: jobs, metadata, output files
-/

namespace Groot

open Spec Driver

/-! ## C57 -/

/-- **C57** `SetJob` succeeds exactly on job descriptions whose properties are well formed, and then the job is what the
description says: its checks in order, its types, its domain in lower case. -/
theorem C57_job (prev : Job) (u : UJob) (j : Job) : setJob prev u = .ok j ↔ JobMeans prev u j := by
  unfold setJob
  rw [setProps_ok_iff]
  constructor
  · rintro ⟨hv, ws, ts, hws, hts, rfl⟩
    refine ⟨hv, rfl, rfl, ⟨ws, hws, by simp, by simp⟩, ?_, ?_⟩
    · intro t
      show Member ts t ↔ _
      rw [hts]
      exact or_iff_right (not_member_zero t)
    · show (prev.structural || ws.any Wanted.isStructural) = true ↔ _
      rw [Bool.or_eq_true, asks_structural_iff hws]
      rfl
  · rintro ⟨hv, h1, h2, ⟨ws, hws, h3, h4⟩, h5, h6⟩
    refine ⟨hv, ws, j.types, hws, ?_, ?_⟩
    · intro t
      rw [h5]
      exact (or_iff_right (not_member_zero t)).symm
    · have : j.structural = (prev.structural || ws.any Wanted.isStructural) := by
        rw [Bool.eq_iff_iff, h6, Bool.or_eq_true, asks_structural_iff hws]
        rfl
      cases j
      simp only at h1 h2 h3 h4 this
      simp [h1, h2, h3, h4, this]

/-- **C57** A type name that is not one of the thirteen supported ones makes `SetJob` throw, whatever follows it. -/
theorem C57_unknown_type (prev j : Job) (u : UJob) (p : UProp) (rest : List UProp) (hu : setJob prev u = .ok j)
    (hp : ¬ ValidTypes p) : setJob prev { u with properties := u.properties ++ p :: rest } = .throw := by
  unfold setJob at hu ⊢
  dsimp only at hu ⊢
  revert hu
  generalize ({ domain := toLower u.domain, subdomains := u.subdomain, structural := prev.structural } : Job) = j0
  intro hu
  have throws : setProp j p = .throw := by
    rw [setProp_eq]
    rcases ht : p.types with _ | l
    · exact absurd (fun l hl => by rw [ht] at hl; cases hl) hp
    · dsimp only
      rw [addTypes_throw, Res.throw_bind]
      intro hl
      exact hp (fun l' hl' => by rw [ht] at hl'; cases hl'; exact hl)
  revert hu
  generalize u.properties = ps
  intro hu
  induction ps generalizing j0 with
  | nil =>
    have : Res.ok j0 = .ok j := hu
    injection this with this
    subst this
    rw [List.nil_append, List.foldlM_cons, throws, Res.throw_bind]
  | cons q ps ih =>
    rw [List.foldlM_cons, bind_ok_iff] at hu
    obtain ⟨j1, h1, h2⟩ := hu
    rw [List.cons_append, List.foldlM_cons, h1, Res.ok_bind]
    exact ih j1 h2

/-- A job with four properties. -/
def sampleJob : UJob where
  domain := "Example.COM".toList
  subdomain := true
  properties := [⟨"Hops".toList, none, .int 2⟩, ⟨"ResponseValue".toList, some ["A".toList, "MX".toList], .strs ["y".toList, "x".toList, "y".toList]⟩,
    ⟨"QueryRewrite".toList, some ["TXT".toList], .strs []⟩, ⟨"StructuralDelegationConsistency".toList, some [], .missing⟩]

example : setJob {} sampleJob = .ok (Job.mk "example.com".toList true true [.hops 2]
    [.value (TypeSet.add (TypeSet.add 0 .A) .MX) ["x".toList, "y".toList]]
    (TypeSet.add (TypeSet.add (TypeSet.add (TypeSet.add 0 .NS) .A) .MX) .TXT)) := by
  decide +kernel

example : ¬ ValidTypes ⟨"ZeroTTL".toList, some ["A".toList, "DS".toList], .missing⟩ := by
  intro h
  obtain ⟨t, ht⟩ := h _ rfl "DS".toList (by decide)
  have := (exists_names_iff _).mp ⟨t, ht⟩
  exact this (by decide +kernel)

/-! ## C56 -/

/-- **C56** A job is determined by its description, except that the structural check is also on if it was on before. -/
theorem C56_only_structural (prev prev' j : Job) (u : UJob) (h : setJob prev u = .ok j) :
    setJob prev' u = .ok { j with structural := prev'.structural || decide (AsksStructural u) } := by
  rw [C57_job] at h ⊢
  refine ⟨h.valid, h.domain, h.subdomains, h.checks, h.types, ?_⟩
  show (prev'.structural || decide (AsksStructural u)) = true ↔ _
  rw [Bool.or_eq_true, decide_eq_true_eq]

theorem setJobs_structural (hist : List UJob) (j0 j1 : Job) (h : hist.foldlM setJob j0 = .ok j1) :
    j1.structural = true ↔ j0.structural = true ∨ ∃ u ∈ hist, AsksStructural u := by
  induction hist generalizing j0 with
  | nil =>
    have : Res.ok j0 = .ok j1 := h
    injection this with this
    simp [this]
  | cons u hist ih =>
    rw [List.foldlM_cons, bind_ok_iff] at h
    obtain ⟨j, h1, h2⟩ := h
    rw [ih j h2, ((C57_job _ _ _).mp h1).structural]
    simp only [List.mem_cons, exists_eq_or_imp, or_assoc]

/-- **C56** After any history of jobs, a job is the one a fresh driver would make of the same description, except for the
structural check, which is on iff some job so far asked for it. -/
theorem C56_history (hist : List UJob) (u : UJob) (j1 j2 fresh : Job) (h1 : hist.foldlM setJob {} = .ok j1)
    (h2 : setJob j1 u = .ok j2) (h3 : setJob {} u = .ok fresh) :
    j2 = { fresh with structural := decide (∃ v ∈ hist ++ [u], AsksStructural v) } := by
  have h4 := C56_only_structural {} j1 fresh u h3
  rw [h2] at h4
  injection h4 with h4
  rw [h4]
  congr 1
  rw [Bool.eq_iff_iff, Bool.or_eq_true, decide_eq_true_eq, decide_eq_true_eq, setJobs_structural hist {} j1 h1]
  simp only [List.mem_append, List.mem_singleton]
  constructor
  · rintro ((h | ⟨v, hv, h⟩) | h)
    · cases h
    · exact ⟨v, .inl hv, h⟩
    · exact ⟨u, .inr rfl, h⟩
  · rintro ⟨v, hv | rfl, h⟩
    · exact .inl (.inr ⟨v, hv, h⟩)
    · exact .inr h

/-- **C56** If no earlier job asked for the structural check, nothing of the history is left in the job. -/
theorem C56_no_leak (hist : List UJob) (u : UJob) (j1 : Job) (h1 : hist.foldlM setJob {} = .ok j1)
    (hs : ∀ v ∈ hist, ¬ AsksStructural v) : setJob j1 u = setJob {} u := by
  have hf : j1.structural = false := by
    rw [Bool.eq_false_iff, Ne, setJobs_structural hist {} j1 h1]
    rintro (h | ⟨v, hv, h⟩)
    · cases h
    · exact hs v hv h
  unfold setJob
  rw [hf]

/-- **C56** (disagreement) The structural check stays on: a job that asks for nothing, run after one that asks for it. -/
theorem C56_disagreement_structural :
    ([⟨"com".toList, true, [⟨"StructuralDelegationConsistency".toList, none, .missing⟩]⟩, ⟨"com".toList, true, []⟩] : List UJob).foldlM setJob {} =
      .ok { domain := "com".toList, subdomains := true, structural := true } ∧
    setJob {} ⟨"com".toList, true, []⟩ = .ok { domain := "com".toList, subdomains := true, structural := false } := by
  decide +kernel

/-- **C56** Running jobs leaves the label graph as it was, so the classes of a later job do not depend on earlier ones. -/
theorem C56_graph_unchanged (fuel thr : Nat) (ctx : Context) (xs : List (RR × Nat × Nat)) (jobs : List UJob) (job : Job)
    (vs : List Violation) (r : LGraph × Job × List Violation)
    (h : runJobs fuel thr ctx (labelGraph thr xs) job vs jobs = .ok r) : r.1 = labelGraph thr xs := by
  induction jobs generalizing job vs with
  | nil => unfold runJobs at h; injection h with h; rw [← h]
  | cons u jobs ih =>
    unfold runJobs at h
    obtain ⟨j, h1, h⟩ := bind_ok_iff.mp h
    obtain ⟨x, h2, h⟩ := bind_ok_iff.mp h
    unfold runSequential at h2
    obtain ⟨y, h3, h2⟩ := bind_ok_iff.mp h2
    obtain ⟨z, h4, h2⟩ := bind_ok_iff.mp h2
    injection h2 with h2
    have e := C23_generation_no_trace thr xs (Driver.req j) fuel y.1 y.2 h3
    rw [← h2] at h
    dsimp only at h
    rw [e] at h
    exact ih _ _ h

/-- **C56** The violations of a run over several jobs are those of each job run on its own by a fresh driver on the same
zones, collected one after the other. -/
theorem C56_jobs_independent (fuel thr : Nat) (ctx : Context) (xs : List (RR × Nat × Nat)) (jobs : List UJob) (job : Job)
    (vs : List Violation) (hj : job.structural = false) (hs : ∀ u ∈ jobs, ¬ AsksStructural u) (r : LGraph × Job × List Violation)
    (h : runJobs fuel thr ctx (labelGraph thr xs) job vs jobs = .ok r) :
    ∃ vss : List (List Violation), List.Forall₂ (fun u v => ∃ j ts, setJob {} u = .ok j ∧
        runSequential fuel thr ctx (labelGraph thr xs) j = .ok (labelGraph thr xs, ts, v)) jobs vss ∧
      r.2.2 = vss.foldl collect vs := by
  induction jobs generalizing job vs with
  | nil => unfold runJobs at h; injection h with h; exact ⟨[], .nil, by rw [← h]; rfl⟩
  | cons u jobs ih =>
    unfold runJobs at h
    obtain ⟨j, h1, h⟩ := bind_ok_iff.mp h
    obtain ⟨x, h2, h⟩ := bind_ok_iff.mp h
    have hx : x.1 = labelGraph thr xs := by
      have h2' := h2
      unfold runSequential at h2'
      obtain ⟨y, h3, h2'⟩ := bind_ok_iff.mp h2'
      obtain ⟨z, h4, h2'⟩ := bind_ok_iff.mp h2'
      injection h2' with h2'
      rw [← h2']
      exact C23_generation_no_trace thr xs (Driver.req j) fuel y.1 y.2 h3
    have hjs : j.structural = false := by
      rw [Bool.eq_false_iff, Ne, ((C57_job _ _ _).mp h1).structural]
      rintro (h | h)
      · rw [hj] at h; cases h
      · exact hs u (by simp) h
    have h0 : setJob {} u = .ok j := by
      rw [← h1]
      unfold setJob
      rw [hj]
    rw [hx] at h
    obtain ⟨vss, h5, h6⟩ := ih j _ hjs (fun v hv => hs v (by simp [hv])) h
    refine ⟨x.2.2 :: vss, .cons ⟨j, x.2.1, h0, ?_⟩ h5, h6⟩
    rw [h2, ← hx]

/-! ## C58 -/

theorem zoneServers_ok (exists_ : Str → Bool) (zs : List UZone) (servers : List Str) (h : zoneServers exists_ zs = .ok servers) :
    ∃ zones : List (Str × Str × Option Str), zs = zones.map (fun z => { fileName := some z.1, nameServer := some z.2.1, origin := z.2.2 }) ∧
      (∀ z ∈ zones, exists_ z.1 = true) ∧ servers = zones.map (fun z => toLower z.2.1) := by
  induction zs generalizing servers with
  | nil => unfold zoneServers at h; injection h with h; exact ⟨[], rfl, by simp, by simp [h]⟩
  | cons z zs ih =>
    obtain ⟨f, ns, o⟩ := z
    unfold zoneServers at h
    rcases f with _ | f
    · cases h
    rcases ns with _ | ns
    · cases h
    dsimp only at h
    by_cases hf : exists_ f = true
    · rw [if_neg (by simp [hf])] at h
      obtain ⟨r, h1, h⟩ := bind_ok_iff.mp h
      injection h with h
      obtain ⟨zones, e1, e2, e3⟩ := ih r h1
      refine ⟨(f, ns, o) :: zones, by simp [e1], ?_, by simp [← h, e3]⟩
      intro z hz
      rcases List.mem_cons.mp hz with rfl | hz
      · exact hf
      · exact e2 z hz
    · rw [if_pos (by simp [hf])] at h
      cases h

theorem zoneServers_of (exists_ : Str → Bool) (zones : List (Str × Str × Option Str)) (h : ∀ z ∈ zones, exists_ z.1 = true) :
    zoneServers exists_ (zones.map (fun z => { fileName := some z.1, nameServer := some z.2.1, origin := z.2.2 })) =
      .ok (zones.map (fun z => toLower z.2.1)) := by
  induction zones with
  | nil => rfl
  | cons z zones ih =>
    unfold zoneServers
    simp only [List.map_cons, h z (by simp), Bool.not_true]
    rw [if_neg (by simp), ih (fun x hx => h x (by simp [hx]))]
    rfl

theorem zoneServers_cases (exists_ : Str → Bool) (zs : List UZone) :
    (∃ s, zoneServers exists_ zs = .ok s) ∨ zoneServers exists_ zs = .exit := by
  induction zs with
  | nil => exact .inl ⟨_, rfl⟩
  | cons z zs ih =>
    obtain ⟨f, ns, o⟩ := z
    unfold zoneServers
    rcases f with _ | f
    · exact .inr rfl
    rcases ns with _ | ns
    · exact .inr rfl
    dsimp only
    split
    · exact .inr rfl
    · rcases ih with ⟨s, e⟩ | e
      · rw [e]; exact .inl ⟨_, rfl⟩
      · rw [e]; exact .inr rfl

/-- **C58** The sanity check passes exactly on good metadata; on any other it ends the program with a failure. -/
theorem C58_sanity (exists_ : Str → Bool) (m : Meta) :
    (sanityCheck exists_ m = .ok () ↔ ∃ tops zones, GoodMetadata exists_ m tops zones) ∧
    (sanityCheck exists_ m = .ok () ∨ sanityCheck exists_ m = .exit) := by
  obtain ⟨tops, zs⟩ := m
  unfold sanityCheck
  rcases tops with _ | tops
  · refine ⟨⟨fun h => (by cases h), ?_⟩, .inr rfl⟩
    rintro ⟨t, z, h⟩; cases h.top
  rcases zs with _ | zs
  · refine ⟨⟨fun h => (by cases h), ?_⟩, .inr rfl⟩
    rintro ⟨t, z, h⟩; cases h.entries
  dsimp only
  constructor
  · constructor
    · intro h
      obtain ⟨servers, h1, h⟩ := bind_ok_iff.mp h
      obtain ⟨zones, e1, e2, e3⟩ := zoneServers_ok _ _ _ h1
      split at h
      · rename_i ha
        rw [List.any_eq_true] at ha
        obtain ⟨t, ht, hc⟩ := ha
        obtain ⟨t0, ht0, rfl⟩ := List.mem_map.mp ht
        rw [e3, List.contains_iff_mem] at hc
        obtain ⟨z, hz, e⟩ := List.mem_map.mp hc
        exact ⟨tops, zones, rfl, by rw [e1], e2, t0, ht0, z, hz, e.symm⟩
      · cases h
    · rintro ⟨t, zones, h1, h2, h3, t0, ht0, z, hz, e⟩
      cases h1
      simp only [Option.some.injEq] at h2
      rw [h2, zoneServers_of _ _ h3, Res.ok_bind, if_pos]
      rw [List.any_eq_true]
      refine ⟨toLower t0, List.mem_map.mpr ⟨t0, ht0, rfl⟩, ?_⟩
      rw [List.contains_iff_mem, e]
      exact List.mem_map.mpr ⟨z, hz, rfl⟩
  · rcases zoneServers_cases exists_ zs with ⟨s, e⟩ | e
    · rw [e, Res.ok_bind]
      split
      · exact .inl rfl
      · exact .inr rfl
    · rw [e]; exact .inr rfl

example : ∃ tops zones, GoodMetadata (fun _ => true)
    ⟨some ["NS.com.".toList], some [⟨some "a.txt".toList, some "ns.COM.".toList, none⟩]⟩ tops zones :=
  ⟨["NS.com.".toList], [("a.txt".toList, "ns.COM.".toList, none)], rfl, rfl, by simp, "NS.com.".toList, by simp, _, List.mem_singleton.mpr rfl, by decide⟩

/-! ## C59 -/

theorem foldl_commas (ds : List Str) (acc : Str) :
    ds.foldl (fun st d => st ++ ",\n".toList ++ d) acc = acc ++ (ds.map (fun d => ",\n".toList ++ d)).flatten := by
  induction ds generalizing acc with
  | nil => simp
  | cons d ds ih => rw [List.foldl_cons, ih]; simp

theorem intercalate_cons (sep d : Str) (ds : List Str) :
    List.intercalate sep (d :: ds) = d ++ (ds.map (fun x => sep ++ x)).flatten := by
  unfold List.intercalate
  induction ds generalizing d with
  | nil => simp
  | cons e ds ih =>
    rw [List.intersperse_cons_cons, List.flatten_cons, List.flatten_cons, ih]
    simp

/-- **C59** The violations file is a list of its entries, whatever they are. -/
theorem C59_violations_file (dumps : List Str) : violationsFile dumps = listFile dumps := by
  unfold violationsFile listFile
  congr 2
  have : ∀ (ds : List Str) (acc : Str) (n : Nat), n ≠ 0 →
      (ds.foldl (fun (st : Str × Nat) d => ((if st.2 ≠ 0 then st.1 ++ ",\n".toList else st.1) ++ d, st.2 + 1)) (acc, n)).1 =
        ds.foldl (fun st d => st ++ ",\n".toList ++ d) acc := by
    intro ds
    induction ds with
    | nil => intro acc n _; rfl
    | cons d ds ih =>
      intro acc n hn
      rw [List.foldl_cons, List.foldl_cons, ih _ _ (Nat.succ_ne_zero n)]
      simp [hn]
  cases dumps with
  | nil => rfl
  | cons d ds =>
    rw [List.foldl_cons, intercalate_cons, ← foldl_commas]
    exact this ds d 1 (by simp)

theorem lineCount_eq (s : Str) : lineCount s = newlines s + (if s = [] ∨ s.getLast? = some '\n' then 0 else 1) := by
  induction s with
  | nil => rfl
  | cons c cs ih =>
    unfold lineCount
    rcases cs with _ | ⟨d, cs⟩
    · by_cases hc : c = '\n'
      · rw [if_pos hc]; subst hc; rfl
      · rw [if_neg hc]; simp [hc, newlines]
    · have e : (c :: d :: cs).getLast? = (d :: cs).getLast? := by simp [List.getLast?_cons_cons]
      rw [e]
      by_cases hc : c = '\n'
      · rw [if_pos hc, ih]
        subst hc
        simp [newlines]
        omega
      · rw [if_neg hc, if_neg (by simp), ih]
        simp [newlines, hc]

/-- **C59** lint.json is a list of its issues if each issue is written on three lines or more, as JSON objects are. -/
theorem C59_lint_file (dumps : List Str) (hd : ∀ d ∈ dumps, 2 ≤ newlines d ∧ d.getLast? ≠ some '\n') :
    lintFile dumps = listFile dumps := by
  unfold lintFile listFile
  congr 1
  have step : ∀ (ds : List Str) (acc : Str), (∀ d ∈ ds, d ≠ []) → 3 < lineCount acc → (∀ d ∈ ds, d.getLast? ≠ some '\n') →
      ds.foldl writeIssue acc = ds.foldl (fun st d => st ++ ",\n".toList ++ d) acc := by
    intro ds
    induction ds with
    | nil => intros; rfl
    | cons d ds ih =>
      intro acc h0 h1 h2
      have e : writeIssue acc d = acc ++ ",\n".toList ++ d := by unfold writeIssue; rw [if_pos h1]
      rw [List.foldl_cons, List.foldl_cons, e]
      refine ih _ (fun x hx => h0 x (by simp [hx])) ?_ (fun x hx => h2 x (by simp [hx]))
      rw [lineCount_eq] at h1 ⊢
      have hn : newlines (acc ++ ",\n".toList ++ d) = newlines acc + 1 + newlines d := by
        unfold newlines
        rw [List.count_append, List.count_append]
        rfl
      have hl : (acc ++ ",\n".toList ++ d).getLast? ≠ some '\n' := by
        rw [List.getLast?_append_of_ne_nil _ (h0 d (by simp))]
        exact h2 d (by simp)
      rw [if_neg (by rintro (h | h); exact h0 d (by simp) (List.append_eq_nil_iff.mp h).2; exact hl h), hn]
      split at h1 <;> omega
  have hne : ∀ d ∈ dumps, d ≠ [] := by
    intro d h e
    have := (hd d h).1
    rw [e] at this
    simp [newlines] at this
  cases dumps with
  | nil => rfl
  | cons d ds =>
    have e : writeIssue "[\n".toList d = "[\n".toList ++ d := rfl
    rw [List.foldl_cons, e, step ds _ (fun x hx => hne x (by simp [hx])) ?_ (fun x hx => (hd x (by simp [hx])).2), foldl_commas,
      intercalate_cons, List.append_assoc]
    rw [lineCount_eq, if_neg]
    · have := (hd d (by simp)).1
      have hn : newlines ("[\n".toList ++ d) = 1 + newlines d := by
        unfold newlines
        rw [List.count_append]
        rfl
      omega
    · rintro (h | h)
      · cases h
      · rw [List.getLast?_append_of_ne_nil _ (hne d (by simp))] at h
        exact (hd d (by simp)).2 h

/-- **C59** Issues are JSON objects with at least one member, so lint.json is a list of them. -/
theorem C59_lint_objects (issues : List (List Str)) (hi : ∀ i ∈ issues, i ≠ []) :
    lintFile (issues.map objectText) = listFile (issues.map objectText) := by
  apply C59_lint_file
  intro d hd
  obtain ⟨i, hi', rfl⟩ := List.mem_map.mp hd
  unfold objectText
  rw [if_neg (hi i hi')]
  constructor
  · unfold newlines
    rw [List.count_append, List.count_append]
    have : List.count '\n' "{\n".toList = 1 := rfl
    have : List.count '\n' "\n}".toList = 1 := rfl
    omega
  · rw [List.getLast?_append_of_ne_nil _ (by decide)]
    decide

/-- **C59** (why the lines matter) Two issues written on one line each would not be separated. -/
theorem C59_disagreement_one_line : lintFile ["{}".toList, "{}".toList] ≠ listFile ["{}".toList, "{}".toList] := by
  decide +kernel

example : violationsFile ["a".toList, "b".toList] = "[\na,\nb\n]".toList := by decide +kernel

example : lintFile (["{}".toList, "x".toList].map (fun i => objectText [i])) = "[\n{\n    {}\n},\n{\n    x\n}\n]".toList := by decide +kernel

end Groot
