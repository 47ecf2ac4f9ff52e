import Verif.Lemmas.JsonFile

/-!
# C76: the files the program writes
-/

namespace Groot

open Spec Driver

/-- **C76** The JSON object of a violation says what it should, and nothing else. -/
theorem C76_entries (ord : List Str → List Str) (hord : ∀ l, (ord l).Perm l) (v : Violation) (hv : RolesOk v) :
    (leaves (v.toJson ord)).Perm (entries ord v) := toJson_leaves ord hord v hv

/-- **C76** Different violations are different objects. -/
theorem C76_distinct (ord : List Str → List Str) (hord : ∀ l, (ord l).Perm l) (v w : Violation) (hv : RolesOk v) (hw : RolesOk w)
    (h : v.toJson ord = w.toJson ord) : SameReport v w := toJson_inj ord hord v w hv hw h

/-- **C76** Assigning to a member of an object gives it the assigned value and leaves the others alone. -/
theorem C76_assign (k : Str) (v : Json) (m : List (Str × Json)) :
    (Json.mapSet k v m).lookup k = some v ∧ ∀ a, a ≠ k → (Json.mapSet k v m).lookup a = m.lookup a := by
  induction m with
  | nil => 
    refine ⟨by simp [Json.mapSet], fun a ha => ?_⟩
    simp [Json.mapSet, List.lookup_cons, beq_eq_false_iff_ne.mpr ha]
  | cons p m ih =>
    obtain ⟨b, x⟩ := p
    unfold Json.mapSet
    split_ifs with h1 h2
    · refine ⟨by simp, fun a ha => ?_⟩
      rw [List.lookup_cons, beq_eq_false_iff_ne.mpr ha]
    · have hb : k ≠ b := by rintro rfl; exact h1 h2
      refine ⟨by rw [List.lookup_cons, beq_eq_false_iff_ne.mpr hb]; exact ih.1, fun a ha => ?_⟩
      rw [List.lookup_cons, List.lookup_cons, ih.2 a ha]
    · have hb : k = b := by
        rcases StrLt_total k b with h3 | h3 | h3
        · exact absurd ((strLt_iff _ _).mpr h3) h1
        · exact h3
        · exact absurd ((strLt_iff _ _).mpr h3) h2
      subst hb
      refine ⟨by simp, fun a ha => ?_⟩
      rw [List.lookup_cons, List.lookup_cons, beq_eq_false_iff_ne.mpr ha]
/-- An assignment to a member that is already there. -/
example : (Json.mapSet "b".toList (.int 3) [("a".toList, .int 1), ("b".toList, .int 2)]).lookup "b".toList = some (.int 3) :=
  (C76_assign _ _ _).1

/-- **C76** Any JSON value that is dumped is read back as it was. -/
theorem C76_roundtrip (j : Json) : JsonText.parse (Json.dump 0 j) = some j := Json.parse_dump j

/-- **C76** A JSON value can be dumped if and only if its strings are UTF-8, and then so is its text. -/
theorem C76_dump (j : Json) : (AllUtf8 j ↔ Json.dump? j = .ok (Json.dump 0 j)) ∧ (¬ AllUtf8 j ↔ Json.dump? j = .throw) ∧
    ∀ s, Json.dump? j = .ok s → Utf8 s := by
  have h := Json.textOk_iff j
  have e : AllUtf8 j ↔ Json.textOk j = true := h.symm
  unfold Json.dump?
  by_cases hj : Json.textOk j = true
  · rw [if_pos hj]
    refine ⟨⟨fun _ => rfl, fun _ => e.mpr hj⟩, ⟨fun hn => absurd (e.mpr hj) hn, (fun hn => nomatch hn)⟩, ?_⟩
    intro s hs
    injection hs with hs
    rw [← hs]
    exact Json.dump_utf8 j 0 hj
  · rw [if_neg hj]
    exact ⟨⟨fun hn => absurd (e.mp hn) hj, (fun hn => nomatch hn)⟩, ⟨fun _ => rfl, fun _ hn => hj (e.mp hn)⟩, (fun s hs => nomatch hs)⟩

/-- The files of a run, from what it found. -/
def writtenFiles (ord : List Str → List Str) (lint : Bool) (d : Loaded) (glue : List Zone.GlueIssue) (t : Totals) : Files where
  output := (writeViolations ord t.violations).1
  finished := (writeViolations ord t.violations).2
  lint := if lint then some (if (writeViolations ord t.violations).2 then
    ((lintObjects d glue).map (Json.dump 0)).foldl writeIssue "[\n".toList ++ "\n]".toList
    else ((lintObjects d glue).map (Json.dump 0)).foldl writeIssue "[\n".toList) else none

theorem main_ok_of_program {ord : List Str → List Str} {fuel thr : Nat} {lint : Bool} {read : Str → Str} {exists_ : Str → Bool} {m : Meta}
    {jobs : Option (List UJob)} {f : Files} (h : program ord fuel thr lint read exists_ m jobs = .ok f) :
    ∃ d glue t, setContext thr lint read exists_ m = .ok d ∧ (if lint then glueCheck thr d else .ok []) = .ok glue ∧
      (lint = true → (lintObjects d glue).all Json.textOk = true) ∧ main fuel thr lint read exists_ m jobs = .ok t ∧
      f = writtenFiles ord lint d glue t := by
  unfold program at h
  obtain ⟨d, h1, h⟩ := bind_ok_iff.mp h
  dsimp only at h
  have key : ∀ glue, (if (lint && !(lintObjects d glue).all Json.textOk) = true then Res.throw
      else (main fuel thr lint read exists_ m jobs >>= fun t => Res.ok (writtenFiles ord lint d glue t))) = .ok f →
      ∃ t, (lint = true → (lintObjects d glue).all Json.textOk = true) ∧ main fuel thr lint read exists_ m jobs = .ok t ∧
        f = writtenFiles ord lint d glue t := by
    intro glue hh
    by_cases hc : (lint && !(lintObjects d glue).all Json.textOk) = true
    · rw [if_pos hc] at hh; cases hh
    · rw [if_neg hc] at hh
      obtain ⟨t, ht, hf⟩ := bind_ok_iff.mp hh
      injection hf with hf
      refine ⟨t, fun hl => ?_, ht, hf.symm⟩
      by_contra hn
      exact hc (by rw [hl]; simpa using hn)
  by_cases hl : lint = true
  · rw [if_pos hl] at h
    obtain ⟨glue, hg, h⟩ := bind_ok_iff.mp h
    obtain ⟨t, a, b, c⟩ := key glue h
    exact ⟨d, glue, t, h1, by rw [if_pos hl]; exact hg, a, b, c⟩
  · rw [if_neg hl, Res.ok_bind] at h
    obtain ⟨t, a, b, c⟩ := key [] h
    exact ⟨d, [], t, h1, by rw [if_neg hl], a, b, c⟩

theorem before_nodup {l : List Json} (h : l.Pairwise Json.Before) : l.Nodup :=
  h.imp (fun {a b} hb (e : a = b) => Json.Before.irrefl b (by rw [e] at hb; exact hb))

/-- **C76** The output file of a run: if every string reported is UTF-8, the file is a JSON text in UTF-8, an array with one object for every
violation and no other, none twice, each saying what it should; otherwise the file is cut off, and is no JSON text. -/
theorem C76_output (ord : List Str → List Str) (hord : ∀ l, (ord l).Perm l) (fuel thr : Nat) (lint : Bool) (read : Str → Str) (exists_ : Str → Bool)
    (m : Meta) (jobs : Option (List UJob)) (f : Files) (h : program ord fuel thr lint read exists_ m jobs = .ok f) :
    ∃ t, main fuel thr lint read exists_ m jobs = .ok t ∧ (f.finished = true ↔ ∀ v ∈ t.violations, TextEntries (entries ord v)) ∧
      (f.finished = true → Utf8 f.output ∧ ∃ js, JsonText.parse f.output = some (.arr js) ∧ js.Nodup ∧
        (∀ v ∈ t.violations, ∃ j ∈ js, (leaves j).Perm (entries ord v)) ∧ ∀ j ∈ js, ∃ v ∈ t.violations, (leaves j).Perm (entries ord v)) ∧
      (f.finished = false → JsonText.parse f.output = none) := by
  obtain ⟨d, glue, t, -, -, -, h2, rfl⟩ := main_ok_of_program h
  have hr := main_roles h2
  obtain ⟨s1, s2⟩ := violationSet_spec ord t.violations
  have hiff : (∀ j ∈ violationSet ord t.violations, Json.textOk j = true) ↔ ∀ v ∈ t.violations, TextEntries (entries ord v) := by
    constructor
    · intro hh v hv
      exact (Json.textOk_toJson ord hord v (hr v hv)).mp (hh _ ((s2 _).mpr ⟨v, hv, rfl⟩))
    · intro hh j hj
      obtain ⟨v, hv, rfl⟩ := (s2 j).mp hj
      exact (Json.textOk_toJson ord hord v (hr v hv)).mpr (hh v hv)
  refine ⟨t, h2, ?_⟩
  dsimp only [writtenFiles]
  by_cases hc : ∀ j ∈ violationSet ord t.violations, Json.textOk j = true
  · rw [writeViolations_done hc]
    refine ⟨⟨fun _ => hiff.mp hc, fun _ => rfl⟩, fun _ => ⟨?_, ?_⟩, (fun e => nomatch e)⟩
    · refine Json.listFile_utf8 (l := (violationSet ord t.violations).map (Json.dump 0)) (fun s hs => ?_)
      obtain ⟨j, hj, rfl⟩ := List.mem_map.mp hs
      exact Json.dump_utf8 j 0 (hc j hj)
    · refine ⟨_, Json.parse_list _, before_nodup s1, ?_, ?_⟩
      · intro v hv
        exact ⟨_, (s2 _).mpr ⟨v, hv, rfl⟩, C76_entries ord hord v (hr v hv)⟩
      · intro j hj
        obtain ⟨v, hv, rfl⟩ := (s2 j).mp hj
        exact ⟨v, hv, C76_entries ord hord v (hr v hv)⟩
  · obtain ⟨e1, e2⟩ := writeViolations_cut hc
    rw [e1]
    exact ⟨⟨(fun e => nomatch e), fun e => absurd (hiff.mpr e) hc⟩, (fun e => nomatch e), fun _ => e2⟩

/-- **C76** Two violations share an object of the file only if they say the same: so there are as many objects as different violations. -/
theorem C76_count (ord : List Str → List Str) (hord : ∀ l, (ord l).Perm l) (vs : List Violation) (hr : ∀ v ∈ vs, RolesOk v) (hn : vs.Nodup)
    (hd : ∀ v ∈ vs, ∀ w ∈ vs, SameReport v w → v = w) (s : Str) (hs : writeViolations ord vs = (s, true)) :
    ∃ js, JsonText.parse s = some (.arr js) ∧ js.length = vs.length := by
  have hc : ∀ j ∈ violationSet ord vs, Json.textOk j = true := by
    by_contra hc
    have := (writeViolations_cut hc).1
    rw [hs] at this
    cases this
  rw [writeViolations_done hc] at hs
  injection hs with hs
  obtain ⟨s1, s2⟩ := violationSet_spec ord vs
  refine ⟨violationSet ord vs, by rw [← hs]; exact Json.parse_list _, ?_⟩
  have hp : (violationSet ord vs).Perm (vs.map (Violation.toJson ord)) := by
    refine (List.perm_ext_iff_of_nodup (before_nodup s1) ?_).mpr ?_
    · refine List.Nodup.map_on (fun v hv w hw e => hd v hv w hw (C76_distinct ord hord v w (hr v hv) (hr w hw) e)) hn
    · intro j
      rw [s2]
      constructor
      · rintro ⟨v, hv, rfl⟩; exact List.mem_map_of_mem hv
      · intro hj
        obtain ⟨v, hv, rfl⟩ := List.mem_map.mp hj
        exact ⟨v, hv, rfl⟩
  rw [hp.length_eq, List.length_map]

/-- **C76** The bytes of the output file depend only on which violations were found, not on their order or multiplicity. -/
theorem C76_bytes (ord : List Str → List Str) (vs ws : List Violation) (h : ∀ v, v ∈ vs ↔ v ∈ ws) :
    writeViolations ord vs = writeViolations ord ws := by
  obtain ⟨a1, a2⟩ := violationSet_spec ord vs
  obtain ⟨b1, b2⟩ := violationSet_spec ord ws
  have : violationSet ord vs = violationSet ord ws := by
    refine Json.before_ext _ _ a1 b1 (fun j => ?_)
    rw [a2, b2]
    simp only [h]
  unfold writeViolations
  rw [this]

/-- **C76** If the zones have no DNAME records below the domains of the jobs, and no job finds two groups of aliases, the output file is the same,
byte for byte, whatever the threads do. -/
theorem C76_schedule (ord : List Str → List Str) (fuel thr : Nat) (lint : Bool) (read : Str → Str) (exists_ : Str → Bool) (m : Meta) (d : Loaded)
    (hd : setContext thr lint read exists_ m = .ok d) (us : List UJob) (t : Totals) (h : main fuel thr lint read exists_ m (some us) = .ok t)
    (hall : d.ctx.zones.length = d.ctx.counter)
    (hno : ∀ u ∈ us, ∀ p ∈ d.ctx.zones, ∀ r ∈ heldBy p.2, r.type = .DNAME → AtOrBelow r.name (stringToLabels (toLower u.domain)) →
      r.name = stringToLabels (toLower u.domain))
    (hg : ∀ g, .allAliases g ∈ t.violations → g.length ≤ 1)
    (out : List Violation) (ho : Schedules fuel thr d.ctx d.lg {} [] us out) :
    writeViolations ord out = writeViolations ord t.violations := by
  obtain ⟨h1, h2⟩ := C75_every_schedule_no_dname fuel thr lint read exists_ m d hd us t h hall hno out ho
  have perm1 : ∀ (g g' : List (Str × List Str)), g.Perm g' → g'.length ≤ 1 → g = g' := by
    intro g g' hp hl
    match g', hl, hp with
    | [], _, hp => exact hp.eq_nil
    | [x], _, hp => exact List.perm_singleton.mp hp
  refine C76_bytes ord _ _ (fun v => ⟨fun hv => ?_, fun hv => ?_⟩)
  · obtain ⟨v', hv', hs⟩ := h1 v hv
    cases hs with
    | refl => exact hv'
    | groups g g' hp => rw [perm1 g g' hp (hg _ hv')]; exact hv'
  · obtain ⟨v', hv', hs⟩ := h2 v hv
    cases hs with
    | refl => exact hv'
    | groups g g' hp => rw [← perm1 g' g hp.symm (hg _ hv)]; exact hv'

/-- What lint.json should say: the issues of the zone files in the order in which they were found, and then the missing glue records. -/
def lintEntries (d : Loaded) (glue : List Zone.GlueIssue) : List (List (List JStep × Json)) :=
  d.issues.flatMap (fun f => f.2.map (issueEntries f.1)) ++ glue.map glueEntries

theorem lintObjects_says (d : Loaded) (glue : List Zone.GlueIssue) :
    List.Forall₂ (fun e j => (leaves j).Perm e) (lintEntries d glue) (lintObjects d glue) := by
  have mapped : ∀ {α : Type} (f : α → Json) (g : α → List (List JStep × Json)) (hfg : ∀ a, (leaves (f a)).Perm (g a)) (l : List α),
      List.Forall₂ (fun e j => (leaves j).Perm e) (l.map g) (l.map f) := by
    intro α f g hfg l
    induction l with
    | nil => exact .nil
    | cons a l ih => exact .cons (hfg a) ih
  have app : ∀ (a a' : List (List (List JStep × Json))) (b b' : List Json), List.Forall₂ (fun e j => (leaves j).Perm e) a b →
      List.Forall₂ (fun e j => (leaves j).Perm e) a' b' → List.Forall₂ (fun e j => (leaves j).Perm e) (a ++ a') (b ++ b') := by
    intro a a' b b' h h'
    induction h with
    | nil => exact h'
    | cons x _ ih => exact .cons x ih
  unfold lintEntries lintObjects
  refine app _ _ _ _ ?_ (mapped _ _ glueJson_leaves _)
  induction d.issues with
  | nil => exact .nil
  | cons f l ih =>
    rw [List.flatMap_cons, List.flatMap_cons]
    exact app _ _ _ _ (mapped _ _ (issueJson_leaves f.1) _) ih

theorem forall₂_map_right {α β : Type} {R : α → β → Prop} {a : List α} {b : List β} (h : List.Forall₂ R a b) (x : β) (hx : x ∈ b) : ∃ y ∈ a, R y x := by
  induction h with
  | nil => cases hx
  | cons r _ ih =>
    rcases List.mem_cons.mp hx with rfl | hx
    · exact ⟨_, by simp, r⟩
    · obtain ⟨y, hy, hr⟩ := ih hx
      exact ⟨y, by simp [hy], hr⟩

theorem lint_textOk (d : Loaded) (glue : List Zone.GlueIssue) :
    (lintObjects d glue).all Json.textOk = true ↔ ∀ e ∈ lintEntries d glue, TextEntries e := by
  rw [List.all_eq_true]
  unfold lintObjects lintEntries
  constructor
  · intro h e he
    rcases List.mem_append.mp he with he | he
    · obtain ⟨f, hf, he⟩ := List.mem_flatMap.mp he
      obtain ⟨i, hi, rfl⟩ := List.mem_map.mp he
      exact (textOk_of_leaves (issueJson_leaves f.1 i) (keys_issue f.1 i)).mp
        (h _ (List.mem_append_left _ (List.mem_flatMap.mpr ⟨f, hf, List.mem_map_of_mem hi⟩)))
    · obtain ⟨i, hi, rfl⟩ := List.mem_map.mp he
      exact (textOk_of_leaves (glueJson_leaves i) (keys_glue i)).mp (h _ (List.mem_append_right _ (List.mem_map_of_mem hi)))
  · intro h j hj
    rcases List.mem_append.mp hj with he | he
    · obtain ⟨f, hf, he⟩ := List.mem_flatMap.mp he
      obtain ⟨i, hi, rfl⟩ := List.mem_map.mp he
      exact (textOk_of_leaves (issueJson_leaves f.1 i) (keys_issue f.1 i)).mpr
        (h _ (List.mem_append_left _ (List.mem_flatMap.mpr ⟨f, hf, List.mem_map_of_mem hi⟩)))
    · obtain ⟨i, hi, rfl⟩ := List.mem_map.mp he
      exact (textOk_of_leaves (glueJson_leaves i) (keys_glue i)).mpr (h _ (List.mem_append_right _ (List.mem_map_of_mem hi)))

/-- **C76** lint.json after a run that wrote its output to the end: a JSON text in UTF-8, an array of the issues found, in order, each saying
what it should. -/
theorem C76_lint (ord : List Str → List Str) (fuel thr : Nat) (read : Str → Str) (exists_ : Str → Bool)
    (m : Meta) (jobs : Option (List UJob)) (f : Files) (h : program ord fuel thr true read exists_ m jobs = .ok f) (hf : f.finished = true) :
    ∃ d glue s js, setContext thr true read exists_ m = .ok d ∧ glueCheck thr d = .ok glue ∧ f.lint = some s ∧ Utf8 s ∧
      JsonText.parse s = some (.arr js) ∧ List.Forall₂ (fun e j => (leaves j).Perm e) (lintEntries d glue) js := by
  obtain ⟨d, glue, t, h1, h2, h3, h4, rfl⟩ := main_ok_of_program h
  dsimp only [writtenFiles] at hf
  refine ⟨d, glue, listFile ((lintObjects d glue).map (Json.dump 0)), lintObjects d glue, h1, h2, ?_, ?_, ?_, lintObjects_says d glue⟩
  · dsimp only [writtenFiles]
    rw [if_pos rfl, hf, if_pos rfl]
    congr 1
    exact C59_lint_file _ (lintObjects_lines d glue)
  · refine Json.listFile_utf8 (fun s hs => ?_)
    obtain ⟨j, hj, rfl⟩ := List.mem_map.mp hs
    exact Json.dump_utf8 j 0 (List.all_eq_true.mp (h3 rfl) j hj)
  · exact Json.parse_list _

/-- **C76** Without linting, no lint.json is written, and the files are written whenever the run gets to its end. -/
theorem C76_no_lint (ord : List Str → List Str) (fuel thr : Nat) (read : Str → Str) (exists_ : Str → Bool) (m : Meta) (jobs : Option (List UJob)) :
    (∀ f, program ord fuel thr false read exists_ m jobs = .ok f → f.lint = none) ∧
    ((∃ f, program ord fuel thr false read exists_ m jobs = .ok f) ↔ ∃ t, main fuel thr false read exists_ m jobs = .ok t) := by
  constructor
  · intro f h
    obtain ⟨d, glue, t, -, -, -, -, rfl⟩ := main_ok_of_program h
    rfl
  · constructor
    · rintro ⟨f, h⟩
      obtain ⟨d, glue, t, -, -, -, h4, -⟩ := main_ok_of_program h
      exact ⟨t, h4⟩
    · rintro ⟨t, h⟩
      have h' := h
      rw [main_eq] at h'
      obtain ⟨d, h1, -⟩ := bind_ok_iff.mp h'
      unfold program
      rw [h1, Res.ok_bind]
      dsimp only
      rw [if_neg (by simp), Res.ok_bind, if_neg (by simp), h]
      exact ⟨_, rfl⟩

/-- **C76** With linting, the run gets to the end if it does so without and every string of the issues is UTF-8; if one is not, the run is
aborted with an exception, and no output file is written. -/
theorem C76_lint_aborts (ord : List Str → List Str) (fuel thr : Nat) (read : Str → Str) (exists_ : Str → Bool) (m : Meta) (jobs : Option (List UJob))
    (d : Loaded) (h : setContext thr true read exists_ m = .ok d) (glue : List Zone.GlueIssue) (hg : glueCheck thr d = .ok glue) :
    ((∃ f, program ord fuel thr true read exists_ m jobs = .ok f) ↔
      (∀ e ∈ lintEntries d glue, TextEntries e) ∧ ∃ t, main fuel thr true read exists_ m jobs = .ok t) ∧
    ((¬ ∀ e ∈ lintEntries d glue, TextEntries e) → program ord fuel thr true read exists_ m jobs = .throw) := by
  rw [← lint_textOk]
  unfold program
  rw [h, Res.ok_bind]
  dsimp only
  rw [if_pos rfl, hg, Res.ok_bind]
  by_cases hc : (lintObjects d glue).all Json.textOk = true
  · rw [hc]
    simp only [Bool.not_true, Bool.and_false, Bool.false_eq_true, if_false, true_and, not_true_eq_false, false_implies, and_true]
    constructor
    · rintro ⟨f, hf⟩
      obtain ⟨t, ht, -⟩ := bind_ok_iff.mp hf
      exact ⟨t, ht⟩
    · rintro ⟨t, ht⟩
      rw [ht]
      exact ⟨_, rfl⟩
  · have hc' : (lintObjects d glue).all Json.textOk = false := by simpa using hc
    rw [hc']
    simp

/-! ### Runs -/

theorem files_of_check {r : Res Files} {P : Files → Prop} [∀ f, Decidable (P f)] (h : (match r with | .ok f => decide (P f) | _ => false) = true) :
    ∃ f, r = .ok f ∧ P f := by
  cases r with
  | ok f => exact ⟨f, rfl, of_decide_eq_true h⟩
  | _ => cases h

/-- A run that writes both files to the end: nine violations and two issues. -/
theorem two_files : ∃ f, program id 300 500 true twoContents (fun _ => true) twoFiles (some twoJobs) = .ok f ∧ f.finished = true ∧
    (JsonText.parse f.output).map (fun j => match j with | .arr l => l.length | _ => 0) = some 9 ∧
    f.lint.map (fun s => (JsonText.parse s).map (fun j => match j with | .arr l => l.length | _ => 0)) = some (some 2) :=
  files_of_check (by decide +kernel)

example : ∃ t, main 300 500 true twoContents (fun _ => true) twoFiles (some twoJobs) = .ok t ∧
    ∀ g, .allAliases g ∈ t.violations → g.length ≤ 1 := by
  obtain ⟨t, h, -⟩ := two_run
  have key : ∀ r : Res Totals, (match r with
      | .ok t => t.violations.all (fun v => match v with | .allAliases g => decide (g.length ≤ 1) | _ => true)
      | _ => false) = true → ∀ t, r = .ok t → ∀ g, .allAliases g ∈ t.violations → g.length ≤ 1 := by
    intro r hr t ht g hg
    rw [ht] at hr
    simpa using List.all_eq_true.mp hr _ hg
  exact ⟨t, h, key _ (by decide +kernel) t h⟩

/-- The object of a violation. -/
example : (Violation.toJson id (.hops "a.".toList 2 1)) = .obj [("Property".toList, .str "Hops".toList), ("Query".toList, .str "a.".toList),
    ("Violation".toList, .obj [("ActualHops".toList, .int 2), ("MaxAllowedHops".toList, .int 1)])] := rfl

example : RolesOk (.structural "a.".toList [⟨"parent".toList, "child".toList, "s.".toList, "t.".toList, ([], ["x".toList], []), none⟩]) := by
  intro p hp
  rw [List.mem_singleton.mp hp]
  decide

/-- Two pairs that say the same and have the same object: no glue was compared, or none was found. -/
example : SameReport (.structural "a.".toList [⟨"parent".toList, "child".toList, "s.".toList, "t.".toList, ([], ["x".toList], []), none⟩])
    (.structural "a.".toList [⟨"parent".toList, "child".toList, "s.".toList, "t.".toList, ([], ["x".toList], []), some ([], [], [])⟩]) :=
  .pairs _ _ _ (.cons ⟨rfl, rfl, rfl, rfl, rfl, rfl⟩ .nil)

/-- A zone file with a byte that is not UTF-8, in a record given twice. -/
def latinContents (f : Str) : Str :=
  if f = "f1".toList then "com. SOA x\ncom. TXT ".toList ++ [Char.ofNat 255] ++ "\ncom. TXT ".toList ++ [Char.ofNat 255] ++ "\n".toList
  else "@ SOA x\nwww A 2.2.2.2\n".toList

/-- **C76** (disagreement) Asking for lint messages should not change the report.  If an issue has a byte that is not UTF-8, the run is aborted
with an exception and there is no output file; without linting the same run finishes. -/
theorem C76_disagreement_lint :
    program id 300 500 true latinContents (fun _ => true) twoFiles (some twoJobs) = .throw ∧
    ∃ f, program id 300 500 false latinContents (fun _ => true) twoFiles (some twoJobs) = .ok f ∧ f.finished = true := by
  refine ⟨?_, files_of_check (by decide +kernel)⟩
  have h : ∀ r : Res Files, (match r with | .throw => true | _ => false) = true → r = .throw := by
    intro r hr
    cases r with
    | throw => rfl
    | _ => cases hr
  exact h _ (by decide +kernel)

/-- An alias to a name with a byte that is not UTF-8. -/
def latinTarget (f : Str) : Str :=
  if f = "f1".toList then "com. SOA x\na.com. CNAME ".toList ++ [Char.ofNat 255] ++ ".sub.com.\nsub.com. NS ns.sub.com.\nns.sub.com. A 1.1.1.1\n".toList
  else "@ SOA x\nwww A 2.2.2.2\n".toList

/-- **C76** (disagreement) Every violation should be in the output file.  Here two are found, `a.com.` being rewritten and rewritten to a place
it should not; the first to be written has a byte that is not UTF-8, so none is, and the file ends after the opening bracket. -/
theorem C76_disagreement_output :
    (∃ t, main 300 500 false latinTarget (fun _ => true) twoFiles (some [⟨"a.com".toList, false,
        [⟨"Rewrites".toList, none, .int 0⟩, ⟨"QueryRewrite".toList, none, .strs ["org".toList]⟩]⟩]) = .ok t ∧
      .rewrites "a.com.".toList 1 0 ∈ t.violations) ∧
    ∃ f, program id 300 500 false latinTarget (fun _ => true) twoFiles (some [⟨"a.com".toList, false,
        [⟨"Rewrites".toList, none, .int 0⟩, ⟨"QueryRewrite".toList, none, .strs ["org".toList]⟩]⟩]) = .ok f ∧
      f.finished = false ∧ f.output = "[\n".toList := by
  refine ⟨?_, files_of_check (by decide +kernel)⟩
  have h : ∀ r : Res Totals, (match r with | .ok t => decide (.rewrites "a.com.".toList 1 0 ∈ t.violations) | _ => false) = true →
      ∃ t, r = .ok t ∧ .rewrites "a.com.".toList 1 0 ∈ t.violations := by
    intro r hr
    cases r with
    | ok t => exact ⟨t, rfl, of_decide_eq_true hr⟩
    | _ => cases hr
  exact h _ (by decide +kernel)

end Groot
