import Verif.Lemmas.CharsText
import Verif.Props.Json

/-!
# C77: what the output files say comes from the input
-/

namespace Groot

open Spec Driver

/-- The character occurs in a string of the input. -/
def InInput (read : Str → Str) (m : Meta) (jobs : Option (List UJob)) (c : Char) : Prop := ∃ s, OfInput read m jobs s ∧ c ∈ s

/-- Every property of strings that is a kind of text and holds of the input holds of the output. -/
theorem main_entries {K : Str → Prop} (hk : TextLike K) {ord : List Str → List Str} (hord : ∀ l, (ord l).Perm l) {fuel thr : Nat} {lint : Bool} {read : Str → Str}
    {exists_ : Str → Bool} {m : Meta} {jobs : Option (List UJob)} {t : Totals} (hin : ∀ s, OfInput read m jobs s → K s)
    (h : main fuel thr lint read exists_ m jobs = .ok t) : ∀ v ∈ t.violations, StrEntries K (entries ord v) :=
  fun v hv => entries_has hk hord (main_has hk hin h v hv)

theorem lint_entries {K : Str → Prop} (hk : TextLike K) {thr : Nat} {lint : Bool} {read : Str → Str}
    {exists_ : Str → Bool} {m : Meta} {jobs : Option (List UJob)} {d : Loaded} {glue : List Zone.GlueIssue} (hin : ∀ s, OfInput read m jobs s → K s)
    (h : setContext thr lint read exists_ m = .ok d) (hg : glueCheck thr d = .ok glue) : ∀ e ∈ lintEntries d glue, StrEntries K e := by
  have hd := setContext_has hk thr lint read exists_ m (fun s hs => hin s (by
    rcases hs with hs | hs | ⟨us, hs, -⟩
    · exact .inl hs
    · exact .inr (.inl hs)
    · cases hs)) d h
  have hgl := glueCheck_has hk thr hd glue hg
  intro e he
  rcases List.mem_append.mp he with he | he
  · obtain ⟨f, hf, he⟩ := List.mem_flatMap.mp he
    obtain ⟨i, hi, rfl⟩ := List.mem_map.mp he
    exact issueEntries_has (hd.2.2 f hf).1 ((hd.2.2 f hf).2 i hi)
  · obtain ⟨i, hi, rfl⟩ := List.mem_map.mp he
    exact glueEntries_has hk (hgl i hi)

/-- **C77** Every character of every string in the output file and in lint.json is ASCII or occurs in the input. -/
theorem C77_characters (ord : List Str → List Str) (hord : ∀ l, (ord l).Perm l) (fuel thr : Nat) (lint : Bool) (read : Str → Str) (exists_ : Str → Bool)
    (m : Meta) (jobs : Option (List UJob)) :
    (∀ t, main fuel thr lint read exists_ m jobs = .ok t → ∀ v ∈ t.violations, ∀ p ∈ entries ord v, ∀ s, p.2 = .str s →
      ∀ c ∈ s, c.toNat < 128 ∨ InInput read m jobs c) ∧
    ∀ d glue, setContext thr lint read exists_ m = .ok d → glueCheck thr d = .ok glue → ∀ e ∈ lintEntries d glue, ∀ p ∈ e, ∀ s, p.2 = .str s →
      ∀ c ∈ s, c.toNat < 128 ∨ InInput read m jobs c := by
  have hin : ∀ s, OfInput read m jobs s → ∀ c ∈ s, c.toNat < 128 ∨ InInput read m jobs c := fun s hs c hc => .inr ⟨s, hs, hc⟩
  exact ⟨fun t h => main_entries (textLike_chars _) hord hin h, fun d glue h hg => lint_entries (textLike_chars _) hin h hg⟩

/-- **C77** If all strings of the input are UTF-8, the output file is complete, a JSON text in UTF-8 with one object for every violation. -/
theorem C77_utf8_output (ord : List Str → List Str) (hord : ∀ l, (ord l).Perm l) (fuel thr : Nat) (lint : Bool) (read : Str → Str) (exists_ : Str → Bool)
    (m : Meta) (jobs : Option (List UJob)) (hin : ∀ s, OfInput read m jobs s → Utf8 s) (f : Files)
    (h : program ord fuel thr lint read exists_ m jobs = .ok f) :
    f.finished = true ∧ Utf8 f.output ∧ ∃ t js, main fuel thr lint read exists_ m jobs = .ok t ∧ JsonText.parse f.output = some (.arr js) ∧ js.Nodup ∧
      (∀ v ∈ t.violations, ∃ j ∈ js, (leaves j).Perm (entries ord v)) ∧ ∀ j ∈ js, ∃ v ∈ t.violations, (leaves j).Perm (entries ord v) := by
  obtain ⟨t, ht, h1, h2, -⟩ := C76_output ord hord fuel thr lint read exists_ m jobs f h
  have hf := h1.mpr (main_entries textLike_utf8 hord hin ht)
  obtain ⟨h3, js, h4⟩ := h2 hf
  exact ⟨hf, h3, t, js, ht, h4⟩

/-- **C77** If all strings of the input are UTF-8, asking for lint messages does not abort the run: the files are written whenever the run gets
to its end. -/
theorem C77_utf8_lint (ord : List Str → List Str) (fuel thr : Nat) (lint : Bool) (read : Str → Str) (exists_ : Str → Bool)
    (m : Meta) (jobs : Option (List UJob)) (hin : ∀ s, OfInput read m jobs s → Utf8 s) :
    (∃ f, program ord fuel thr lint read exists_ m jobs = .ok f) ↔ ∃ t, main fuel thr lint read exists_ m jobs = .ok t := by
  cases lint with
  | false => exact (C76_no_lint ord fuel thr read exists_ m jobs).2
  | true =>
    constructor
    · rintro ⟨f, h⟩
      obtain ⟨d, glue, t, h1, h2, -, h4, -⟩ := main_ok_of_program h
      exact ⟨t, h4⟩
    · rintro ⟨t, ht⟩
      have h' := ht
      unfold main at h'
      obtain ⟨d, h1, h'⟩ := bind_ok_iff.mp h'
      dsimp only at h'
      rw [if_pos rfl] at h'
      obtain ⟨glue, hg, -⟩ := bind_ok_iff.mp h'
      exact (C76_lint_aborts ord fuel thr read exists_ m jobs d h1 glue hg).1.mpr ⟨lint_entries textLike_utf8 hin h1 hg, t, ht⟩

/-! ### Runs -/

/-- The strings of the input, as a list. -/
def inputStrings (read : Str → Str) (m : Meta) (jobs : Option (List UJob)) : List Str :=
  m.topNameServers.getD [] ++
  (m.zoneFiles.getD []).flatMap (fun z => z.nameServer.toList ++ z.origin.toList ++ z.fileName.toList ++ z.fileName.toList.map read) ++
  (jobs.getD []).flatMap (fun u => u.domain :: u.properties.flatMap (fun p => match p.value with | .strs l => l | _ => []))

theorem ofInput_mem {read : Str → Str} {m : Meta} {jobs : Option (List UJob)} {s : Str} (h : OfInput read m jobs s) : s ∈ inputStrings read m jobs := by
  unfold inputStrings
  rcases h with ⟨l, h, hs⟩ | ⟨zs, h, z, hz, hs⟩ | ⟨us, h, u, hu, hs⟩
  · rw [h]
    exact List.mem_append_left _ (List.mem_append_left _ hs)
  · rw [h]
    refine List.mem_append_left _ (List.mem_append_right _ (List.mem_flatMap.mpr ⟨z, hz, ?_⟩))
    rcases hs with hs | hs | ⟨f, hf, rfl | rfl⟩
    · simp [hs]
    · simp [hs]
    · simp [hf]
    · simp [hf]
  · rw [h]
    refine List.mem_append_right _ (List.mem_flatMap.mpr ⟨u, hu, ?_⟩)
    rcases hs with rfl | ⟨p, hp, l, hl, hs⟩
    · simp
    · refine List.mem_cons_of_mem _ (List.mem_flatMap.mpr ⟨p, hp, ?_⟩)
      rw [hl]
      exact hs

/-- A record given twice, an alias, and an é in two bytes. -/
def accentContents (f : Str) : Str :=
  if f = "f1".toList then "com. SOA x\na.com. CNAME ".toList ++ [Char.ofNat 195, Char.ofNat 169] ++ ".sub.com.\ncom. TXT ".toList ++
    [Char.ofNat 195, Char.ofNat 169] ++ "\ncom. TXT ".toList ++ [Char.ofNat 195, Char.ofNat 169] ++ "\nsub.com. NS ns.sub.com.\nns.sub.com. A 1.1.1.1\n".toList
  else "@ SOA x\nwww A 2.2.2.2\n".toList

/-- A job on the alias. -/
def accentJobs : List UJob := [⟨"a.com".toList, false, [⟨"Rewrites".toList, none, .int 0⟩, ⟨"QueryRewrite".toList, none, .strs ["org".toList]⟩]⟩]

theorem accent_utf8 : ∀ s, OfInput accentContents twoFiles (some accentJobs) s → Utf8 s := by
  intro s hs
  have h : (inputStrings accentContents twoFiles (some accentJobs)).all Json.utf8Ok = true := by decide +kernel
  exact (Json.utf8Ok_iff s).mp (List.all_eq_true.mp h s (ofInput_mem hs))

/-- Input in UTF-8 that is not ASCII, and a run of it that reports a name with the é. -/
example : (∀ s, OfInput accentContents twoFiles (some accentJobs) s → Utf8 s) ∧
    ∃ f, program id 300 500 true accentContents (fun _ => true) twoFiles (some accentJobs) = .ok f ∧ f.output.any (fun c => 128 ≤ c.toNat) = true ∧
      (JsonText.parse f.output).map (fun j => match j with | .arr l => l.length | _ => 0) = some 2 ∧
      f.lint.map (fun s => (JsonText.parse s).map (fun j => match j with | .arr l => l.length | _ => 0)) = some (some 1) :=
  ⟨accent_utf8, files_of_check (by decide +kernel)⟩

/-- The é of the report is in the input. -/
example : InInput accentContents twoFiles (some accentJobs) (Char.ofNat 195) :=
  ⟨accentContents "f1".toList, .inr (.inl ⟨_, rfl, ⟨some "f1".toList, some "S.".toList, none⟩, by simp, .inr (.inr ⟨_, rfl, .inr rfl⟩)⟩), by decide +kernel⟩

end Groot
