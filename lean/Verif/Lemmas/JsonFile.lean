import Verif.Lemmas.JsonWrite
import Verif.Lemmas.CleanRun
import Verif.Props.Main

/-!
# The output file and lint.json
-/

namespace Groot

open Spec Spec.JsonText

namespace Json

theorem intercalate_dump : ∀ (xs : List Json) (x : Json), List.intercalate ",\n".toList ((x :: xs).map (dump 0)) = dump 0 x ++ dumpRest 0 xs
  | [], x => by simp [List.intercalate, dumpRest]
  | y :: ys, x => by
    have : List.intercalate ",\n".toList ((x :: y :: ys).map (dump 0)) =
        dump 0 x ++ (",\n".toList ++ List.intercalate ",\n".toList ((y :: ys).map (dump 0))) := by
      simp [List.intercalate, List.intersperse]
    rw [this, intercalate_dump ys y]
    simp only [dumpRest, spaces, List.replicate_zero, List.append_assoc, List.nil_append]

theorem readElements_none {n : Nat} {s : Str} {x : Json} {s' s2 : Str} (h : readValue n (skip s) = some (x, s'))
    (h2 : skip s' = ',' :: s2) (h3 : readElements n s2 = none) : readElements (n + 1) s = none := by
  rw [readElements, h]
  simp only [Option.bind_eq_bind, Option.bind_some, h2, h3, Option.map_none]

theorem readValue_nil (n : Nat) : readValue n [] = none := by
  cases n with
  | zero => rfl
  | succ n => rfl

theorem readElements_end (n : Nat) : readElements n ['\n'] = none := by
  cases n with
  | zero => rfl
  | succ n =>
    have : skip ['\n'] = [] := rfl
    rw [readElements, this, readValue_nil]
    rfl

theorem readElements_cut : ∀ (x : Json) (xs : List Json) (n : Nat) (s0 : Str), weightArr (x :: xs) ≤ n → (∀ s, skip (s0 ++ s) = skip s) →
    readElements n (s0 ++ (dump 0 x ++ (dumpRest 0 xs ++ ",\n".toList))) = none
  | x, xs, 0, _, h, _ => by simp only [weightArr] at h; omega
  | x, [], n + 1, s0, h, h0 => by
    simp only [weightArr] at h
    refine readElements_none (x := x) (s' := ",\n".toList) (s2 := ['\n']) ?_ rfl (readElements_end n)
    rw [h0, skip_dump]
    simp only [dumpRest, List.nil_append]
    exact readValue_dump x n 0 _ (by omega) (stops_cons (by decide) _)
  | x, y :: ys, n + 1, s0, h, h0 => by
    simp only [weightArr] at h
    have ih := readElements_cut y ys n ('\n' :: spaces 0) (by simp only [weightArr]; omega)
      (fun s => by rw [List.cons_append, skip_ws (by decide), skip_spaces])
    refine readElements_none (x := x) (s' := dumpRest 0 (y :: ys) ++ ",\n".toList) ?_ ?_ ih
    · rw [h0, skip_dump]
      exact readValue_dump x n 0 _ (by omega) (stops_rest _ _ (stops_cons (by decide) _))
    · simp only [dumpRest, lit6, List.append_assoc, List.cons_append, List.nil_append]
      exact skip_not (by decide) _

/-- A file that was not written to the end cannot be read. -/
theorem parse_cut (js : List Json) :
    parse ("[\n".toList ++ List.intercalate ",\n".toList (js.map (dump 0)) ++ (if js = [] then [] else ",\n".toList)) = none := by
  cases js with
  | nil => decide +kernel
  | cons x xs =>
    rw [intercalate_dump, if_neg (by simp)]
    have hh := readElements_cut x xs ("[\n".toList ++ (dump 0 x ++ dumpRest 0 xs) ++ ",\n".toList).length []
      (by
        have h1 := weight_le x 0
        have h2 := weightArr_le xs 0
        simp only [weightArr, List.length_append]
        have e1 : "[\n".toList.length = 2 := rfl
        omega) (fun s => rfl)
    unfold parse
    obtain ⟨c, t, hd, hw, hc, -⟩ := dump_head 0 x
    have hsk : skip ("[\n".toList ++ (dump 0 x ++ dumpRest 0 xs) ++ ",\n".toList) = '[' :: '\n' :: (dump 0 x ++ (dumpRest 0 xs ++ ",\n".toList)) := by
      simp only [List.append_assoc]
      exact skip_not (by decide) _
    rw [hsk]
    rw [List.nil_append] at hh
    generalize ("[\n".toList ++ (dump 0 x ++ dumpRest 0 xs) ++ ",\n".toList).length = n at hh ⊢
    rw [hd, List.cons_append] at hh ⊢
    have : readValue (n + 1) ('[' :: '\n' :: c :: (t ++ (dumpRest 0 xs ++ ",\n".toList))) = none := by
      have hs : skip ('\n' :: c :: (t ++ (dumpRest 0 xs ++ ",\n".toList))) = c :: (t ++ (dumpRest 0 xs ++ ",\n".toList)) := by
        rw [skip_ws (by decide), skip_not hw]
      rw [readValue, hs]
      split
      · rename_i hx; injection hx with hx; exact absurd hx hc
      · rw [hh]; rfl
    rw [this]

theorem dump_obj (k : Str) (x : Json) (m : List (Str × Json)) :
    ∃ t, dump 0 (.obj ((k, x) :: m)) = "{\n".toList ++ t ++ "\n}".toList := by
  refine ⟨spaces (0 + 4) ++ quoted k ++ ": ".toList ++ dump (0 + 4) x ++ dumpMembers (0 + 4) m, ?_⟩
  rw [dump]
  have : "\n".toList ++ spaces 0 ++ "}".toList = "\n}".toList := rfl
  simp only [List.append_assoc] at this ⊢
  rw [this]

end Json

namespace Driver

open Json

theorem writeViolations_done {ord : List Str → List Str} {vs : List Violation} (h : ∀ j ∈ violationSet ord vs, textOk j = true) :
    writeViolations ord vs = ("[\n".toList ++ List.intercalate ",\n".toList ((violationSet ord vs).map (dump 0)) ++ "\n]".toList, true) := by
  unfold writeViolations
  rw [writeLoop_done _ h]
  rfl

theorem first_bad : ∀ (js : List Json), (¬ ∀ j ∈ js, textOk j = true) →
    ∃ pre j rest, js = pre ++ j :: rest ∧ (∀ x ∈ pre, textOk x = true) ∧ textOk j = false
  | [], h => absurd (by simp) h
  | x :: xs, h => by
    by_cases hx : textOk x = true
    · obtain ⟨pre, k, rest, e1, e2, e3⟩ := first_bad xs (fun h' => h (by simpa [hx] using h'))
      exact ⟨x :: pre, k, rest, by rw [e1]; rfl, by simpa [hx] using e2, e3⟩
    · exact ⟨[], x, xs, rfl, by simp, by simpa using hx⟩

theorem writeViolations_cut {ord : List Str → List Str} {vs : List Violation} (h : ¬ ∀ j ∈ violationSet ord vs, textOk j = true) :
    (writeViolations ord vs).2 = false ∧ parse (writeViolations ord vs).1 = none := by
  obtain ⟨pre, j, rest, e1, e2, e3⟩ := first_bad _ h
  unfold writeViolations
  rw [e1, writeLoop_stops pre rest e2 j e3]
  exact ⟨rfl, parse_cut pre⟩

theorem issue_fields (file : Str) (i : Parser.Issue) : ∃ l : List (Str × Json), issueJson file i = assigned l ∧ l ≠ [] ∧ (l.map Prod.fst).Nodup ∧
    (l.flatMap (fun p => (leaves p.2).map (fun q => (JStep.key p.1 :: q.1, q.2)))).Perm (issueEntries file i) := by
  by_cases h : i.previous = []
  · refine ⟨[("File Name".toList, .str file), ("Line Number".toList, .int i.line), ("Current Record".toList, .str i.current),
      ("Violation".toList, .str i.violation)], ?_, List.cons_ne_nil _ _, ?_, ?_⟩
    · unfold issueJson
      rw [h, if_neg (fun h => h rfl)]
      rfl
    · show ["File Name".toList, "Line Number".toList, "Current Record".toList, "Violation".toList].Nodup
      decide +kernel
    · unfold issueEntries
      rw [if_pos h]
      show List.Perm [field "File Name" file, ([.key "Line Number".toList], Json.int i.line), field "Current Record" i.current, field "Violation" i.violation]
        [field "Current Record" i.current, field "File Name" file, ([.key "Line Number".toList], Json.int i.line), field "Violation" i.violation]
      exact (List.Perm.cons _ (.swap _ _ _)).trans (.swap _ _ _)
  · refine ⟨[("File Name".toList, .str file), ("Line Number".toList, .int i.line), ("Current Record".toList, .str i.current),
      ("Violation".toList, .str i.violation), ("Previous Record".toList, .str i.previous)], ?_, List.cons_ne_nil _ _, ?_, ?_⟩
    · unfold issueJson
      rw [if_pos (fun e => h (List.length_eq_zero_iff.mp e))]
      rfl
    · show ["File Name".toList, "Line Number".toList, "Current Record".toList, "Violation".toList, "Previous Record".toList].Nodup
      decide +kernel
    · unfold issueEntries
      rw [if_neg h]
      show List.Perm [field "File Name" file, ([.key "Line Number".toList], Json.int i.line), field "Current Record" i.current, field "Violation" i.violation,
          field "Previous Record" i.previous]
        [field "Current Record" i.current, field "File Name" file, ([.key "Line Number".toList], Json.int i.line), field "Previous Record" i.previous, field "Violation" i.violation]
      exact ((List.Perm.cons _ (.swap _ _ _)).trans (.swap _ _ _)).trans (.cons _ (.cons _ (.cons _ (.swap _ _ _))))

theorem glue_fields (i : Zone.GlueIssue) : ∃ l : List (Str × Json), glueJson i = assigned l ∧ l ≠ [] ∧ (l.map Prod.fst).Nodup ∧
    (l.flatMap (fun p => (leaves p.2).map (fun q => (JStep.key p.1 :: q.1, q.2)))).Perm (glueEntries i) := by
  refine ⟨_, rfl, List.cons_ne_nil _ _, ?_, ?_⟩
  · show ["Server".toList, "Zone".toList, "Violation".toList, "Resource Record".toList].Nodup
    decide +kernel
  · show List.Perm [field "Server" i.server, field "Zone" i.zone, field "Violation" "Missing Glue Record".toList, field "Resource Record" i.record]
      [field "Resource Record" i.record, field "Server" i.server, field "Violation" "Missing Glue Record".toList, field "Zone" i.zone]
    have perm4 : ∀ a b c d : List JStep × Json, List.Perm [a, b, c, d] [d, a, c, b] := fun a b c d => by
      have h1 : List.Perm [b, c, d] [d, c, b] := (List.reverse_perm [b, c, d]).symm
      exact (List.Perm.cons a h1).trans (.swap _ _ _)
    exact perm4 _ _ _ _

theorem issueJson_leaves (file : Str) (i : Parser.Issue) : (leaves (issueJson file i)).Perm (issueEntries file i) := by
  obtain ⟨l, e, h1, h2, h3⟩ := issue_fields file i
  rw [e]
  exact (leaves_assigned l h1 h2).trans h3

theorem glueJson_leaves (i : Zone.GlueIssue) : (leaves (glueJson i)).Perm (glueEntries i) := by
  obtain ⟨l, e, h1, h2, h3⟩ := glue_fields i
  rw [e]
  exact (leaves_assigned l h1 h2).trans h3

/-- Dumped objects take three lines or more. -/
theorem assigned_lines {l : List (Str × Json)} (h1 : l ≠ []) (h2 : (l.map Prod.fst).Nodup) :
    2 ≤ newlines (dump 0 (assigned l)) ∧ (dump 0 (assigned l)).getLast? ≠ some '\n' := by
  obtain ⟨m, e1, e2, -⟩ := assigned_spec l h1 h2
  cases m with
  | nil => exact absurd e2.nil_eq.symm h1
  | cons p m =>
    obtain ⟨t, ht⟩ := dump_obj p.1 p.2 m
    rw [e1, ht]
    constructor
    · unfold newlines
      rw [List.count_append, List.count_append]
      have : List.count '\n' "{\n".toList = 1 := rfl
      have : List.count '\n' "\n}".toList = 1 := rfl
      omega
    · rw [List.getLast?_append_of_ne_nil _ (by decide)]
      decide

theorem lintObjects_lines (d : Loaded) (glue : List Zone.GlueIssue) : ∀ s ∈ (lintObjects d glue).map (dump 0), 2 ≤ newlines s ∧ s.getLast? ≠ some '\n' := by
  intro s hs
  obtain ⟨j, hj, rfl⟩ := List.mem_map.mp hs
  unfold lintObjects at hj
  rcases List.mem_append.mp hj with h | h
  · obtain ⟨f, -, h⟩ := List.mem_flatMap.mp h
    obtain ⟨i, -, rfl⟩ := List.mem_map.mp h
    obtain ⟨l, e, h1, h2, -⟩ := issue_fields f.1 i
    rw [e]
    exact assigned_lines h1 h2
  · obtain ⟨i, -, rfl⟩ := List.mem_map.mp h
    obtain ⟨l, e, h1, h2, -⟩ := glue_fields i
    rw [e]
    exact assigned_lines h1 h2

/-- Keys of the entries of issues. -/
theorem keys_issue (file : Str) (i : Parser.Issue) : Keys (issueEntries file i) := by
  unfold issueEntries
  refine .append (.append (.cons (keys_field (by decide)) (.cons (keys_field (by decide)) (.cons (keys_field (k := "Line Number") (s := []) (by decide)) .nil))) ?_)
    (.cons (keys_field (by decide)) .nil)
  split_ifs
  · exact .nil
  · exact .cons (keys_field (by decide)) .nil

theorem keys_glue (i : Zone.GlueIssue) : Keys (glueEntries i) :=
  .cons (keys_field (by decide)) (.cons (keys_field (by decide)) (.cons (keys_field (by decide)) (.cons (keys_field (by decide)) .nil)))

theorem textOk_of_leaves {j : Json} {l : List (List JStep × Json)} (h : (leaves j).Perm l) (hk : Keys l) : textOk j = true ↔ TextEntries l := by
  rw [textOk_iff]
  constructor
  · intro h' p hp
    exact (h' p (h.mem_iff.mpr hp)).2
  · intro h' p hp
    have := h.mem_iff.mp hp
    exact ⟨fun k hk' => Spec.Utf8.ascii (hk p this k hk'), h' p this⟩

end Driver

end Groot
