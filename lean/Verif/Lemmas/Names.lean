import Verif.Spec.Names
import Mathlib.Data.List.Induction
import Mathlib.Logic.Basic

namespace Groot
open Spec

/-! ### `stringToLabels` / `labelsToString` -/

theorem dotsEscaped_prefix {p : Label} {c : Char} (h : DotsEscaped (p ++ [c])) : DotsEscaped p := by
  intro q s hq hne
  exact h q (s ++ [c]) (by simp [hq]) hne

theorem scan_label (ts : List Str) (l : Label) (h : DotsEscaped l) :
    l.foldl scanStep (ts, []) = (ts, l) := by
  induction l using List.reverseRecOn with
  | nil => rfl
  | append_singleton p c ih =>
    rw [List.foldl_append, ih (dotsEscaped_prefix h)]
    simp only [List.foldl_cons, List.foldl_nil, scanStep]
    split
    · rename_i hc
      obtain ⟨rfl, hp⟩ := hc
      have : p.getLast? = some '\\' := h p [] rfl (by intro h0; simp [h0] at hp)
      simp [this]
    · rfl

theorem scan_label_dot (ts : List Str) (l : Label) (h : LegalLabel l) :
    (l ++ ['.']).foldl scanStep (ts, []) = (ts ++ [l], []) := by
  rw [List.foldl_append, scan_label ts l h.2.2]
  simp only [List.foldl_cons, List.foldl_nil, scanStep]
  have hl : l.length > 0 := List.length_pos_iff.mpr h.1
  simp [hl, h.2.1]

theorem scan_labels (ls : List Label) (h : ∀ l ∈ ls, LegalLabel l) (ts : List Str) :
    ((ls.map (fun l => l ++ ['.'])).flatten).foldl scanStep (ts, []) = (ts ++ ls, []) := by
  induction ls generalizing ts with
  | nil => simp
  | cons l ls ih =>
    simp only [List.map_cons, List.flatten_cons]
    rw [List.foldl_append, scan_label_dot ts l (h l (by simp)), ih (fun x hx => h x (by simp [hx]))]
    simp

theorem foldl_present (n : Name) (acc : Str) :
    n.foldl (fun domain l => l ++ ['.'] ++ domain) acc = (n.reverse.map (fun l => l ++ ['.'])).flatten ++ acc := by
  induction n generalizing acc with
  | nil => simp
  | cons l n ih => rw [List.foldl_cons, ih]; simp

theorem labelsToString_eq (n : Name) : labelsToString n = present n := by
  unfold labelsToString present
  by_cases h : n = []
  · simp [h]
  · simp only [List.length_eq_zero_iff, h, if_false]
    rw [foldl_present]; simp

theorem present_getLast (n : Name) : (present n).getLast? = some '.' := by
  unfold present
  by_cases h : n = []
  · simp [h]
  · simp only [h, if_false]
    cases n with
    | nil => exact absurd rfl h
    | cons l n => simp [List.getLast?_append]

theorem present_ne_nil (n : Name) : present n ≠ [] := by
  intro h; have := present_getLast n; simp [h] at this

theorem parse_present (n : Name) (h : LegalName n) : stringToLabels (present n) = n := by
  unfold stringToLabels
  have hne := present_ne_nil n
  rw [if_neg (by simpa using hne)]
  simp only [present_getLast, ne_eq, not_true_eq_false, if_false]
  by_cases h0 : n = []
  · subst h0; decide
  · unfold present
    rw [if_neg h0, scan_labels _ (by intro l hl; exact h l (by simpa using hl))]
    simp

/-- Invariant of the scan. -/
theorem scan_legal (s : Str) : ∀ st : List Str × Str,
    (∀ l ∈ st.1, LegalLabel l) → DotsEscaped st.2 →
    (∀ l ∈ (s.foldl scanStep st).1, LegalLabel l) ∧ DotsEscaped (s.foldl scanStep st).2 := by
  induction s with
  | nil => intro st h1 h2; exact ⟨h1, h2⟩
  | cons c s ih =>
    intro st h1 h2
    have snoc : (c ≠ '.' ∨ st.2 = [] ∨ st.2.getLast? = some '\\') → DotsEscaped (st.2 ++ [c]) := by
      intro hc p q hpq hp
      rcases List.eq_nil_or_concat q with rfl | ⟨q', d, rfl⟩
      · have := List.append_inj' hpq (by simp)
        obtain ⟨h3, h4⟩ := this
        subst h3
        simp only [List.cons.injEq, and_true] at h4
        rcases hc with hc | hc | hc
        · exact absurd h4 hc
        · exact absurd hc hp
        · exact hc
      · have h5 : st.2 ++ [c] = (p ++ '.' :: q') ++ [d] := by rw [hpq]; simp
        have := (List.append_inj' h5 (by simp)).1
        exact h2 p q' this hp
    rw [List.foldl_cons]
    apply ih
    · unfold scanStep
      split
      · split
        · exact h1
        · rename_i hc hb
          intro l hl
          simp only [List.mem_append, List.mem_singleton] at hl
          rcases hl with hl | rfl
          · exact h1 l hl
          · exact ⟨by intro h0; simp [h0] at hc, hb, h2⟩
      · exact h1
    · unfold scanStep
      split
      · split
        · rename_i hb; exact snoc (Or.inr (Or.inr hb))
        · intro p s hp; simp at hp
      · rename_i hc
        simp only [not_and_or] at hc
        apply snoc
        rcases hc with hc | hc
        · exact Or.inl hc
        · right; left; simpa using hc

theorem parse_legal (s : Str) : LegalName (stringToLabels s) := by
  unfold stringToLabels
  split
  · intro l hl; simp at hl
  · intro l hl
    simp only [List.mem_reverse] at hl
    refine (scan_legal _ ([], []) (by simp) ?_).1 l hl
    intro p s hp; simp at hp

/-- The scan only moves characters. -/
theorem scan_flatten (s : Str) : ∀ st : List Str × Str,
    (((s.foldl scanStep st).1.map (fun l => l ++ ['.'])).flatten ++ (s.foldl scanStep st).2 =
      (st.1.map (fun l => l ++ ['.'])).flatten ++ st.2 ++ s) := by
  induction s with
  | nil => intro st; simp
  | cons c s ih =>
    intro st
    rw [List.foldl_cons, ih]
    unfold scanStep
    split
    · rename_i hc
      split
      · simp
      · simp [hc.1]
    · simp

theorem stringToLabels_dotted (s : Str) : stringToLabels s = ((dotted s).foldl scanStep ([], [])).1.reverse := by
  unfold stringToLabels dotted
  by_cases h : s = []
  · simp [h]
  · rw [if_neg (by simpa using h)]
    by_cases h2 : s.getLast? = some '.'
    · simp [h2]
    · simp [h, h2]

theorem reads_iff (s : Str) (n : Name) : stringToLabels s = n ↔ Reads s n := by
  rw [stringToLabels_dotted]
  constructor
  · rintro rfl
    have hl := scan_legal (dotted s) ([], []) (by simp) (by intro p q hp; simp at hp)
    refine ⟨fun l hl' => hl.1 l (by simpa using hl'), (((dotted s).foldl scanStep ([], [])).2), ?_, hl.2⟩
    rw [List.reverse_reverse, scan_flatten]; simp
  · rintro ⟨hn, rest, he, hr⟩
    rw [he, List.foldl_append, scan_labels _ (by intro l hl; exact hn l (by simpa using hl)), scan_label _ _ hr]
    simp

/-! ### `subDomainCheck` -/

theorem subDomainCheck_iff (d s : Name) : subDomainCheck d s = true ↔ AtOrBelow d s := by
  unfold subDomainCheck AtOrBelow
  constructor
  · intro h
    split at h
    · simp at h
    · rename_i hlen
      refine ⟨s.drop d.length, ?_⟩
      have : d = s.take d.length := by
        apply List.ext_getElem?
        intro i
        by_cases hi : i < d.length
        · simp only [List.all_eq_true, List.mem_range, beq_iff_eq] at h
          rw [h i hi, List.getElem?_take, if_pos hi]
        · rw [List.getElem?_eq_none (by omega), List.getElem?_eq_none (by simp; omega)]
      conv => lhs; rw [← List.take_append_drop d.length s, ← this]
  · rintro ⟨r, rfl⟩
    simp only [List.length_append]
    rw [if_neg (by omega)]
    simp only [List.all_eq_true, List.mem_range, beq_iff_eq]
    intro i hi
    rw [List.getElem?_append_left hi]

theorem subDomainCheckAny_iff (ds : List Name) (s : Name) :
    subDomainCheckAny ds s = true ↔ ∃ d ∈ ds, AtOrBelow d s := by
  unfold subDomainCheckAny
  have : ∀ b, (ds.foldl (fun any d => any || subDomainCheck d s) b = true ↔
      b = true ∨ ∃ d ∈ ds, AtOrBelow d s) := by
    induction ds with
    | nil => simp
    | cons d ds ih =>
      intro b
      rw [List.foldl_cons, ih]
      simp [subDomainCheck_iff, or_assoc]
  simpa using this false

/-! ### `lengthCheck` -/

theorem lengthCheckLoop_spec (n : Name) : ∀ k,
    ((lengthCheckLoop k n).1 = true ↔
      (∀ l ∈ n, l.length ≤ 63) ∧ k + (n.map (fun l => l.length + 1)).sum ≤ 253) := by
  induction n with
  | nil => intro k; unfold lengthCheckLoop; simp [kMaxDomainLength]; split <;> simp <;> omega
  | cons l n ih =>
    intro k
    unfold lengthCheckLoop
    by_cases hl : l.length > kMaxLabelLength
    · rw [if_pos hl]
      simp only [Bool.false_eq_true, List.mem_cons, forall_eq_or_imp, false_iff]
      unfold kMaxLabelLength at hl
      omega
    · rw [if_neg hl, ih]
      unfold kMaxLabelLength at hl
      simp only [List.mem_cons, forall_eq_or_imp, List.map_cons, List.sum_cons]
      constructor
      · rintro ⟨h1, h2⟩; exact ⟨⟨by omega, h1⟩, by omega⟩
      · rintro ⟨⟨_, h1⟩, h2⟩; exact ⟨h1, by omega⟩

theorem present_length (n : Name) (h : n ≠ []) :
    (present n).length = (n.map (fun l => l.length + 1)).sum := by
  unfold present
  rw [if_neg h]
  rw [List.length_flatten, List.map_map, List.map_reverse, List.sum_reverse]
  simp [Function.comp_def]

theorem lengthCheck_iff (n : Name) :
    (lengthCheck n).1 = true ↔ (∀ l ∈ n, l.length ≤ 63) ∧ (present n).length ≤ 253 := by
  unfold lengthCheck
  rw [lengthCheckLoop_spec]
  by_cases h : n = []
  · subst h; simp [present]
  · rw [present_length n h]; simp

theorem lengthCheckLoop_label (n : Name) : ∀ k,
    (lengthCheckLoop k n).2 = ((n.find? (fun l => decide (l.length > 63))).getD []) := by
  induction n with
  | nil => intro k; unfold lengthCheckLoop; split <;> simp
  | cons l n ih =>
    intro k
    unfold lengthCheckLoop
    simp only [kMaxLabelLength, List.find?_cons]
    by_cases hl : l.length > 63
    · simp [hl]
    · simp [hl, ih]

end Groot
