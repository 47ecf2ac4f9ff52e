import Verif.Lemmas.RecordLine
import Verif.Spec.Numbers

/-! # Numbers at the beginning of a word -/

namespace Groot

open Spec Parser

theorem isSpace_iff (c : Char) : isSpace c = true ↔ c ∈ [' ', '\t', '\n', '\x0b', '\x0c', '\r'] := by
  unfold isSpace
  simp [or_assoc]

theorem isDigit_iff (c : Char) : isDigit c = true ↔ '0' ≤ c ∧ c ≤ '9' := by
  unfold isDigit
  rw [Bool.and_eq_true, decide_eq_true_eq, decide_eq_true_eq]

theorem takeWhile_append_all {α : Type} (p : α → Bool) (a b : List α) (h : ∀ x ∈ a, p x = true) : (a ++ b).takeWhile p = a ++ b.takeWhile p := by
  induction a with
  | nil => rfl
  | cons x a ih => rw [List.cons_append, List.takeWhile_cons_of_pos (h x (by simp)), ih (fun y hy => h y (by simp [hy])), List.cons_append]

theorem dropWhile_append_all {α : Type} (p : α → Bool) (a b : List α) (h : ∀ x ∈ a, p x = true) : (a ++ b).dropWhile p = b.dropWhile p := by
  induction a with
  | nil => rfl
  | cons x a ih => rw [List.cons_append, List.dropWhile_cons_of_pos (h x (by simp)), ih (fun y hy => h y (by simp [hy]))]

theorem unsigned_append {t : Str} (h : Numeral t) (r : Str) : unsigned (t ++ r) = unsigned t ++ r := by
  rcases sign_facts t with ⟨ds, rfl, e⟩ | ⟨ds, rfl, e⟩ | ⟨e, h1, h2⟩
  · rfl
  · rfl
  · rw [e]
    obtain ⟨c, t', rfl, -⟩ := numeral_head h
    exact head_unsigned h1 h2

theorem strtol_begins {s : Str} {v : Int} (h : BeginsWith s v) : (strtol s).1 = some v := by
  obtain ⟨white, t, rest, rfl, hw, ht, rfl, hr⟩ := h
  have hz : ∀ x ∈ white ++ t, (x != '\x00') = true := by
    intro x hx
    rcases List.mem_append.mp hx with hx | hx
    · have : ∀ y ∈ [' ', '\t', '\n', '\x0b', '\x0c', '\r'], (y != '\x00') = true := by decide
      exact this x (hw x hx)
    · have := (numeral_clean ht).1
      rw [List.takeWhile_eq_self_iff] at this
      exact this x hx
  obtain ⟨c, t', htc, hc⟩ := numeral_head ht
  have hsp : ∀ r, (t ++ r).dropWhile isSpace = t ++ r := by
    intro r
    have : isSpace c = false := by
      rcases hc with (rfl | rfl) | hc
      · decide
      · decide
      · exact (digit_facts c hc.1 hc.2).2.1
    rw [htc, List.cons_append, List.dropWhile_cons_of_neg (by simp [this])]
  unfold strtol
  dsimp only
  rw [takeWhile_append_all _ _ _ hz, List.append_assoc, dropWhile_append_all _ _ _ (fun x hx => (isSpace_iff x).mpr (hw x hx)), hsp, afterSign_eq,
    unsigned_append ht, takeWhile_append_all _ _ _ (fun x hx => (isDigit_iff x).mpr (ht.2 x hx))]
  have hnil : (rest.takeWhile (· != '\x00')).takeWhile isDigit = [] := by
    rcases rest with _ | ⟨x, rest⟩
    · rfl
    · rw [List.takeWhile_cons]
      split
      · rw [List.takeWhile_cons_of_neg]
        rw [isDigit_iff]; exact hr x rfl
      · rfl
  rw [hnil, List.append_nil, if_neg (by rw [List.isEmpty_iff]; exact ht.1), decimal_eq]
  have hh : (t ++ rest.takeWhile (· != '\x00')).head? = t.head? := by rw [htc]; rfl
  dsimp only
  rw [hh]
  rfl

theorem begins_of_strtol {s : Str} {v : Int} (h : (strtol s).1 = some v) : BeginsWith s v := by
  unfold strtol at h
  dsimp only at h
  have hs : s = s.takeWhile (· != '\x00') ++ s.dropWhile (· != '\x00') := List.takeWhile_append_dropWhile.symm
  have hz : ∀ c, (s.dropWhile (· != '\x00')).head? = some c → ¬ ('0' ≤ c ∧ c ≤ '9') := by
    intro c hc
    have : (c != '\x00') ≠ true := by
      intro hh
      have := List.head?_dropWhile_not (· != '\x00') s
      rw [hc] at this
      simp at this
      simp [this] at hh
    simp at this
    rw [this]; decide
  generalize s.takeWhile (· != '\x00') = a at hs h
  generalize s.dropWhile (· != '\x00') = b at hs hz
  have ha : a = a.takeWhile isSpace ++ a.dropWhile isSpace := List.takeWhile_append_dropWhile.symm
  have hw : ∀ c ∈ a.takeWhile isSpace, c ∈ [' ', '\t', '\n', '\x0b', '\x0c', '\r'] := by
    intro c hc
    exact (isSpace_iff c).mp (List.mem_takeWhile_imp hc)
  generalize a.takeWhile isSpace = white at ha hw
  generalize a.dropWhile isSpace = d at ha h
  rw [afterSign_eq] at h
  have hu : unsigned d = (unsigned d).takeWhile isDigit ++ (unsigned d).dropWhile isDigit := List.takeWhile_append_dropWhile.symm
  have hdig : ∀ c ∈ (unsigned d).takeWhile isDigit, '0' ≤ c ∧ c ≤ '9' := fun c hc => (isDigit_iff c).mp (List.mem_takeWhile_imp hc)
  have hrest : ∀ c, ((unsigned d).dropWhile isDigit ++ b).head? = some c → ¬ ('0' ≤ c ∧ c ≤ '9') := by
    intro c hc
    rcases hd : (unsigned d).dropWhile isDigit with _ | ⟨x, r⟩
    · rw [hd] at hc; exact hz c hc
    · rw [hd] at hc
      injection hc with hc
      subst hc
      have := List.head?_dropWhile_not isDigit (unsigned d)
      rw [hd] at this
      simp at this
      rw [← isDigit_iff, this]
      simp
  split at h
  · cases h
  · rename_i hne
    rw [List.isEmpty_iff] at hne
    have h : (if d.head? = some '-' then -(digitsVal ((unsigned d).takeWhile isDigit) : Int) else (digitsVal ((unsigned d).takeWhile isDigit) : Int)) = v := by
      injection h
    rw [decimal_eq] at h
    rcases sign_facts d with ⟨ds, rfl, e⟩ | ⟨ds, rfl, e⟩ | ⟨e, h1, h2⟩
    · rw [e] at hu hdig hrest hne
      refine ⟨white, '-' :: ds.takeWhile isDigit, ds.dropWhile isDigit ++ b, ?_, hw, ⟨hne, hdig⟩, ?_, hrest⟩
      · rw [hs, ha]
        simp only [List.append_assoc, List.cons_append]
        rw [← List.append_assoc (List.takeWhile isDigit _), ← hu]
      · rw [← h, e]; rfl
    · rw [e] at hu hdig hrest hne
      refine ⟨white, '+' :: ds.takeWhile isDigit, ds.dropWhile isDigit ++ b, ?_, hw, ⟨hne, hdig⟩, ?_, hrest⟩
      · rw [hs, ha]
        simp only [List.append_assoc, List.cons_append]
        rw [← List.append_assoc (List.takeWhile isDigit _), ← hu]
      · rw [← h, e]; rfl
    · rw [e] at hu hdig hrest hne h
      have hun : unsigned (d.takeWhile isDigit) = d.takeWhile isDigit := by
        obtain ⟨x, r, hx⟩ := List.exists_cons_of_ne_nil hne
        have hxd := hdig x (by rw [hx]; simp)
        have := digit_facts x hxd.1 hxd.2
        refine head_unsigned ?_ ?_ <;> rw [hx] <;> intro hh <;> injection hh with hh
        · exact this.2.2.1 hh
        · exact this.2.2.2.1 hh
      refine ⟨white, d.takeWhile isDigit, d.dropWhile isDigit ++ b, ?_, hw, ?_, ?_, hrest⟩
      · rw [hs, ha]
        simp only [List.append_assoc, List.cons_append]
        rw [← List.append_assoc (List.takeWhile isDigit _), ← hu]
      · unfold Numeral; rw [hun]; exact ⟨hne, hdig⟩
      · unfold numeralValue
        rw [hun, if_neg, ← h, if_neg h1]
        obtain ⟨x, r, hx⟩ := List.exists_cons_of_ne_nil hne
        have hxd := hdig x (by rw [hx]; simp)
        rw [hx]; intro hh; injection hh with hh
        exact (digit_facts x hxd.1 hxd.2).2.2.1 hh

/-- `stoi` of a word. -/
theorem stoi_spec (s : Str) : (∀ v, BeginsWith s v → stoi s = if Fitting v then .ok v else .throw) ∧ ((¬ ∃ v, BeginsWith s v) → stoi s = .throw) := by
  refine ⟨fun v h => ?_, fun h => ?_⟩
  · unfold stoi
    rw [strtol_begins h]
    rfl
  · unfold stoi
    cases hs : (strtol s).1 with
    | none => rfl
    | some v => exact absurd ⟨v, begins_of_strtol hs⟩ h

end Groot
