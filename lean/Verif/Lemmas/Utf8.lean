import Verif.Spec.Json
import Mathlib.Tactic.SplitIfs
import Mathlib.Tactic.ByContra

/-!
# The automaton accepts exactly UTF-8
-/

namespace Groot

open Spec

namespace Json

theorem isCont_iff (c : Char) : isCont c = true ↔ 0x80 ≤ c.toNat ∧ c.toNat ≤ 0xBF := by
  unfold isCont; simp

theorem utf8_one {n : Nat} (h : n < 0x80) : utf8 n = [n] := by unfold utf8; rw [if_pos h]

theorem utf8_two {n : Nat} (h : 0x80 ≤ n) (h' : n < 0x800) : utf8 n = [0xC0 + n / 64, 0x80 + n % 64] := by
  unfold utf8; rw [if_neg (by omega), if_pos h']

theorem utf8_three {n : Nat} (h : 0x800 ≤ n) (h' : n < 0x10000) : utf8 n = [0xE0 + n / 4096, 0x80 + n / 64 % 64, 0x80 + n % 64] := by
  unfold utf8; rw [if_neg (by omega), if_neg (by omega), if_pos h']

theorem utf8_four {n : Nat} (h : 0x10000 ≤ n) :
    utf8 n = [0xF0 + n / 262144, 0x80 + n / 4096 % 64, 0x80 + n / 64 % 64, 0x80 + n % 64] := by
  unfold utf8; rw [if_neg (by omega), if_neg (by omega), if_neg (by omega)]

theorem _root_.Groot.Spec.Utf8.cons {s pre : Str} {n : Nat} (hn : Scalar n) (hp : pre.map Char.toNat = utf8 n) (h : Utf8 s) : Utf8 (pre ++ s) := by
  obtain ⟨cs, h1, h2⟩ := h
  refine ⟨n :: cs, ?_, ?_⟩
  · intro c hc
    rcases List.mem_cons.mp hc with rfl | hc
    · exact hn
    · exact h1 c hc
  · rw [List.map_append, hp, h2, List.flatMap_cons]

theorem utf8Ok_sound : ∀ (s : Str), utf8Ok s = true → Utf8 s
  | [], _ => ⟨[], by simp, rfl⟩
  | [a], h => by
    unfold utf8Ok at h
    split_ifs at h with h1 h2 h3 h4
    refine Spec.Utf8.cons (pre := [a]) (s := []) (n := a.toNat) (by left; omega) ?_ (utf8Ok_sound [] h)
    rw [utf8_one h1]; rfl
  | a :: b :: s, h => by
    unfold utf8Ok at h
    split_ifs at h with h1 h2 h3 h4
    · refine Spec.Utf8.cons (pre := [a]) (n := a.toNat) (by left; omega) ?_ (utf8Ok_sound _ h)
      rw [utf8_one h1]; rfl
    · simp only [Bool.and_eq_true, isCont_iff] at h
      refine Spec.Utf8.cons (pre := [a, b]) (n := (a.toNat - 0xC0) * 64 + (b.toNat - 0x80)) (by left; omega) ?_ (utf8Ok_sound _ h.2)
      rw [utf8_two (by omega) (by omega)]
      simp only [List.map_cons, List.map_nil, List.cons.injEq, and_true]
      omega
    · match s, h with
      | [], h => exact absurd h Bool.false_ne_true
      | c :: s, h =>
        simp only [Bool.and_eq_true, isCont_iff, Bool.not_eq_true', Bool.and_eq_false_imp, beq_iff_eq, decide_eq_false_iff_not] at h
        obtain ⟨⟨⟨⟨hb, hc⟩, h5⟩, h6⟩, h7⟩ := h
        have h5' : a.toNat = 0xE0 → 0xA0 ≤ b.toNat := fun e => by have := h5 e; omega
        have h6' : a.toNat = 0xED → b.toNat ≤ 0x9F := fun e => by have := h6 e; omega
        have hm : 0x800 ≤ (a.toNat - 0xE0) * 4096 + (b.toNat - 0x80) * 64 + (c.toNat - 0x80) := by
          by_cases e : a.toNat = 0xE0
          · have := h5' e; omega
          · omega
        have hs : (a.toNat - 0xE0) * 4096 + (b.toNat - 0x80) * 64 + (c.toNat - 0x80) < 0xD800 ∨
            0xE000 ≤ (a.toNat - 0xE0) * 4096 + (b.toNat - 0x80) * 64 + (c.toNat - 0x80) := by
          by_cases e : a.toNat = 0xED
          · have := h6' e; omega
          · omega
        refine Spec.Utf8.cons (pre := [a, b, c]) (n := (a.toNat - 0xE0) * 4096 + (b.toNat - 0x80) * 64 + (c.toNat - 0x80)) ?_ ?_ (utf8Ok_sound _ h7)
        · rcases hs with h | h
          · exact .inl h
          · exact .inr ⟨h, by omega⟩
        · rw [utf8_three hm (by omega)]
          simp only [List.map_cons, List.map_nil, List.cons.injEq, and_true]
          omega
    · match s, h with
      | [], h => exact absurd h Bool.false_ne_true
      | [_], h => exact absurd h Bool.false_ne_true
      | c :: d :: s, h =>
        simp only [Bool.and_eq_true, isCont_iff, Bool.not_eq_true', Bool.and_eq_false_imp, beq_iff_eq, decide_eq_false_iff_not] at h
        obtain ⟨⟨⟨⟨⟨hb, hc⟩, hd⟩, h5⟩, h6⟩, h7⟩ := h
        have h5' : a.toNat = 0xF0 → 0x90 ≤ b.toNat := fun e => by have := h5 e; omega
        have h6' : a.toNat = 0xF4 → b.toNat ≤ 0x8F := fun e => by have := h6 e; omega
        have hm : 0x10000 ≤ (a.toNat - 0xF0) * 262144 + (b.toNat - 0x80) * 4096 + (c.toNat - 0x80) * 64 + (d.toNat - 0x80) := by
          by_cases e : a.toNat = 0xF0
          · have := h5' e; omega
          · omega
        have hs : (a.toNat - 0xF0) * 262144 + (b.toNat - 0x80) * 4096 + (c.toNat - 0x80) * 64 + (d.toNat - 0x80) ≤ 0x10FFFF := by
          by_cases e : a.toNat = 0xF4
          · have := h6' e; omega
          · omega
        refine Spec.Utf8.cons (pre := [a, b, c, d])
          (n := (a.toNat - 0xF0) * 262144 + (b.toNat - 0x80) * 4096 + (c.toNat - 0x80) * 64 + (d.toNat - 0x80)) ?_ ?_ (utf8Ok_sound _ h7)
        · exact .inr ⟨by omega, hs⟩
        · rw [utf8_four hm]
          simp only [List.map_cons, List.map_nil, List.cons.injEq, and_true]
          omega

theorem map_eq_cons2 {s : Str} {a : Nat} {l : List Nat} (h : s.map Char.toNat = a :: l) : ∃ c t, s = c :: t ∧ c.toNat = a ∧ t.map Char.toNat = l := by
  cases s with
  | nil => cases h
  | cons c t =>
    rw [List.map_cons] at h
    injection h with h1 h2
    exact ⟨c, t, rfl, h1, h2⟩

theorem utf8Ok_complete (cs : List Nat) : ∀ (s : Str), (∀ c ∈ cs, Scalar c) → s.map Char.toNat = cs.flatMap utf8 → utf8Ok s = true := by
  induction cs with
  | nil =>
    intro s _ h
    rw [List.flatMap_nil, List.map_eq_nil_iff] at h
    subst h
    rfl
  | cons n cs ih =>
    intro s hc h
    have hn := hc n (by simp)
    have ih' := fun s h => ih s (fun c hc' => hc c (by simp [hc'])) h
    rw [List.flatMap_cons] at h
    unfold Scalar at hn
    by_cases h1 : n < 0x80
    · rw [utf8_one h1] at h
      obtain ⟨a, t, rfl, ha, ht⟩ := map_eq_cons2 h
      unfold utf8Ok
      rw [if_pos (by omega)]
      exact ih' t ht
    by_cases h2 : n < 0x800
    · rw [utf8_two (by omega) h2] at h
      obtain ⟨a, t, rfl, ha, ht⟩ := map_eq_cons2 h
      obtain ⟨b, t, rfl, hb, ht⟩ := map_eq_cons2 ht
      unfold utf8Ok
      rw [if_neg (by omega), if_pos (by omega)]
      simp only [Bool.and_eq_true, isCont_iff]
      exact ⟨by omega, ih' t ht⟩
    by_cases h3 : n < 0x10000
    · rw [utf8_three (by omega) h3] at h
      obtain ⟨a, t, rfl, ha, ht⟩ := map_eq_cons2 h
      obtain ⟨b, t, rfl, hb, ht⟩ := map_eq_cons2 ht
      obtain ⟨c, t, rfl, hc', ht⟩ := map_eq_cons2 ht
      unfold utf8Ok
      rw [if_neg (by omega), if_neg (by omega), if_pos (by omega)]
      simp only [Bool.and_eq_true, isCont_iff, Bool.not_eq_true', Bool.and_eq_false_imp, beq_iff_eq, decide_eq_false_iff_not]
      exact ⟨⟨⟨⟨by omega, by omega⟩, by omega⟩, by omega⟩, ih' t ht⟩
    · rw [utf8_four (by omega)] at h
      obtain ⟨a, t, rfl, ha, ht⟩ := map_eq_cons2 h
      obtain ⟨b, t, rfl, hb, ht⟩ := map_eq_cons2 ht
      obtain ⟨c, t, rfl, hc', ht⟩ := map_eq_cons2 ht
      obtain ⟨d, t, rfl, hd, ht⟩ := map_eq_cons2 ht
      unfold utf8Ok
      rw [if_neg (by omega), if_neg (by omega), if_neg (by omega), if_pos (by omega)]
      simp only [Bool.and_eq_true, isCont_iff, Bool.not_eq_true', Bool.and_eq_false_imp, beq_iff_eq, decide_eq_false_iff_not]
      exact ⟨⟨⟨⟨⟨by omega, by omega⟩, by omega⟩, by omega⟩, by omega⟩, ih' t ht⟩

theorem utf8Ok_iff (s : Str) : utf8Ok s = true ↔ Utf8 s :=
  ⟨utf8Ok_sound s, fun ⟨cs, h1, h2⟩ => utf8Ok_complete cs s h1 h2⟩

theorem _root_.Groot.Spec.Utf8.append {a b : Str} (ha : Utf8 a) (hb : Utf8 b) : Utf8 (a ++ b) := by
  obtain ⟨cs, h1, h2⟩ := ha
  obtain ⟨ds, h3, h4⟩ := hb
  refine ⟨cs ++ ds, ?_, by rw [List.map_append, List.flatMap_append, h2, h4]⟩
  intro c hc
  rcases List.mem_append.mp hc with hc | hc
  · exact h1 c hc
  · exact h3 c hc

theorem _root_.Groot.Spec.Utf8.ascii {s : Str} (h : ∀ c ∈ s, c.toNat < 128) : Utf8 s := by
  induction s with
  | nil => exact ⟨[], by simp, rfl⟩
  | cons c s ih =>
    have hc := h c (by simp)
    exact Spec.Utf8.cons (pre := [c]) (n := c.toNat) (.inl (by omega)) (by rw [utf8_one hc]; rfl) (ih (fun c hc => h c (by simp [hc])))

end Json

end Groot
