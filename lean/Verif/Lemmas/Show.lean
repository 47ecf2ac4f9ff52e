import Verif.Lemmas.Names
import Verif.Lemmas.Types
import Verif.Lemmas.Compare
import Mathlib.Data.List.Lattice
import Mathlib.Data.List.Sort

/-!
# How queries, types and records are written in reports
-/

namespace Groot
open Spec

theorem toStr_fun : EC.toStr = showQuery := by
  funext q
  unfold EC.toStr showQuery
  rw [labelsToString_eq]
  cases q.excluded <;> rfl

theorem alphabetical_sorted : (alphabetical.map typeText).Pairwise StrLt := by
  unfold StrLt
  decide +kernel

theorem mem_alphabetical (t : RRType) : t ∈ alphabetical ↔ t ≠ .N := by cases t <;> decide

theorem typeText_mnemonic {t : RRType} {m : String} (h : mnemonic t = some m) : typeText t = m.toList := by
  simp [typeText, h]

theorem typesToString_fun : typesToString = showTypes := by
  funext ts
  rw [typesToString_eq, showTypes]
  congr 1
  refine sorted_ext _ _ (typeNameSet_spec ts).1 ?_ ?_
  · exact alphabetical_sorted.sublist (List.Sublist.map _ List.filter_sublist)
  · intro s
    rw [(typeNameSet_spec ts).2]
    simp only [List.mem_map, List.mem_filter, decide_eq_true_eq, mem_alphabetical]
    constructor
    · rintro ⟨t, m, h1, h2, rfl⟩
      exact ⟨t, ⟨h1.1, h1⟩, typeText_mnemonic h2⟩
    · rintro ⟨t, ⟨h0, h1⟩, rfl⟩
      obtain ⟨m, hm⟩ := mnemonic_some t h0
      exact ⟨t, m, h1, hm, typeText_mnemonic hm⟩

theorem str_fun : RR.str = showRecord := by
  funext r
  unfold RR.str showRecord showKey key
  rw [labelsToString_eq]
  have : typesToString (TypeSet.add 0 r.type) = typeText r.type := by
    generalize r.type = t
    cases t <;> decide +kernel
  rw [this]

theorem eraseFirst_keys (a : RR) (b : List RR) :
    (∀ b', eraseFirst a b = some b' → key a ∈ b.map key ∧ b'.map key = (b.map key).erase (key a)) ∧
    (eraseFirst a b = none → key a ∉ b.map key) := by
  refine ⟨?_, fun h hc => ?_⟩
  · induction b with
    | nil => intro b' h; simp [eraseFirst] at h
    | cons x b ih =>
      intro b' h
      unfold eraseFirst at h
      split at h
      · rename_i he
        rw [eqv_iff] at he
        cases h
        simp [he]
      · rename_i he
        rw [eqv_iff] at he
        cases hb : eraseFirst a b with
        | none => simp [hb] at h
        | some c =>
          simp only [hb, Option.map_some, Option.some.injEq] at h
          subst h
          obtain ⟨h1, h2⟩ := ih c hb
          refine ⟨by simp only [List.map_cons]; exact List.mem_cons_of_mem _ h1, ?_⟩
          rw [List.map_cons, List.map_cons, List.erase_cons_tail (by simpa using fun e => he e.symm), h2]
  · obtain ⟨y, hy, e⟩ := List.mem_map.mp hc
    exact eraseFirst_none h y hy e.symm

theorem bagInter_nil_left {α : Type} [BEq α] (l : List α) : ([] : List α).bagInter l = [] := by
  cases l <;> rfl

theorem bagInter_cons_mem {α : Type} [BEq α] [LawfulBEq α] (x : α) (l m : List α) (h : x ∈ m) :
    (x :: l).bagInter m = x :: l.bagInter (m.erase x) := by
  cases m with
  | nil => simp at h
  | cons y m => conv_lhs => unfold List.bagInter
                rw [if_pos (by simpa using h)]

theorem bagInter_cons_not_mem {α : Type} [BEq α] [LawfulBEq α] (x : α) (l m : List α) (h : x ∉ m) :
    (x :: l).bagInter m = l.bagInter m := by
  cases m with
  | nil => cases l <;> rfl
  | cons y m => conv_lhs => unfold List.bagInter
                rw [if_neg (by simpa using h)]

/-- On keys, the comparison is the multiset intersection and the two multiset differences. -/
theorem compareRRs_keys (a b : List RR) :
    (compareRRs a b).1.map key = (a.map key).bagInter (b.map key) ∧
    (compareRRs a b).2.1.map key = (a.map key).diff (b.map key) ∧
    (compareRRs a b).2.2.map key = (b.map key).diff (a.map key) := by
  induction a generalizing b with
  | nil => simp [compareRRs, bagInter_nil_left]
  | cons x a ih =>
    unfold compareRRs
    cases he : eraseFirst x b with
    | some b' =>
      obtain ⟨h1, h2⟩ := (eraseFirst_keys x b).1 b' he
      obtain ⟨i1, i2, i3⟩ := ih b'
      dsimp only
      rw [List.map_cons, List.map_cons, bagInter_cons_mem _ _ _ h1, List.cons_diff_of_mem h1, List.diff_cons, i1, i2, i3, h2]
      exact ⟨rfl, rfl, rfl⟩
    | none =>
      have h1 := (eraseFirst_keys x b).2 he
      obtain ⟨i1, i2, i3⟩ := ih b
      dsimp only
      rw [List.map_cons, List.map_cons, bagInter_cons_not_mem _ _ _ h1, List.cons_diff_of_not_mem h1, List.diff_cons, i1, i2, i3,
        List.erase_of_not_mem h1]
      exact ⟨rfl, rfl, rfl⟩

theorem compareRRs_show (a b : List RR) :
    ((compareRRs a b).1.map RR.str, (compareRRs a b).2.1.map RR.str, (compareRRs a b).2.2.map RR.str) = showSplit a b := by
  obtain ⟨h1, h2, h3⟩ := compareRRs_keys a b
  unfold showSplit
  rw [← h1, ← h2, ← h3, str_fun]
  simp only [List.map_map]
  rfl

end Groot
