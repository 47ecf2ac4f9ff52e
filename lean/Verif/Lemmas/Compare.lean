import Verif.Lemmas.Types
import Verif.Model.Checks
import Mathlib.Data.List.Perm.Basic

namespace Groot
open Spec

theorem eqv_iff (a b : RR) : a.eqv b = true ↔ key a = key b := by
  unfold RR.eqv key
  simp only [Bool.and_eq_true, beq_iff_eq, Prod.mk.injEq]
  tauto

theorem eraseFirst_some {a : RR} {b b' : List RR} (h : eraseFirst a b = some b') :
    (b.map key).Perm (key a :: b'.map key) ∧ b'.Sublist b := by
  induction b generalizing b' with
  | nil => simp [eraseFirst] at h
  | cons x b ih =>
    unfold eraseFirst at h
    split at h
    · rename_i he
      simp only [Option.some.injEq] at h
      subst h
      rw [eqv_iff] at he
      simp [he]
    · cases hb : eraseFirst a b with
      | none => simp [hb] at h
      | some c =>
        simp only [hb, Option.map_some, Option.some.injEq] at h
        subst h
        obtain ⟨h1, h2⟩ := ih hb
        refine ⟨?_, by simpa using h2⟩
        simp only [List.map_cons]
        exact (h1.cons _).trans (List.Perm.swap _ _ _)

theorem eraseFirst_none {a : RR} {b : List RR} (h : eraseFirst a b = none) : ∀ y ∈ b, key a ≠ key y := by
  induction b with
  | nil => simp
  | cons x b ih =>
    unfold eraseFirst at h
    split at h
    · simp at h
    · rename_i he
      simp only [Option.map_eq_none_iff] at h
      rw [eqv_iff] at he
      intro y hy
      rcases List.mem_cons.mp hy with rfl | hy
      · exact he
      · exact ih h y hy

theorem compareRRs_spec (a b : List RR) :
    a.Perm ((compareRRs a b).1 ++ (compareRRs a b).2.1) ∧
    (b.map key).Perm (((compareRRs a b).1 ++ (compareRRs a b).2.2).map key) ∧
    (compareRRs a b).2.1.Sublist a ∧ (compareRRs a b).2.2.Sublist b ∧
    ∀ x ∈ (compareRRs a b).2.1, ∀ y ∈ (compareRRs a b).2.2, key x ≠ key y := by
  induction a generalizing b with
  | nil => simp [compareRRs]
  | cons x a ih =>
    unfold compareRRs
    cases h : eraseFirst x b with
    | some b' =>
      obtain ⟨h1, h2, h3, h4, h5⟩ := ih b'
      obtain ⟨e1, e2⟩ := eraseFirst_some h
      refine ⟨?_, ?_, ?_, ?_, h5⟩
      · simpa using h1
      · simp only [List.cons_append, List.map_cons]
        exact e1.trans (h2.cons _)
      · exact h3.cons _
      · exact h4.trans e2
    | none =>
      obtain ⟨h1, h2, h3, h4, h5⟩ := ih b
      refine ⟨?_, h2, ?_, h4, ?_⟩
      · exact (h1.cons x).trans List.perm_middle.symm
      · simpa using h3
      · intro u hu y hy
        rcases List.mem_cons.mp hu with rfl | hu
        · exact eraseFirst_none h y (h4.subset hy)
        · exact h5 u hu y hy

theorem compareRRs_diff_nil (a b : List RR) :
    ((compareRRs a b).2.1 = [] ∧ (compareRRs a b).2.2 = []) ↔ SameRecords a b := by
  obtain ⟨h1, h2, _, _, h5⟩ := compareRRs_spec a b
  revert h1 h2 h5
  generalize (compareRRs a b).1 = c
  generalize (compareRRs a b).2.1 = oa
  generalize (compareRRs a b).2.2 = ob
  intro h1 h2 h5
  have h1' := h1.map key
  rw [List.map_append] at h1' h2
  constructor
  · rintro ⟨rfl, rfl⟩
    simp only [List.map_nil, List.append_nil] at h1' h2
    exact h1'.trans h2.symm
  · intro h
    have h3 : (oa.map key).Perm (ob.map key) :=
      (List.perm_append_left_iff _).mp ((h1'.symm.trans h).trans h2)
    have key' : ∀ x ∈ oa, False := by
      intro x hx
      have := h3.mem_iff.mp (List.mem_map_of_mem (f := key) hx)
      obtain ⟨y, hy, hk⟩ := List.mem_map.mp this
      exact h5 x hx y hy hk.symm
    have hoa : oa = [] := List.eq_nil_iff_forall_not_mem.mpr key'
    subst hoa
    simp only [List.map_nil, List.nil_perm, List.map_eq_nil_iff] at h3
    exact ⟨rfl, h3⟩

theorem differ_iff (a b : List RR) : Check.differ a b = true ↔ ¬ SameRecords a b := by
  rw [← compareRRs_diff_nil]
  unfold Check.differ
  simp only [Bool.or_eq_true, bne_iff_ne, ne_eq, List.length_eq_zero_iff]
  tauto

theorem sameRecords_refl (a : List RR) : SameRecords a a := List.Perm.refl _
theorem sameRecords_symm {a b : List RR} (h : SameRecords a b) : SameRecords b a := List.Perm.symm h
theorem sameRecords_trans {a b c : List RR} (h : SameRecords a b) (h' : SameRecords b c) : SameRecords a c :=
  List.Perm.trans h h'

end Groot
