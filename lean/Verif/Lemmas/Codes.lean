import Verif.Lemmas.Same

/-! # Return codes of `AddResourceRecord` and tree traversal -/

namespace Groot
open Spec

theorem addCheck_plain (r : RR) (rrs : List RR) (hr : r.type ≠ .CNAME) (hc : ∀ x ∈ rrs, x.type ≠ .CNAME)
    (hd : rrs.Pairwise (fun x y => ¬ (x.type = .DNAME ∧ y.type = .DNAME))) :
    Zone.addCheck r rrs =
      if ∃ x ∈ rrs, x.type = r.type ∧ x.ttl = r.ttl ∧ x.rdata = r.rdata then .DUPLICATE
      else if r.type = .DNAME ∧ ∃ x ∈ rrs, x.type = .DNAME then .DNAME_MULTIPLE else .SUCCESS := by
  induction rrs with
  | nil => simp [Zone.addCheck]
  | cons x rrs ih =>
    rw [List.pairwise_cons] at hd
    have ih := ih (fun y hy => hc y (by simp [hy])) hd.2
    have hxc := hc x (by simp)
    unfold Zone.addCheck
    by_cases ht : x.type = r.type
    · rw [if_pos ht]
      by_cases hs : x.ttl = r.ttl ∧ x.rdata = r.rdata
      · rw [if_pos hs, if_pos ⟨x, by simp, ht, hs⟩]
      · rw [if_neg hs, if_neg hr]
        by_cases hdn : r.type = .DNAME
        · rw [if_pos hdn]
          rw [if_neg, if_pos ⟨hdn, x, by simp, ht.trans hdn⟩]
          rintro ⟨y, hy, h1, h2⟩
          rcases List.mem_cons.mp hy with rfl | hy
          · exact hs h2
          · exact hd.1 y hy ⟨ht.trans hdn, h1.trans hdn⟩
        · rw [if_neg hdn, ih]
          simp only [hdn, false_and, if_false]
          have : (∃ y ∈ x :: rrs, y.type = r.type ∧ y.ttl = r.ttl ∧ y.rdata = r.rdata) ↔
              (∃ y ∈ rrs, y.type = r.type ∧ y.ttl = r.ttl ∧ y.rdata = r.rdata) := by
            simp [hs]
          simp only [this]
    · rw [if_neg ht, if_neg (by simp [hxc, hr]), ih]
      have h1 : (∃ y ∈ x :: rrs, y.type = r.type ∧ y.ttl = r.ttl ∧ y.rdata = r.rdata) ↔
          (∃ y ∈ rrs, y.type = r.type ∧ y.ttl = r.ttl ∧ y.rdata = r.rdata) := by simp [ht]
      have h2 : (r.type = .DNAME ∧ ∃ y ∈ x :: rrs, y.type = .DNAME) ↔ (r.type = .DNAME ∧ ∃ y ∈ rrs, y.type = .DNAME) := by
        constructor
        · rintro ⟨e, y, hy, h⟩
          rcases List.mem_cons.mp hy with rfl | hy
          · exact absurd (h.trans e.symm) ht
          · exact ⟨e, y, hy, h⟩
        · rintro ⟨e, y, hy, h⟩; exact ⟨e, y, by simp [hy], h⟩
      simp only [h1, h2]

/-- The code returned for `r` when the zone holds `log`. -/
theorem addCheck_eq {log : List RR} (hx : Exclusive log) (r : RR) :
    Zone.addCheck r (recordsAt log r.name) =
      if Duplicate log r then .DUPLICATE
      else if HasType log r.name .CNAME then (if r.type = .CNAME then .CNAME_MULTIPLE else .CNAME_OTHER)
      else if r.type = .CNAME ∧ Owner log r.name then .CNAME_OTHER
      else if r.type = .DNAME ∧ HasType log r.name .DNAME then .DNAME_MULTIPLE
      else .SUCCESS := by
  have hdup : Duplicate log r ↔ ∃ x ∈ recordsAt log r.name, x.type = r.type ∧ x.ttl = r.ttl ∧ x.rdata = r.rdata := by
    unfold Duplicate
    constructor
    · rintro ⟨x, h1, h2, h3⟩; exact ⟨x, mem_recordsAt.mpr ⟨h1, h2⟩, h3⟩
    · rintro ⟨x, h1, h3⟩; exact ⟨x, (mem_recordsAt.mp h1).1, (mem_recordsAt.mp h1).2, h3⟩
  by_cases hc : HasType log r.name .CNAME
  · obtain ⟨c, hc1, hc2, hc3⟩ := hc
    have hc : HasType log r.name .CNAME := ⟨c, hc1, hc2, hc3⟩
    have hl := recordsAt_cname hx hc1 hc3
    rw [hc2] at hl
    simp only [hdup, hl, hc, if_true, List.mem_singleton, exists_eq_left]
    unfold Zone.addCheck
    by_cases ht : r.type = .CNAME
    · simp [hc3, ht]
    · have : ¬ RRType.CNAME = r.type := fun h => ht h.symm
      simp [this, hc3, ht]
  · rw [if_neg hc]
    by_cases ht : r.type = .CNAME
    · have hnd : ¬ Duplicate log r := by
        rintro ⟨x, h1, h2, h3, _⟩
        exact hc ⟨x, h1, h2, h3.trans ht⟩
      rw [if_neg hnd]
      by_cases ho : Owner log r.name
      · rw [if_pos ⟨ht, ho⟩]
        obtain ⟨x, h1, h2⟩ := ho
        have hne : recordsAt log r.name ≠ [] := List.ne_nil_of_mem (mem_recordsAt.mpr ⟨h1, h2⟩)
        cases hl : recordsAt log r.name with
        | nil => exact absurd hl hne
        | cons y ys =>
          have hy : y ∈ recordsAt log r.name := by rw [hl]; simp
          rw [mem_recordsAt] at hy
          have hyt : y.type ≠ .CNAME := fun h => hc ⟨y, hy.1, hy.2, h⟩
          unfold Zone.addCheck
          rw [if_neg (by rw [ht]; exact hyt), if_pos (Or.inr ht)]
      · rw [if_neg (by simp [ho]), if_neg (by simp [ht])]
        have : recordsAt log r.name = [] := by
          cases hl : recordsAt log r.name with
          | nil => rfl
          | cons y ys =>
            have hy : y ∈ recordsAt log r.name := by rw [hl]; simp
            rw [mem_recordsAt] at hy
            exact absurd ⟨y, hy⟩ ho
        rw [this]; rfl
    · rw [addCheck_plain r _ ht]
      · have hdn : HasType log r.name .DNAME ↔ ∃ x ∈ recordsAt log r.name, x.type = .DNAME := by
          unfold HasType
          constructor
          · rintro ⟨x, h1, h2, h3⟩; exact ⟨x, mem_recordsAt.mpr ⟨h1, h2⟩, h3⟩
          · rintro ⟨x, h1, h3⟩; exact ⟨x, (mem_recordsAt.mp h1).1, (mem_recordsAt.mp h1).2, h3⟩
        simp only [← hdup, ← hdn, ht, false_and, if_false]
      · intro x hx' h
        rw [mem_recordsAt] at hx'
        exact hc ⟨x, hx'.1, hx'.2, h⟩
      · have hp : (recordsAt log r.name).Pairwise (fun x y => x.name = y.name →
            x.type ≠ .CNAME ∧ y.type ≠ .CNAME ∧ ¬ (x.type = .DNAME ∧ y.type = .DNAME) ∧
            ¬ (x.type = y.type ∧ x.ttl = y.ttl ∧ x.rdata = y.rdata)) := List.Pairwise.filter _ hx
        refine List.Pairwise.imp_of_mem ?_ hp
        intro a b ha hb h
        rw [mem_recordsAt] at ha hb
        exact (h (ha.2.trans hb.2.symm)).2.2.1

end Groot
