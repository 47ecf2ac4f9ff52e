import Verif.Spec.Concurrency
import Verif.Lemmas.Types
import Verif.Lemmas.Names
import Mathlib.Data.List.Nodup

/-! # The JSON consumer's bookkeeping -/

namespace Groot

open Spec Driver

theorem addAlias_keys (c q : Str) (l : List (Str × List Str)) :
    (addAlias c q l).map Prod.fst = if c ∈ l.map Prod.fst then l.map Prod.fst else l.map Prod.fst ++ [c] := by
  induction l with
  | nil => simp [addAlias]
  | cons x l ih =>
    obtain ⟨c', qs⟩ := x
    unfold addAlias
    by_cases h : c' = c
    · simp [h]
    · simp only [h, if_false, List.map_cons, ih, List.mem_cons]
      have : ¬ c = c' := fun e => h e.symm
      by_cases h2 : c ∈ l.map Prod.fst <;> simp [h2, this]

theorem mem_addAlias {c q : Str} {l : List (Str × List Str)} (hk : (l.map Prod.fst).Nodup) (c' : Str) (qs : List Str) :
    (c', qs) ∈ addAlias c q l ↔
      (c' ≠ c ∧ (c', qs) ∈ l) ∨ (c' = c ∧ ((∃ old, (c, old) ∈ l ∧ qs = setInsert q old) ∨ ((∀ old, (c, old) ∉ l) ∧ qs = [q]))) := by
  induction l with
  | nil => simp [addAlias]
  | cons x l ih =>
    obtain ⟨k, old⟩ := x
    simp only [List.map_cons, List.nodup_cons] at hk
    have ih := ih hk.2
    unfold addAlias
    by_cases h : k = c
    · subst h
      have hno : ∀ o, (k, o) ∉ l := fun o ho => hk.1 (List.mem_map.mpr ⟨_, ho, rfl⟩)
      rw [if_pos rfl, List.mem_cons, Prod.mk.injEq]
      simp only [List.mem_cons, Prod.mk.injEq]
      constructor
      · rintro (⟨rfl, rfl⟩ | h1)
        · exact .inr ⟨rfl, .inl ⟨old, .inl ⟨trivial, rfl⟩, rfl⟩⟩
        · refine .inl ⟨?_, .inr h1⟩
          rintro rfl; exact hno _ h1
      · rintro (⟨h1, ⟨h2, -⟩ | h2⟩ | ⟨rfl, ⟨o, ⟨-, rfl⟩ | ho, rfl⟩ | ⟨h1, -⟩⟩)
        · exact absurd h2 h1
        · exact .inr h2
        · exact .inl ⟨rfl, rfl⟩
        · exact absurd ho (hno _)
        · exact absurd (.inl ⟨trivial, rfl⟩) (h1 old)
    · simp only [h, if_false, List.mem_cons, Prod.mk.injEq, ih]
      have h' : ¬ c = k := fun e => h e.symm
      constructor
      · rintro (⟨rfl, rfl⟩ | ⟨h1, h2⟩ | ⟨rfl, ⟨o, ho, rfl⟩ | ⟨h1, rfl⟩⟩)
        · exact .inl ⟨h, .inl ⟨rfl, rfl⟩⟩
        · exact .inl ⟨h1, .inr h2⟩
        · exact .inr ⟨rfl, .inl ⟨o, .inr ho, rfl⟩⟩
        · refine .inr ⟨rfl, .inr ⟨?_, rfl⟩⟩
          rintro o (⟨h2, -⟩ | h2)
          · exact h' h2
          · exact h1 _ h2
      · rintro (⟨h1, h2 | h2⟩ | ⟨rfl, ⟨o, ⟨ho, -⟩ | ho, rfl⟩ | ⟨h1, rfl⟩⟩)
        · exact .inl h2
        · exact .inr (.inl ⟨h1, h2⟩)
        · exact absurd ho h'
        · exact .inr (.inr ⟨rfl, .inl ⟨o, ho, rfl⟩⟩)
        · exact .inr (.inr ⟨rfl, .inr ⟨fun o ho => h1 o (.inr ho), rfl⟩⟩)

theorem Spec.AliasGroups.nil : AliasGroups [] [] := ⟨by simp, by simp, by simp⟩

theorem Spec.AliasGroups.congr {a b : List Violation} {g : List (Str × List Str)} (h : AliasGroups a g)
    (hab : ∀ q c, Violation.alias q c ∈ a ↔ Violation.alias q c ∈ b) : AliasGroups b g :=
  ⟨h.keys, fun c qs hc => ⟨(h.members c qs hc).1, (h.members c qs hc).2.1, fun q => ((h.members c qs hc).2.2 q).trans (hab q c)⟩,
   fun q c hq => h.all q c ((hab q c).mpr hq)⟩

theorem Spec.AliasGroups.add {items : List Violation} {g : List (Str × List Str)} (h : AliasGroups items g) (q c : Str) :
    AliasGroups (items ++ [.alias q c]) (addAlias c q g) := by
  refine ⟨?_, ?_, ?_⟩
  · rw [addAlias_keys]
    split
    · exact h.keys
    · rename_i hc
      rw [List.nodup_append]
      refine ⟨h.keys, by simp, ?_⟩
      intro a ha b hb
      rw [List.mem_singleton] at hb
      subst hb
      rintro rfl; exact hc ha
  · intro c' qs hc
    rcases (mem_addAlias h.keys _ _).mp hc with ⟨hne, hm⟩ | ⟨rfl, ⟨old, ho, rfl⟩ | ⟨hno, rfl⟩⟩
    · obtain ⟨h1, h2, h3⟩ := h.members _ _ hm
      refine ⟨h1, h2, fun q' => ?_⟩
      rw [h3]
      simp [hne]
    · obtain ⟨h1, h2, h3⟩ := h.members _ _ ho
      refine ⟨?_, setInsert_sorted _ _ h2, fun q' => ?_⟩
      · intro e
        have : q ∈ setInsert q old := (mem_setInsert _ _ _).mpr (.inl rfl)
        rw [e] at this; simp at this
      · rw [mem_setInsert, h3]
        simp [or_comm]
    · refine ⟨by simp, by simp, fun q' => ?_⟩
      have hni : ∀ q', Violation.alias q' c' ∉ items := fun q' hq => by
        obtain ⟨qs, hqs⟩ := h.all q' c' hq
        exact hno _ hqs
      simp [hni]
  · intro q' c' hq
    rw [List.mem_append, List.mem_singleton] at hq
    by_cases hc : c' = c
    · subst hc
      by_cases ho : ∃ old, (c', old) ∈ g
      · obtain ⟨old, ho⟩ := ho
        exact ⟨_, (mem_addAlias h.keys _ _).mpr (.inr ⟨rfl, .inl ⟨old, ho, rfl⟩⟩)⟩
      · push Not at ho
        exact ⟨_, (mem_addAlias h.keys _ _).mpr (.inr ⟨rfl, .inr ⟨ho, rfl⟩⟩)⟩
    · rcases hq with hq | hq
      · obtain ⟨qs, hqs⟩ := h.all _ _ hq
        exact ⟨qs, (mem_addAlias h.keys _ _).mpr (.inl ⟨hc, hqs⟩)⟩
      · cases hq; exact absurd rfl hc

theorem collect_fold (before : List Violation) (items done : List Violation) (st : List Violation × List (Str × List Str))
    (h1 : ∀ v, v ∈ st.1 ↔ v ∈ before ∨ (v ∈ done ∧ Direct v)) (h2 : AliasGroups done st.2) (h3 : before.Nodup → st.1.Nodup) :
    (∀ v, v ∈ (items.foldl collectOne st).1 ↔ v ∈ before ∨ (v ∈ done ++ items ∧ Direct v)) ∧
    AliasGroups (done ++ items) (items.foldl collectOne st).2 ∧ (before.Nodup → (items.foldl collectOne st).1.Nodup) := by
  induction items generalizing done st with
  | nil => simpa using ⟨h1, h2, h3⟩
  | cons x items ih =>
    have e : done ++ x :: items = (done ++ [x]) ++ items := by simp
    rw [List.foldl_cons, e]
    have hd : ∀ x : Violation, (Direct x ∧ collectOne st x = (if x ∈ st.1 then st.1 else st.1 ++ [x], st.2)) ∨
        (∃ q c, x = .alias q c) := by
      intro x
      cases x <;> first | exact .inr ⟨_, _, rfl⟩ | exact .inl ⟨trivial, rfl⟩
    rcases hd x with ⟨hx, ex⟩ | ⟨q, c, rfl⟩
    · rw [ex]
      refine ih _ _ ?_ ?_ ?_
      · intro v
        have : v ∈ (if x ∈ st.1 then st.1 else st.1 ++ [x]) ↔ v ∈ st.1 ∨ v = x := by
          split
          · rename_i hm
            constructor
            · exact .inl
            · rintro (h | rfl)
              · exact h
              · exact hm
          · simp
        rw [this, h1]
        simp only [List.mem_append, List.mem_singleton]
        constructor
        · rintro ((h | h) | rfl)
          · exact .inl h
          · exact .inr ⟨.inl h.1, h.2⟩
          · exact .inr ⟨.inr rfl, hx⟩
        · rintro (h | ⟨h | h, h'⟩)
          · exact .inl (.inl h)
          · exact .inl (.inr ⟨h, h'⟩)
          · exact .inr h
      · refine h2.congr ?_
        intro q c
        rw [List.mem_append, List.mem_singleton]
        constructor
        · exact .inl
        · rintro (h | rfl)
          · exact h
          · exact absurd hx (by simp [Direct])
      · intro hb
        show (if x ∈ st.1 then st.1 else st.1 ++ [x]).Nodup
        split
        · exact h3 hb
        · rename_i hm
          rw [List.nodup_append]
          refine ⟨h3 hb, by simp, ?_⟩
          intro a ha b hb
          rw [List.mem_singleton] at hb
          subst hb
          rintro rfl; exact hm ha
    · refine ih _ _ ?_ (h2.add q c) h3
      intro v
      show v ∈ st.1 ↔ _
      rw [h1]
      simp only [List.mem_append, List.mem_singleton]
      constructor
      · rintro (h | h)
        · exact .inl h
        · exact .inr ⟨.inl h.1, h.2⟩
      · rintro (h | ⟨h | rfl, h'⟩)
        · exact .inl h
        · exact .inr ⟨h, h'⟩
        · exact absurd h' (by simp [Direct])

theorem Spec.AliasGroups.eq_nil_iff {items : List Violation} {g : List (Str × List Str)} (h : AliasGroups items g) :
    g = [] ↔ ∀ q c, Violation.alias q c ∉ items := by
  constructor
  · rintro rfl q c hq
    obtain ⟨qs, hqs⟩ := h.all q c hq
    simp at hqs
  · intro hn
    cases g with
    | nil => rfl
    | cons x g =>
      obtain ⟨c, qs⟩ := x
      obtain ⟨h1, -, h3⟩ := h.members c qs (by simp)
      obtain ⟨q, qs', rfl⟩ := List.exists_cons_of_ne_nil h1
      exact absurd ((h3 q).mp (by simp)) (hn q c)

theorem Spec.AliasGroups.perm {a b : List Violation} {g g' : List (Str × List Str)} (h : AliasGroups a g) (h' : AliasGroups b g')
    (hab : ∀ q c, Violation.alias q c ∈ a ↔ Violation.alias q c ∈ b) : g.Perm g' := by
  have sub : ∀ {a b : List Violation} {g g' : List (Str × List Str)}, AliasGroups a g → AliasGroups b g' →
      (∀ q c, Violation.alias q c ∈ a ↔ Violation.alias q c ∈ b) → ∀ x ∈ g, x ∈ g' := by
    intro a b g g' h h' hab x hx
    obtain ⟨c, qs⟩ := x
    obtain ⟨h1, h2, h3⟩ := h.members c qs hx
    obtain ⟨q, qs0, rfl⟩ := List.exists_cons_of_ne_nil h1
    obtain ⟨qs', hq'⟩ := h'.all q c ((hab q c).mp ((h3 q).mp (by simp)))
    obtain ⟨-, h5, h6⟩ := h'.members c qs' hq'
    have : q :: qs0 = qs' := sorted_ext _ _ h2 h5 (fun y => by rw [h3, h6, hab])
    rw [this]; exact hq'
  have nd : ∀ {a : List Violation} {g : List (Str × List Str)}, AliasGroups a g → g.Nodup :=
    fun h => List.Nodup.of_map _ h.keys
  rw [List.perm_ext_iff_of_nodup (nd h) (nd h')]
  intro x
  exact ⟨sub h h' hab x, sub h' h (fun q c => (hab q c).symm) x⟩

theorem collect_spec (before items : List Violation) : ∃ groups, AliasGroups items groups ∧
    (∀ v, v ∈ collect before items ↔ v ∈ before ∨ (v ∈ items ∧ Direct v) ∨
      ((∃ q c, Violation.alias q c ∈ items) ∧ v = .allAliases groups)) ∧ (before.Nodup → (collect before items).Nodup) := by
  obtain ⟨h1, h2, h3⟩ := collect_fold before items [] (before, []) (by simp) Spec.AliasGroups.nil id
  rw [List.nil_append] at h1 h2
  refine ⟨_, h2, ?_, ?_⟩
  · intro v
    have hne : (items.foldl collectOne (before, [])).2.length ≠ 0 ↔ ∃ q c, Violation.alias q c ∈ items := by
      rw [Ne, List.length_eq_zero_iff, h2.eq_nil_iff]
      push Not
      rfl
    unfold collect
    dsimp only
    split
    · rename_i hl
      split
      · rename_i hm
        rw [h1]
        constructor
        · rintro (h | h)
          · exact .inl h
          · exact .inr (.inl h)
        · rintro (h | h | ⟨-, rfl⟩)
          · exact .inl h
          · exact .inr h
          · exact (h1 _).mp hm
      · rw [List.mem_append, List.mem_singleton, h1]
        have := hne.mp hl
        tauto
    · rename_i hl
      rw [h1]
      have := fun h => hl (hne.mpr h)
      constructor
      · rintro (h | h)
        · exact .inl h
        · exact .inr (.inl h)
      · rintro (h | h | h)
        · exact .inl h
        · exact .inr h
        · exact absurd h.1 this
  · intro hb
    unfold collect
    dsimp only
    split
    · split
      · exact h3 hb
      · rename_i hm
        rw [List.nodup_append]
        refine ⟨h3 hb, by simp, ?_⟩
        intro a ha b hb
        rw [List.mem_singleton] at hb
        subst hb
        rintro rfl; exact hm ha
    · exact h3 hb

end Groot
