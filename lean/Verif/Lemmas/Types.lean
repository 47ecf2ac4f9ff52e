import Verif.Lemmas.Names
import Mathlib.Data.List.Lex
import Mathlib.Data.List.Pairwise
import Mathlib.Tactic.ClearExcept

namespace Groot
open Spec

/-! ### String order and `std::set<string>` -/

theorem strLt_iff (a b : Str) : strLt a b = true ↔ StrLt a b := by
  unfold StrLt
  induction a generalizing b with
  | nil => cases b <;> simp [strLt]
  | cons x a ih =>
    cases b with
    | nil => simp [strLt]
    | cons y b =>
      simp only [strLt, List.map_cons, List.cons_lt_cons_iff]
      split
      · simp_all
      · split
        · simp; omega
        · rw [ih]
          have : x.toNat = y.toNat := by omega
          simp [this]

theorem char_toNat_inj : Function.Injective Char.toNat := by
  intro a b h
  exact Char.ext (UInt32.toNat_inj.mp h)

theorem StrLt_trans {a b c : Str} (h1 : StrLt a b) (h2 : StrLt b c) : StrLt a c := by
  unfold StrLt at *; exact List.lt_trans h1 h2

theorem StrLt_irrefl (a : Str) : ¬ StrLt a a := by
  unfold StrLt; exact List.lt_irrefl _

theorem StrLt_total (a b : Str) : StrLt a b ∨ a = b ∨ StrLt b a := by
  unfold StrLt
  rcases Nat.lt_or_ge 0 0 with h | _
  · omega
  · by_cases h1 : a.map Char.toNat < b.map Char.toNat
    · exact Or.inl h1
    · by_cases h2 : b.map Char.toNat < a.map Char.toNat
      · exact Or.inr (Or.inr h2)
      · right; left
        have h3 := List.le_antisymm (List.not_lt.mp h1) (List.not_lt.mp h2)
        exact (List.map_injective_iff.mpr char_toNat_inj) h3.symm

theorem mem_setInsert (x : Str) (l : List Str) (y : Str) : y ∈ setInsert x l ↔ y = x ∨ y ∈ l := by
  induction l with
  | nil => simp [setInsert]
  | cons z l ih =>
    unfold setInsert
    split
    · simp
    · split
      · simp [ih]; tauto
      · rename_i h1 h2
        have : x = z := by
          rcases StrLt_total x z with h | h | h
          · exact absurd ((strLt_iff _ _).mpr h) h1
          · exact h
          · exact absurd ((strLt_iff _ _).mpr h) h2
        subst this; simp

theorem setInsert_sorted (x : Str) (l : List Str) (h : l.Pairwise StrLt) : (setInsert x l).Pairwise StrLt := by
  induction l with
  | nil => simp [setInsert]
  | cons z l ih =>
    rw [List.pairwise_cons] at h
    unfold setInsert
    split
    · rename_i h1
      rw [strLt_iff] at h1
      refine List.pairwise_cons.mpr ⟨?_, List.pairwise_cons.mpr h⟩
      intro y hy
      rcases List.mem_cons.mp hy with rfl | hy
      · exact h1
      · exact StrLt_trans h1 (h.1 y hy)
    · split
      · rename_i h2
        rw [strLt_iff] at h2
        refine List.pairwise_cons.mpr ⟨?_, ih h.2⟩
        intro y hy
        rcases (mem_setInsert _ _ _).mp hy with rfl | hy
        · exact h2
        · exact h.1 y hy
      · exact List.pairwise_cons.mpr h

theorem sorted_ext (a b : List Str) (ha : a.Pairwise StrLt) (hb : b.Pairwise StrLt)
    (h : ∀ x, x ∈ a ↔ x ∈ b) : a = b := by
  induction a generalizing b with
  | nil =>
    cases b with
    | nil => rfl
    | cons y b => exact absurd ((h y).mpr (by simp)) (by simp)
  | cons x a ih =>
    cases b with
    | nil => exact absurd ((h x).mp (by simp)) (by simp)
    | cons y b =>
      rw [List.pairwise_cons] at ha hb
      have hxy : x = y := by
        have h1 := (h x).mp (by simp)
        have h2 := (h y).mpr (by simp)
        rcases List.mem_cons.mp h1 with h1 | h1
        · exact h1
        · rcases List.mem_cons.mp h2 with h2 | h2
          · exact h2.symm
          · exact absurd (StrLt_trans (ha.1 y h2) (hb.1 x h1)) (StrLt_irrefl _)
      subst hxy
      congr 1
      apply ih b ha.2 hb.2
      intro z
      have hz := h z
      simp only [List.mem_cons] at hz
      constructor
      · intro hm
        rcases hz.mp (Or.inr hm) with rfl | h1
        · exact absurd (ha.1 z hm) (StrLt_irrefl _)
        · exact h1
      · intro hm
        rcases hz.mpr (Or.inr hm) with rfl | h1
        · exact absurd (hb.1 z hm) (StrLt_irrefl _)
        · exact h1

/-! ### Type tables -/

theorem mnemonic_round (t : RRType) (m : String) (h : mnemonic t = some m) :
    typeToString t = .ok m.toList ∧ stringToType m.toList = t := by
  cases t <;> simp [mnemonic] at h <;> subst h <;> decide

theorem ite_cases {s m : Str} {a b t : RRType} (h : (if s = m then a else b) = t) :
    (s = m ∧ a = t) ∨ b = t := by
  by_cases hs : s = m
  · rw [if_pos hs] at h; exact Or.inl ⟨hs, h⟩
  · rw [if_neg hs] at h; exact Or.inr h

theorem stringToType_mnemonic (s : Str) (t : RRType) (h : stringToType s = t) (ht : t ≠ .N) :
    ∃ m, mnemonic t = some m ∧ s = m.toList := by
  unfold stringToType at h
  rcases ite_cases h with ⟨h1, h2⟩ | h
  · subst h2; exact ⟨_, rfl, h1⟩
  clear * - h ht
  rcases ite_cases h with ⟨h1, h2⟩ | h
  · subst h2; exact ⟨_, rfl, h1⟩
  clear * - h ht
  rcases ite_cases h with ⟨h1, h2⟩ | h
  · subst h2; exact ⟨_, rfl, h1⟩
  clear * - h ht
  rcases ite_cases h with ⟨h1, h2⟩ | h
  · subst h2; exact ⟨_, rfl, h1⟩
  clear * - h ht
  rcases ite_cases h with ⟨h1, h2⟩ | h
  · subst h2; exact ⟨_, rfl, h1⟩
  clear * - h ht
  rcases ite_cases h with ⟨h1, h2⟩ | h
  · subst h2; exact ⟨_, rfl, h1⟩
  clear * - h ht
  rcases ite_cases h with ⟨h1, h2⟩ | h
  · subst h2; exact ⟨_, rfl, h1⟩
  clear * - h ht
  rcases ite_cases h with ⟨h1, h2⟩ | h
  · subst h2; exact ⟨_, rfl, h1⟩
  clear * - h ht
  rcases ite_cases h with ⟨h1, h2⟩ | h
  · subst h2; exact ⟨_, rfl, h1⟩
  clear * - h ht
  rcases ite_cases h with ⟨h1, h2⟩ | h
  · subst h2; exact ⟨_, rfl, h1⟩
  clear * - h ht
  rcases ite_cases h with ⟨h1, h2⟩ | h
  · subst h2; exact ⟨_, rfl, h1⟩
  clear * - h ht
  rcases ite_cases h with ⟨h1, h2⟩ | h
  · subst h2; exact ⟨_, rfl, h1⟩
  clear * - h ht
  rcases ite_cases h with ⟨h1, h2⟩ | h
  · subst h2; exact ⟨_, rfl, h1⟩
  clear * - h ht
  exact absurd h.symm ht

theorem mnemonic_some (t : RRType) (ht : t ≠ .N) : ∃ m, mnemonic t = some m := by
  cases t <;> first | exact absurd rfl ht | exact ⟨_, rfl⟩

/-! ### `typesToString` -/

/-- The first loop of `typesToString` over the indexes below `k`. -/
def typeNamesBelow (ts : TypeSet) (k : Nat) : List Str :=
  (List.range k).foldl
    (fun acc i => if ts.getLsbD i then setInsert (typeToStringTable.getD i []) acc else acc) []

theorem typeNamesBelow_spec (ts : TypeSet) (k : Nat) :
    (typeNamesBelow ts k).Pairwise StrLt ∧
    ∀ s, s ∈ typeNamesBelow ts k ↔ ∃ i < k, ts.getLsbD i = true ∧ s = typeToStringTable.getD i [] := by
  induction k with
  | zero => simp [typeNamesBelow]
  | succ k ih =>
    have : typeNamesBelow ts (k + 1) =
        if ts.getLsbD k then setInsert (typeToStringTable.getD k []) (typeNamesBelow ts k)
        else typeNamesBelow ts k := by
      simp [typeNamesBelow, List.range_succ]
    rw [this]
    split
    · rename_i hk
      refine ⟨setInsert_sorted _ _ ih.1, fun s => ?_⟩
      rw [mem_setInsert, ih.2]
      constructor
      · rintro (rfl | ⟨i, hi, h1, h2⟩)
        · exact ⟨k, by omega, hk, rfl⟩
        · exact ⟨i, by omega, h1, h2⟩
      · rintro ⟨i, hi, h1, h2⟩
        rcases Nat.lt_or_ge i k with h | h
        · exact Or.inr ⟨i, h, h1, h2⟩
        · have : i = k := by omega
          subst this; exact Or.inl h2
    · rename_i hk
      refine ⟨ih.1, fun s => ?_⟩
      rw [ih.2]
      constructor
      · rintro ⟨i, hi, h⟩; exact ⟨i, by omega, h⟩
      · rintro ⟨i, hi, h1, h2⟩
        refine ⟨i, ?_, h1, h2⟩
        rcases Nat.lt_or_ge i k with h | h
        · exact h
        · have : i = k := by omega
          subst this; exact absurd h1 hk

theorem join_ne (acc : Str) (L : List Str) (h : acc ≠ []) :
    L.foldl (fun acc r => (if acc.length > 0 then acc ++ [' '] else acc) ++ r) acc =
      acc ++ (L.map (fun s => ' ' :: s)).flatten := by
  induction L generalizing acc with
  | nil => simp
  | cons x L ih =>
    have hp : acc.length > 0 := List.length_pos_iff.mpr h
    rw [List.foldl_cons, if_pos hp, ih _ (by simp)]
    simp

theorem join_eq (L : List Str) (h : ∀ s ∈ L, s ≠ []) :
    L.foldl (fun acc r => (if acc.length > 0 then acc ++ [' '] else acc) ++ r) [] =
      [' '].intercalate L := by
  cases L with
  | nil => rfl
  | cons x L =>
    rw [List.foldl_cons]
    simp only [List.length_nil, gt_iff_lt, Nat.lt_irrefl, if_false, List.nil_append]
    rw [join_ne x L (h x (by simp))]
    clear h
    induction L generalizing x with
    | nil => simp
    | cons y L ih =>
      rw [List.intercalate_cons_cons, ← ih y]
      simp

theorem table_idx (t : RRType) (m : String) (h : mnemonic t = some m) :
    typeToStringTable.getD t.idx [] = m.toList := by
  cases t <;> simp [mnemonic] at h <;> subst h <;> decide

theorem idx_surj (i : Nat) (h : i < 13) : ∃ t : RRType, t ≠ .N ∧ t.idx = i := by
  have : i = 0 ∨ i = 1 ∨ i = 2 ∨ i = 3 ∨ i = 4 ∨ i = 5 ∨ i = 6 ∨ i = 7 ∨ i = 8 ∨ i = 9 ∨ i = 10 ∨
    i = 11 ∨ i = 12 := by omega
  rcases this with rfl | rfl | rfl | rfl | rfl | rfl | rfl | rfl | rfl | rfl | rfl | rfl | rfl
  exacts [⟨.A, by decide, rfl⟩, ⟨.NS, by decide, rfl⟩, ⟨.CNAME, by decide, rfl⟩, ⟨.DNAME, by decide, rfl⟩,
    ⟨.SOA, by decide, rfl⟩, ⟨.PTR, by decide, rfl⟩, ⟨.MX, by decide, rfl⟩, ⟨.TXT, by decide, rfl⟩,
    ⟨.AAAA, by decide, rfl⟩, ⟨.SRV, by decide, rfl⟩, ⟨.RRSIG, by decide, rfl⟩, ⟨.NSEC, by decide, rfl⟩,
    ⟨.SPF, by decide, rfl⟩]

theorem idx_lt (t : RRType) (h : t ≠ .N) : t.idx < 13 := by
  cases t <;> first | exact absurd rfl h | decide

theorem idx_inj (s t : RRType) (h : s.idx = t.idx) : s = t := by
  cases s <;> cases t <;> first | rfl | (simp [RRType.idx] at h)

theorem typeNameSet_spec (ts : TypeSet) :
    (typeNameSet ts).Pairwise StrLt ∧
    ∀ s, s ∈ typeNameSet ts ↔ ∃ t m, Member ts t ∧ mnemonic t = some m ∧ s = m.toList := by
  have h := typeNamesBelow_spec ts 13
  refine ⟨h.1, fun s => ?_⟩
  rw [show typeNameSet ts = typeNamesBelow ts 13 from rfl, h.2]
  constructor
  · rintro ⟨i, hi, h1, h2⟩
    obtain ⟨t, ht, rfl⟩ := idx_surj i hi
    obtain ⟨m, hm⟩ := mnemonic_some t ht
    exact ⟨t, m, ⟨ht, h1⟩, hm, by rw [h2, table_idx t m hm]⟩
  · rintro ⟨t, m, ⟨ht, h1⟩, hm, rfl⟩
    exact ⟨t.idx, idx_lt t ht, h1, (table_idx t m hm).symm⟩

theorem mnemonic_ne_nil (t : RRType) (m : String) (h : mnemonic t = some m) : m.toList ≠ [] := by
  cases t <;> simp [mnemonic] at h <;> subst h <;> decide

theorem typesToString_eq (ts : TypeSet) : typesToString ts = [' '].intercalate (typeNameSet ts) := by
  unfold typesToString
  apply join_eq
  intro s hs
  obtain ⟨t, m, _, hm, rfl⟩ := ((typeNameSet_spec ts).2 s).mp hs
  exact mnemonic_ne_nil t m hm

/-! ### Bit sets -/

theorem has_iff (ts : TypeSet) (t : RRType) : ts.has t = true ↔ Member ts t := by
  unfold TypeSet.has Member
  constructor
  · intro h
    refine ⟨?_, h⟩
    rintro rfl
    simp [RRType.idx, BitVec.getLsbD_of_ge] at h
  · exact fun h => h.2

theorem has_N (ts : TypeSet) : ts.has .N = false := by
  simp [TypeSet.has, RRType.idx, BitVec.getLsbD_of_ge]

@[simp] theorem has_single (t s : RRType) : (TypeSet.single t).has s = decide (t = s ∧ t ≠ .N) := by
  unfold TypeSet.single TypeSet.has
  rw [BitVec.getLsbD_twoPow]
  by_cases hs : t = s
  · subst hs
    by_cases hN : t = .N
    · subst hN; simp [RRType.idx]
    · simp [hN, idx_lt t hN]
  · have : t.idx ≠ s.idx := fun h => hs (idx_inj _ _ h)
    simp [hs, this]

@[simp] theorem has_zero (t : RRType) : (0 : TypeSet).has t = false := by
  simp [TypeSet.has]

@[simp] theorem has_zero' (t : RRType) : TypeSet.has (0#13) t = false := has_zero t

@[simp] theorem has_or (a b : TypeSet) (t : RRType) : TypeSet.has (a ||| b) t = (a.has t || b.has t) := by
  simp [TypeSet.has, BitVec.getLsbD_or]

@[simp] theorem has_and (a b : TypeSet) (t : RRType) : TypeSet.has (a &&& b) t = (a.has t && b.has t) := by
  simp [TypeSet.has, BitVec.getLsbD_and]

@[simp] theorem has_xor (a b : TypeSet) (t : RRType) : TypeSet.has (a ^^^ b) t = (a.has t ^^ b.has t) := by
  simp [TypeSet.has, BitVec.getLsbD_xor]

theorem has_not (a : TypeSet) (t : RRType) (h : t ≠ .N) : TypeSet.has (~~~a) t = !a.has t := by
  simp [TypeSet.has, idx_lt t h]

@[simp] theorem has_add (a : TypeSet) (t s : RRType) :
    (a.add t).has s = (a.has s || decide (t = s ∧ t ≠ .N)) := by
  simp [TypeSet.add]

theorem has_remove (a : TypeSet) (t s : RRType) (ht : t ≠ .N) :
    (a.remove t).has s = (a.has s && decide (t ≠ s)) := by
  by_cases hs : s = .N
  · subst hs; simp [has_N]
  · unfold TypeSet.remove
    rw [has_and, has_not _ _ hs]
    simp [ht]

theorem typeSet_ext (a b : TypeSet) (h : ∀ t, a.has t = b.has t) : a = b := by
  apply BitVec.eq_of_getLsbD_eq
  intro i hi
  obtain ⟨t, _, rfl⟩ := idx_surj i hi
  exact h t

theorem mem_supported (t : RRType) : t ∈ RRType.supported ↔ t ≠ .N := by
  cases t <;> simp [RRType.supported]

theorem count_eq_zero (a : TypeSet) : a.count = 0 ↔ a = 0 := by
  unfold TypeSet.count
  rw [List.length_eq_zero_iff, List.filter_eq_nil_iff]
  constructor
  · intro h
    apply typeSet_ext
    intro t
    by_cases ht : t = .N
    · subst ht; simp [has_N]
    · have := h t ((mem_supported t).mpr ht)
      simp [this]
  · rintro rfl; simp

theorem count_pos (a : TypeSet) : a.count > 0 ↔ ∃ t, Member a t := by
  rw [gt_iff_lt, Nat.pos_iff_ne_zero, Ne, count_eq_zero]
  constructor
  · intro h
    by_contra hn
    apply h
    apply typeSet_ext
    intro t
    cases hh : TypeSet.has a t with
    | false => simp
    | true => exact absurd ⟨t, (has_iff _ _).mp hh⟩ hn
  · rintro ⟨t, ht⟩ rfl
    have := (has_iff _ _).mpr ht
    simp at this

theorem count_eq_one (a : TypeSet) (t : RRType) (ht : Member a t) :
    a.count = 1 ↔ ∀ s, Member a s → s = t := by
  unfold TypeSet.count
  have hmem : ∀ s, s ∈ RRType.supported.filter (fun t => TypeSet.has a t) ↔ Member a s := by
    intro s
    rw [List.mem_filter, mem_supported, has_iff]
    exact ⟨fun h => h.2, fun h => ⟨h.1, h⟩⟩
  have hnd : (RRType.supported.filter (fun t => TypeSet.has a t)).Nodup := by
    exact List.Pairwise.filter _ (by decide : RRType.supported.Nodup)
  rw [List.length_eq_one_iff]
  constructor
  · rintro ⟨x, hx⟩ s hs
    have h1 := (hmem s).mpr hs
    have h2 := (hmem t).mpr ht
    rw [hx] at h1 h2
    simp at h1 h2
    rw [h1, h2]
  · intro h
    refine ⟨t, ?_⟩
    have hall : ∀ x ∈ RRType.supported.filter (fun t => TypeSet.has a t), x = t :=
      fun x hx => h x ((hmem x).mp hx)
    have hin := (hmem t).mpr ht
    revert hnd hall hin
    generalize RRType.supported.filter (fun t => TypeSet.has a t) = L
    intro hnd hall hin
    match L, hnd, hall, hin with
    | [x], _, hall, _ => rw [hall x (by simp)]
    | x :: y :: L, hnd, hall, _ =>
      have h1 := hall x (by simp)
      have h2 := hall y (by simp)
      subst h1
      simp [h2] at hnd

end Groot
