import Verif.Spec.Json
import Verif.Lemmas.Types
import Mathlib.Tactic.SplitIfs
import Mathlib.Order.Compare

/-!
# Lemmas about JSON values: order, sets, objects
-/

namespace Groot

open Spec

namespace Json

theorem cmpStr_eq {a b : Str} : cmpStr a b = .eq ↔ a = b := by
  unfold cmpStr
  constructor
  · intro h
    split_ifs at h with h1 h2
    rcases StrLt_total a b with h | h | h
    · exact absurd ((strLt_iff _ _).mpr h) h1
    · exact h
    · exact absurd ((strLt_iff _ _).mpr h) h2
  · rintro rfl
    rw [if_neg (fun h => StrLt_irrefl _ ((strLt_iff _ _).mp h)), if_neg (fun h => StrLt_irrefl _ ((strLt_iff _ _).mp h))]

theorem cmpStr_lt {a b : Str} : cmpStr a b = .lt ↔ StrLt a b := by
  unfold cmpStr
  rw [← strLt_iff]
  constructor
  · intro h; split_ifs at h with h1; exact h1
  · intro h; rw [if_pos h]

theorem cmpStr_gt {a b : Str} : cmpStr a b = .gt ↔ StrLt b a := by
  unfold cmpStr
  rw [← strLt_iff]
  constructor
  · intro h; split_ifs at h with h1 h2; exact h2
  · intro h
    rw [if_neg (fun h1 => StrLt_irrefl _ (StrLt_trans ((strLt_iff _ _).mp h1) ((strLt_iff _ _).mp h))), if_pos h]

theorem cmpStr_swap (a b : Str) : cmpStr b a = (cmpStr a b).swap := by
  rcases StrLt_total a b with h | h | h
  · rw [cmpStr_lt.mpr h, cmpStr_gt.mpr h]; rfl
  · rw [cmpStr_eq.mpr h, cmpStr_eq.mpr h.symm]; rfl
  · rw [cmpStr_gt.mpr h, cmpStr_lt.mpr h]; rfl

mutual

theorem cmp_eq : ∀ (a b : Json), cmp a b = .eq ↔ a = b
  | .null, b => by cases b <;> simp [cmp, rank]
  | .int a, b => by cases b <;> simp [cmp, rank]
  | .str a, b => by
    cases b <;> simp [cmp, rank]
    exact cmpStr_eq
  | .arr a, b => by
    cases b <;> simp [cmp, rank]
    exact cmpArr_eq a _
  | .obj a, b => by
    cases b <;> simp [cmp, rank]
    exact cmpObj_eq a _

theorem cmpArr_eq : ∀ (a b : List Json), cmpArr a b = .eq ↔ a = b
  | [], [] => by simp [cmpArr]
  | [], _ :: _ => by simp [cmpArr]
  | _ :: _, [] => by simp [cmpArr]
  | x :: xs, y :: ys => by
    unfold cmpArr
    have h1 := cmp_eq x y
    have h2 := cmpArr_eq xs ys
    split
    · rename_i h
      rw [h2, List.cons.injEq]
      exact ⟨fun e => ⟨h1.mp h, e⟩, fun e => e.2⟩
    · rename_i h
      rw [List.cons.injEq]
      exact ⟨fun e => absurd e h, fun e => absurd (h1.mpr e.1) h⟩

theorem cmpObj_eq : ∀ (a b : List (Str × Json)), cmpObj a b = .eq ↔ a = b
  | [], [] => by simp [cmpObj]
  | [], _ :: _ => by simp [cmpObj]
  | _ :: _, [] => by simp [cmpObj]
  | (k, x) :: xs, (l, y) :: ys => by
    unfold cmpObj
    have h0 := @cmpStr_eq k l
    have h1 := cmp_eq x y
    have h2 := cmpObj_eq xs ys
    split
    · rename_i hk
      split
      · rename_i h
        rw [h2, List.cons.injEq, Prod.mk.injEq]
        exact ⟨fun e => ⟨⟨h0.mp hk, h1.mp h⟩, e⟩, fun e => e.2⟩
      · rename_i h
        rw [List.cons.injEq, Prod.mk.injEq]
        exact ⟨fun e => absurd e h, fun e => absurd (h1.mpr e.1.2) h⟩
    · rename_i h
      rw [List.cons.injEq, Prod.mk.injEq]
      exact ⟨fun e => absurd e h, fun e => absurd (h0.mpr e.1.1) h⟩

end

instance : DecidableEq Json := fun a b => decidable_of_iff _ (cmp_eq a b)

theorem compare_swap_int (a b : Int) : compare b a = (compare a b).swap := by
  rw [Int.compare_swap]

mutual

theorem cmp_swap : ∀ (a b : Json), cmp b a = (cmp a b).swap
  | .null, b => by cases b <;> rfl
  | .int a, b => by
    cases b with
    | int b => simp only [cmp]; exact compare_swap_int a b
    | _ => rfl
  | .str a, b => by
    cases b with
    | str b => simp only [cmp]; exact cmpStr_swap a b
    | _ => rfl
  | .arr a, b => by
    cases b with
    | arr b => simp only [cmp]; exact cmpArr_swap a b
    | _ => rfl
  | .obj a, b => by
    cases b with
    | obj b => simp only [cmp]; exact cmpObj_swap a b
    | _ => rfl

theorem cmpArr_swap : ∀ (a b : List Json), cmpArr b a = (cmpArr a b).swap
  | [], [] => by simp [cmpArr]
  | [], _ :: _ => by simp [cmpArr]
  | _ :: _, [] => by simp [cmpArr]
  | x :: xs, y :: ys => by
    unfold cmpArr
    have h1 := cmp_swap x y
    have h2 := cmpArr_swap xs ys
    rw [h1]
    cases h : cmp x y <;> simp [h2]

theorem cmpObj_swap : ∀ (a b : List (Str × Json)), cmpObj b a = (cmpObj a b).swap
  | [], [] => by simp [cmpObj]
  | [], _ :: _ => by simp [cmpObj]
  | _ :: _, [] => by simp [cmpObj]
  | (k, x) :: xs, (l, y) :: ys => by
    unfold cmpObj
    have h0 := cmpStr_swap k l
    have h1 := cmp_swap x y
    have h2 := cmpObj_swap xs ys
    rw [h0, h1]
    cases h' : cmpStr k l <;> cases h : cmp x y <;> simp [h2]

end

theorem cmp_lt_rank {a b : Json} (h : cmp a b = .lt) : a.rank ≤ b.rank := by
  cases a <;> cases b <;> first | (simp only [rank]; omega) | (exact absurd h (fun h => nomatch h))

mutual

theorem cmp_trans : ∀ (a b c : Json), cmp a b = .lt → cmp b c = .lt → cmp a c = .lt
  | .null, b, c, h1, h2 => by
    have r1 := cmp_lt_rank h1
    have r2 := cmp_lt_rank h2
    cases b <;> cases c <;> first | rfl | (simp [rank] at r1 r2; done) | (simp [cmp, rank] at h1 h2; done)
  | .int a, b, c, h1, h2 => by
    have r1 := cmp_lt_rank h1
    have r2 := cmp_lt_rank h2
    cases b <;> cases c <;> first
      | rfl
      | (simp [rank] at r1 r2; done)
      | (simp only [cmp, Int.compare_eq_lt] at h1 h2 ⊢; omega)
  | .str a, b, c, h1, h2 => by
    have r1 := cmp_lt_rank h1
    have r2 := cmp_lt_rank h2
    cases b <;> cases c <;> first
      | rfl
      | (simp [rank] at r1 r2; done)
      | (simp only [cmp, cmpStr_lt] at h1 h2 ⊢; exact StrLt_trans h1 h2)
  | .arr a, b, c, h1, h2 => by
    have r1 := cmp_lt_rank h1
    have r2 := cmp_lt_rank h2
    cases b <;> cases c <;> first
      | rfl
      | (simp [rank] at r1 r2; done)
      | (simp only [cmp] at h1 h2 ⊢; exact cmpArr_trans a _ _ h1 h2)
  | .obj a, b, c, h1, h2 => by
    have r1 := cmp_lt_rank h1
    have r2 := cmp_lt_rank h2
    cases b <;> cases c <;> first
      | rfl
      | (simp [rank] at r1 r2; done)
      | (simp only [cmp] at h1 h2 ⊢; exact cmpObj_trans a _ _ h1 h2)

theorem cmpArr_trans : ∀ (a b c : List Json), cmpArr a b = .lt → cmpArr b c = .lt → cmpArr a c = .lt
  | [], _, [], h1, h2 => by
    rename_i b
    cases b with
    | nil => cases h1
    | cons y ys => cases h2
  | [], _, _ :: _, _, _ => rfl
  | _ :: _, [], _, h1, _ => by cases h1
  | _ :: _, _ :: _, [], _, h2 => by cases h2
  | x :: xs, y :: ys, z :: zs, h1, h2 => by
    unfold cmpArr at *
    have k := cmp_trans x y z
    have k2 := cmpArr_trans xs ys zs
    cases e1 : cmp x y <;> cases e2 : cmp y z <;> rw [e1] at h1 <;> rw [e2] at h2 <;> try (cases h1; done)
    · rw [k e1 e2]
    · rw [(cmp_eq y z).mp e2] at e1
      rw [e1]
    · cases h2
    · rw [(cmp_eq x y).mp e1, e2]
    · rw [(cmp_eq x y).mp e1, e2]
      exact k2 h1 h2
    · cases h2

theorem cmpObj_trans : ∀ (a b c : List (Str × Json)), cmpObj a b = .lt → cmpObj b c = .lt → cmpObj a c = .lt
  | [], _, [], h1, h2 => by
    rename_i b
    cases b with
    | nil => cases h1
    | cons y ys => cases h2
  | [], _, _ :: _, _, _ => rfl
  | _ :: _, [], _, h1, _ => by cases h1
  | _ :: _, _ :: _, [], _, h2 => by cases h2
  | (k, x) :: xs, (l, y) :: ys, (m, z) :: zs, h1, h2 => by
    unfold cmpObj at *
    have t := cmp_trans x y z
    have t2 := cmpObj_trans xs ys zs
    cases e1 : cmpStr k l <;> cases e2 : cmpStr l m <;> rw [e1] at h1 <;> rw [e2] at h2 <;> try (cases h1; done)
    · rw [cmpStr_lt.mpr (StrLt_trans (cmpStr_lt.mp e1) (cmpStr_lt.mp e2))]
    · rw [cmpStr_eq.mp e2] at e1
      rw [e1]
    · cases h2
    · rw [cmpStr_eq.mp e1, e2]
    · rw [cmpStr_eq.mp e1, e2]
      dsimp only at h1 h2 ⊢
      cases f1 : cmp x y <;> cases f2 : cmp y z <;> rw [f1] at h1 <;> rw [f2] at h2 <;> try (cases h1; done)
      · rw [t f1 f2]
      · rw [(cmp_eq y z).mp f2] at f1
        rw [f1]
      · cases h2
      · rw [(cmp_eq x y).mp f1, f2]
      · rw [(cmp_eq x y).mp f1, f2]
        exact t2 h1 h2
      · cases h2
    · cases h2

end

/-- `operator<`. -/
def Before (a b : Json) : Prop := cmp a b = .lt

theorem Before.irrefl (a : Json) : ¬ Before a a := by
  intro h
  unfold Before at h
  rw [(cmp_eq a a).mpr rfl] at h
  cases h

theorem Before.trans {a b c : Json} (h1 : Before a b) (h2 : Before b c) : Before a c := cmp_trans a b c h1 h2

theorem mem_setInsert (j x : Json) (l : List Json) : x ∈ setInsert j l ↔ x = j ∨ x ∈ l := by
  induction l with
  | nil => simp [setInsert]
  | cons y ys ih =>
    unfold setInsert
    split
    · simp
    · rename_i h
      have := (cmp_eq j y).mp h
      subst this
      simp
    · rw [List.mem_cons, List.mem_cons, ih]
      tauto

theorem setInsert_sorted (j : Json) (l : List Json) (h : l.Pairwise Before) : (setInsert j l).Pairwise Before := by
  induction l with
  | nil => simp [setInsert]
  | cons y ys ih =>
    rw [List.pairwise_cons] at h
    unfold setInsert
    split
    · rename_i hc
      rw [List.pairwise_cons]
      refine ⟨?_, List.pairwise_cons.mpr h⟩
      intro x hx
      rcases List.mem_cons.mp hx with rfl | hx
      · exact hc
      · exact Before.trans hc (h.1 x hx)
    · exact List.pairwise_cons.mpr h
    · rename_i hc
      rw [List.pairwise_cons]
      refine ⟨?_, ih h.2⟩
      intro x hx
      rcases (mem_setInsert _ _ _).mp hx with rfl | hx
      · unfold Before
        rw [cmp_swap, hc]
        rfl
      · exact h.1 x hx

theorem before_ext : ∀ (a b : List Json), a.Pairwise Before → b.Pairwise Before → (∀ x, x ∈ a ↔ x ∈ b) → a = b
  | [], [], _, _, _ => rfl
  | [], y :: ys, _, _, h => by have := (h y).mpr (by simp); cases this
  | x :: xs, [], _, _, h => by have := (h x).mp (by simp); cases this
  | x :: xs, y :: ys, ha, hb, h => by
    rw [List.pairwise_cons] at ha hb
    have hxy : x = y := by
      rcases List.mem_cons.mp ((h x).mp (by simp)) with e | h1
      · exact e
      rcases List.mem_cons.mp ((h y).mpr (by simp)) with e | h2
      · exact e.symm
      exact absurd (Before.trans (ha.1 y h2) (hb.1 x h1)) (Before.irrefl _)
    subst hxy
    rw [before_ext xs ys ha.2 hb.2 (fun z => ?_)]
    constructor
    · intro hz
      rcases List.mem_cons.mp ((h z).mp (by simp [hz])) with e | h1
      · subst e; exact absurd (ha.1 _ hz) (Before.irrefl _)
      · exact h1
    · intro hz
      rcases List.mem_cons.mp ((h z).mpr (by simp [hz])) with e | h1
      · subst e; exact absurd (hb.1 _ hz) (Before.irrefl _)
      · exact h1

end Json

theorem violationSet_spec (ord : List Str → List Str) (vs : List Violation) :
    (Driver.violationSet ord vs).Pairwise Json.Before ∧ ∀ j, j ∈ Driver.violationSet ord vs ↔ ∃ v ∈ vs, j = v.toJson ord := by
  have key : ∀ (vs : List Violation) (s : List Json), s.Pairwise Json.Before →
      (vs.foldl (fun s v => Json.setInsert (v.toJson ord) s) s).Pairwise Json.Before ∧
        ∀ j, j ∈ vs.foldl (fun s v => Json.setInsert (v.toJson ord) s) s ↔ j ∈ s ∨ ∃ v ∈ vs, j = v.toJson ord := by
    intro vs
    induction vs with
    | nil => intro s hs; exact ⟨hs, by simp⟩
    | cons v vs ih =>
      intro s hs
      rw [List.foldl_cons]
      obtain ⟨h1, h2⟩ := ih _ (Json.setInsert_sorted (v.toJson ord) s hs)
      refine ⟨h1, fun j => ?_⟩
      rw [h2, Json.mem_setInsert]
      simp only [List.mem_cons, exists_eq_or_imp]
      tauto
  have := key vs [] .nil
  refine ⟨this.1, fun j => ?_⟩
  unfold Driver.violationSet
  rw [this.2]
  simp

end Groot
