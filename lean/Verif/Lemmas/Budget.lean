import Verif.Lemmas.Disjoint

/-! # A larger recursion budget changes nothing -/

namespace Groot
open Spec

theorem foldlM_mono {σ ε : Type} {f f' : σ → ε → Res σ} (h : ∀ s e r, f s e = .ok r → f' s e = .ok r) (l : List ε) :
    ∀ s r, l.foldlM f s = .ok r → l.foldlM f' s = .ok r := by
  induction l with
  | nil => intro s r hx; exact hx
  | cons e l ih =>
    intro s r hx
    rw [List.foldlM_cons] at hx ⊢
    rcases hf : f s e with x | _ | _ | _ | _ <;> simp only [hf, Res.ok_bind, Res.exit_bind, Res.throw_bind, Res.ub_bind, Res.oof_bind, reduceCtorEq] at hx
    rw [h s e x hf]
    exact ih x r hx

theorem bind_ok_iff {α β : Type} {x : Res α} {f : α → Res β} {b : β} : (x >>= f) = .ok b ↔ ∃ a, x = .ok a ∧ f a = .ok b := by
  cases x <;> simp

theorem searchNode_mono : ∀ (fuel : Nat) (g : LGraph) (v : Nat) (rest : List Label) (i : Nat) r,
    LGraph.searchNode fuel g v rest i = .ok r → LGraph.searchNode (fuel + 1) g v rest i = .ok r := by
  intro fuel
  induction fuel with
  | zero => intro g v rest i r h; rw [LGraph.searchNode] at h; cases h
  | succ fuel ih =>
    intro g v rest i r h
    cases rest with
    | nil => unfold LGraph.searchNode at h ⊢; exact h
    | cons l ls =>
      unfold LGraph.searchNode at h ⊢
      dsimp only at h ⊢
      split at h
      · rename_i hc; rw [if_pos hc]; exact h
      · rename_i hc
        rw [if_neg hc]
        obtain ⟨x, h1, h2⟩ := bind_ok_iff.mp h
        refine bind_ok_iff.mpr ⟨x, ?_, ?_⟩
        · refine foldlM_mono ?_ _ _ _ h1
          intro s e r hr
          split at hr
          · rename_i he
            rw [if_pos he]
            obtain ⟨y, h3, h4⟩ := bind_ok_iff.mp hr
            exact bind_ok_iff.mpr ⟨y, ih _ _ _ _ _ h3, h4⟩
          · rename_i he
            rw [if_neg he]; exact hr
        · cases hcd : LGraph.child x.1 v l with
          | none => rw [hcd] at h2; exact h2
          | some u =>
            rw [hcd] at h2
            dsimp only at h2 ⊢
            obtain ⟨y, h3, h4⟩ := bind_ok_iff.mp h2
            exact bind_ok_iff.mpr ⟨y, ih _ _ _ _ _ h3, h4⟩

theorem subDomainECs_mono (types : TypeSet) : ∀ (fuel : Nat) (g : LGraph) (v : Nat) (p : Name) (skip s : Bool) r,
    LGraph.subDomainECs types fuel g v p skip s = .ok r → LGraph.subDomainECs types (fuel + 1) g v p skip s = .ok r := by
  intro fuel
  induction fuel with
  | zero => intro g v p skip s r h; rw [LGraph.subDomainECs] at h; cases h
  | succ fuel ih =>
    intro g v p skip s r h
    rw [subDomainECs_succ] at h ⊢
    split at h
    · rename_i hc; rw [if_pos hc]; exact h
    · rename_i hc
      rw [if_neg hc]
      split at h
      · rename_i hc'; rw [if_pos hc']; exact h
      · rename_i hc'
        rw [if_neg hc']
        dsimp only at h ⊢
        obtain ⟨x, h1, h2⟩ := bind_ok_iff.mp h
        refine bind_ok_iff.mpr ⟨x, ?_, h2⟩
        refine foldlM_mono ?_ _ _ _ h1
        intro st e r hr
        obtain ⟨y, h3, h4⟩ := bind_ok_iff.mp hr
        refine bind_ok_iff.mpr ⟨y, ?_, h4⟩
        unfold edgeCall at h3 ⊢
        split at h3
        · rename_i he; rw [if_pos he]; exact ih _ _ _ _ _ _ h3
        · rename_i he; rw [if_neg he]; exact ih _ _ _ _ _ _ h3

theorem generateECs_mono (fuel : Nat) (g : LGraph) (job : LGraph.Req) (r : LGraph × List Task)
    (h : LGraph.generateECs fuel g job = .ok r) : LGraph.generateECs (fuel + 1) g job = .ok r := by
  unfold LGraph.generateECs at h ⊢
  dsimp only at h ⊢
  split at h
  · rename_i hc; rw [if_pos hc]; exact h
  · rename_i hc
    rw [if_neg hc]
    obtain ⟨x, h1, h2⟩ := bind_ok_iff.mp h
    refine bind_ok_iff.mpr ⟨x, searchNode_mono _ _ _ _ _ _ h1, ?_⟩
    rcases hx : x.2 with _ | ⟨e, es⟩
    · rw [hx] at h2; exact h2
    · rw [hx] at h2
      dsimp only at h2 ⊢
      split at h2
      · rename_i hc; rw [if_pos hc]; exact h2
      · rename_i hc
        rw [if_neg hc]
        split at h2
        · rename_i hc; rw [if_pos hc]
          split at h2
          · rename_i hc; rw [if_pos hc]
            refine foldlM_mono ?_ _ _ _ h2
            intro st e r hr
            obtain ⟨y, h3, h4⟩ := bind_ok_iff.mp hr
            exact bind_ok_iff.mpr ⟨y, subDomainECs_mono _ _ _ _ _ _ _ _ h3, h4⟩
          · rename_i hc; rw [if_neg hc]; exact h2
        · rename_i hc; rw [if_neg hc]; exact h2

theorem mono_le {α : Type} {f : Nat → Res α} (hf : ∀ n r, f n = .ok r → f (n + 1) = .ok r) {a b : Nat} (hab : a ≤ b) {r : α}
    (h : f a = .ok r) : f b = .ok r := by
  induction hab with
  | refl => exact h
  | step _ ih => exact hf _ _ ih

/-- Results for different budgets agree. -/
theorem mono_agree {α : Type} {f : Nat → Res α} (hf : ∀ n r, f n = .ok r → f (n + 1) = .ok r) {a b : Nat} {r r' : α}
    (h : f a = .ok r) (h' : f b = .ok r') : r = r' := by
  rcases Nat.le_total a b with hab | hab
  · have := mono_le hf hab h; rw [h'] at this; cases this; rfl
  · have := mono_le hf hab h'; rw [h] at this; cases this; rfl

end Groot
