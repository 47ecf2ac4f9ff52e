import Verif.Lemmas.Outcome2
import Mathlib.Data.List.Basic

/-! # Delegation and infinite rewriting on transcripts -/

namespace Groot
open Spec

theorem getLast_filter {α : Type} {P : α → Bool} {l : List α} {x : α} :
    (l.filter P).getLast? = some x ↔ ∃ A B, l = A ++ x :: B ∧ P x = true ∧ ∀ b ∈ B, P b = false := by
  constructor
  · intro h
    rw [List.getLast?_eq_some_iff] at h
    obtain ⟨ys, h⟩ := h
    obtain ⟨A, r, rfl, h1, h2⟩ := List.filter_eq_append_iff.mp h
    obtain ⟨B, C, rfl, h3, h4, h5⟩ := List.filter_eq_cons_iff.mp h2
    refine ⟨A ++ B, C, by simp, h4, ?_⟩
    simpa using h5
  · rintro ⟨A, B, rfl, h1, h2⟩
    rw [List.filter_append, List.filter_cons_of_pos h1, List.getLast?_append]
    have : B.filter P = [] := by rw [List.filter_eq_nil_iff]; intro b hb; simp [h2 b hb]
    rw [this]; rfl

theorem consecutive_cons2 (v u : Nat) (r : List Nat) : consecutive (v :: u :: r) = (v, u) :: consecutive (u :: r) := rfl

theorem consecutive_split (a : List Nat) (x y : Nat) (b : List Nat) :
    consecutive (a ++ x :: y :: b) = consecutive (a ++ [x]) ++ (x, y) :: consecutive (y :: b) := by
  induction a with
  | nil => rfl
  | cons z a ih =>
    cases a with
    | nil => rfl
    | cons z' a =>
      simp only [List.cons_append] at ih ⊢
      rw [consecutive_cons2, ih, consecutive_cons2]; rfl

theorem consecutive_unsplit {x : Nat × Nat} {B : List (Nat × Nat)} : ∀ {A : List (Nat × Nat)} {p : List Nat}, consecutive p = A ++ x :: B →
    ∃ a b, p = a ++ x.1 :: x.2 :: b ∧ B = consecutive (x.2 :: b) := by
  intro A
  induction A with
  | nil =>
    intro p h
    match p with
    | [] => cases h
    | [v] => cases h
    | v :: u :: r =>
      rw [consecutive_cons2, List.nil_append, List.cons.injEq] at h
      obtain ⟨rfl, h⟩ := h
      exact ⟨[], r, rfl, h.symm⟩
  | cons y A ih =>
    intro p h
    match p with
    | [] => cases h
    | [v] => cases h
    | v :: u :: r =>
      rw [consecutive_cons2, List.cons_append, List.cons.injEq] at h
      obtain ⟨a, b, e, h1⟩ := ih h.2
      exact ⟨v :: a, b, by rw [e]; rfl, h1⟩

theorem view_hands (g : IG) (v u : Nat) : (view g v).Hands (view g 0).ask (view g u) ↔ Delegates g (g.vtx 0).query.name (v, u) := by
  unfold Visit.Hands Delegates
  rw [view_tells, view_tells, view_head, view_records]
  rfl

theorem reports_delegation {g : IG} {us : List Nat} (h : ResolutionPath g (0 :: us)) :
    ∃ y, PathFn.run g (0 :: us) .delegation = .ok y ∧ ∀ v, v ∈ y ↔ Reports (view g 0).ask (us.map (view g)) v .delegation := by
  refine ⟨_, C45_delegation_consistency g 0 us h, fun v => ?_⟩
  have key : ∀ x y : Nat, ((consecutive (0 :: us)).filter (fun x => decide (Delegates g (g.vtx 0).query.name x))).getLast? = some (x, y) ↔
      ∃ a b, us = a ++ x :: y :: b ∧ Delegates g (g.vtx 0).query.name (x, y) ∧ ∀ z ∈ consecutive (y :: b), ¬ Delegates g (g.vtx 0).query.name z := by
    intro x y
    rw [getLast_filter]
    constructor
    · rintro ⟨A, B, e, h1, h2⟩
      have h1 : Delegates g (g.vtx 0).query.name (x, y) := by simpa using h1
      obtain ⟨a, b, e', rfl⟩ := consecutive_unsplit e
      cases a with
      | nil =>
        simp only [List.nil_append, List.cons.injEq] at e'
        exact absurd (e'.1 ▸ h1.1) (root_silent h _)
      | cons c a =>
        simp only [List.cons_append, List.cons.injEq] at e'
        refine ⟨a, b, e'.2, h1, fun z hz => by simpa using h2 z hz⟩
    · rintro ⟨a, b, e, h1, h2⟩
      refine ⟨consecutive (0 :: a ++ [x]), consecutive (y :: b), ?_, by simpa using h1, fun z hz => by simpa using h2 z hz⟩
      rw [e, ← List.cons_append, consecutive_split]
  have later : ∀ (y : Nat) (b : List Nat), (∀ z ∈ consecutive (y :: b), ¬ Delegates g (g.vtx 0).query.name z) ↔
      ∀ pre' x' y' post', view g y :: b.map (view g) = pre' ++ x' :: y' :: post' → ¬ x'.Hands (view g 0).ask y' := by
    intro y b
    constructor
    · intro h1 pre' x' y' post' e
      rw [← List.map_cons] at e
      obtain ⟨c, u, u', d, e1, -, rfl, rfl, -⟩ := map_split2 e
      rw [view_hands]
      exact h1 (u, u') (mem_consecutive.mpr ⟨c, d, e1⟩)
    · intro h1 z hz
      obtain ⟨c, d, e⟩ := mem_consecutive.mp hz
      have := h1 (c.map (view g)) (view g z.1) (view g z.2) (d.map (view g)) (by rw [← List.map_cons, e]; simp)
      rwa [view_hands] at this
  unfold Reports
  constructor
  · intro hv
    split at hv
    · cases hv
    · rename_i x y e
      dsimp only at hv
      obtain ⟨a, b, e1, h1, h2⟩ := (key x y).mp e
      refine ⟨a.map (view g), view g x, view g y, b.map (view g), by rw [e1]; simp, (view_hands _ _ _).mpr h1, (later y b).mp h2, ?_⟩
      rw [view_records, view_records, view_show]
      split at hv
      · cases hv
      · rename_i hso
        refine ⟨not_not.mp hso, ?_⟩
        rcases List.mem_append.mp hv with hv | hv
        · split at hv
          · cases hv
          · rename_i hc
            exact .inl ⟨hc, List.mem_singleton.mp hv⟩
        · split at hv
          · cases hv
          · rename_i hc
            exact .inr ⟨hc, List.mem_singleton.mp hv⟩
  · rintro ⟨pre, x, y, post, e, h1, h2, h3, h4⟩
    obtain ⟨a, u, u', b, e1, -, rfl, rfl, rfl⟩ := map_split2 e
    rw [(key u u').mpr ⟨a, b, e1, (view_hands _ _ _).mp h1, (later u' b).mpr h2⟩]
    dsimp only
    rw [view_records, view_records] at h3 h4
    rw [if_neg (not_not.mpr h3)]
    rw [view_show] at h4
    rcases h4 with ⟨h4, rfl⟩ | ⟨h4, rfl⟩
    · rw [if_neg h4]; exact List.mem_append_left _ (List.mem_singleton.mpr rfl)
    · rw [if_neg h4]; exact List.mem_append_right _ (List.mem_singleton.mpr rfl)

/-! ### Infinite rewriting -/

/-- A use as it is shown. -/
def viewUse (g : IG) (x : Nat × RR) : Visit × RR := (view g x.1, x.2)

theorem usesOf_view (g : IG) (us : List Nat) : usesOf (us.map (view g)) = (uses g us).map (viewUse g) := by
  unfold usesOf uses
  induction us with
  | nil => rfl
  | cons u us ih =>
    rw [List.map_cons]
    by_cases ha : Answers g u .REWRITE
    · rw [List.filter_cons_of_pos (by simpa using (view_tells g u _).mpr ha), List.filter_cons_of_pos (by simpa using ha), List.flatMap_cons,
        List.flatMap_cons, ih, List.map_append, List.map_map]
      rfl
    · rw [List.filter_cons_of_neg (by simpa using fun h => ha ((view_tells g u _).mp h)), List.filter_cons_of_neg (by simpa using ha), ih]

theorem uses_root {g : IG} {us : List Nat} (h : ResolutionPath g (0 :: us)) : uses g (0 :: us) = uses g us := by
  unfold uses
  rw [List.filter_cons_of_neg (by simpa using root_silent h _)]

theorem regrows_view {g : IG} {us : List (Nat × RR)} {x y : Nat × RR} (h : Regrowth g us x y) : Regrows (us.map (viewUse g)) (viewUse g x) (viewUse g y) := by
  obtain ⟨a, b, c, rfl, h1, h2, h3⟩ := h
  refine ⟨a.map (viewUse g), b.map (viewUse g), c.map (viewUse g), by simp, h1, ?_, h3⟩
  intro z hz
  obtain ⟨z, hz', rfl⟩ := List.mem_map.mp hz
  exact h2 z hz'

theorem regrows_unview {g : IG} {us : List (Nat × RR)} {X Y : Visit × RR} (h : Regrows (us.map (viewUse g)) X Y) : ∃ x y, Regrowth g us x y := by
  obtain ⟨a, b, c, e, h1, h2, h3⟩ := h
  rw [List.append_assoc] at e
  obtain ⟨a', x, r, rfl, -, rfl, e1⟩ := map_split1 e
  obtain ⟨b', y, c', rfl, rfl, rfl, -⟩ := map_split1 e1
  exact ⟨x, y, a', b', c', by simp, h1, fun z hz => h2 _ (List.mem_map_of_mem hz), h3⟩

theorem Spec.Regrows.append {us vs : List (Visit × RR)} {x y : Visit × RR} (h : Regrows us x y) : Regrows (us ++ vs) x y := by
  obtain ⟨a, b, c, rfl, h1, h2, h3⟩ := h
  exact ⟨a, b, c ++ vs, by simp, h1, h2, h3⟩

/-- The first place where a rewriting regrows is unique. -/
theorem regrows_first {all pre post pre' post' : List (Visit × RR)} {x y x' y' : Visit × RR} (e : all = pre ++ y :: post) (hr : Regrows (pre ++ [y]) x y)
    (hn : ∀ a b, ¬ Regrows pre a b) (e' : all = pre' ++ y' :: post') (hr' : Regrows (pre' ++ [y']) x' y') (hn' : ∀ a b, ¬ Regrows pre' a b) :
    pre = pre' ∧ y = y' ∧ x = x' := by
  have hle : ∀ {pre post pre' post' : List (Visit × RR)} {x y y' : Visit × RR}, pre ++ y :: post = pre' ++ y' :: post' → Regrows (pre ++ [y]) x y →
      (∀ a b, ¬ Regrows pre' a b) → ¬ pre.length < pre'.length := by
    intro pre post pre' post' x y y' e hr hn hlt
    have : (pre ++ [y]) <+: pre' := by
      apply List.prefix_of_prefix_length_le (l₃ := pre ++ y :: post) ⟨post, by simp⟩ (by rw [e]; exact ⟨_, rfl⟩)
      simp; omega
    obtain ⟨t, rfl⟩ := this
    exact hn _ _ hr.append
  have e2 : pre ++ y :: post = pre' ++ y' :: post' := e.symm.trans e'
  have hlen : pre.length = pre'.length := by
    have h1 := hle e2 hr hn'
    have h2 := hle e2.symm hr' hn
    omega
  obtain ⟨rfl, e3⟩ := List.append_inj e2 hlen
  rw [List.cons.injEq] at e3
  obtain ⟨rfl, -⟩ := e3
  refine ⟨rfl, rfl, ?_⟩
  have last : ∀ {x : Visit × RR}, Regrows (pre ++ [y]) x y → ∃ a b, pre = a ++ x :: b ∧ key x.2 = key y.2 ∧ ∀ z ∈ b, key z.2 ≠ key y.2 := by
    rintro x ⟨a, b, c, e, h1, h2, h3⟩
    cases c using List.reverseRecOn with
    | nil =>
      have := (List.append_inj' e rfl).1
      exact ⟨a, b, this, h1, h2⟩
    | append_singleton c d =>
      rw [← List.cons_append, ← List.append_assoc] at e
      have := (List.append_inj' e rfl).1
      exact absurd ⟨a, b, c, this, h1, h2, h3⟩ (hn x y)
  obtain ⟨a, b, ea, h1, h2⟩ := last hr
  obtain ⟨a', b', ea', h1', h2'⟩ := last hr'
  have hle2 : ∀ {a b a' b' : List (Visit × RR)} {x x' : Visit × RR}, a ++ x :: b = a' ++ x' :: b' → key x'.2 = key y.2 → (∀ z ∈ b, key z.2 ≠ key y.2) →
      ¬ a.length < a'.length := by
    intro a b a' b' x x' e hk hb hlt
    have : (a ++ [x]) <+: a' := by
      apply List.prefix_of_prefix_length_le (l₃ := a ++ x :: b) ⟨b, by simp⟩ (by rw [e]; exact ⟨_, rfl⟩)
      simp; omega
    obtain ⟨t, rfl⟩ := this
    simp only [List.append_assoc, List.cons_append, List.nil_append] at e
    have := List.append_cancel_left e
    rw [List.cons.injEq] at this
    exact hb x' (by rw [this.2]; simp) hk
  have e4 := ea.symm.trans ea'
  have hlen : a.length = a'.length := by
    have h3 := hle2 e4 h1' h2
    have h4 := hle2 e4.symm h1 h2'
    omega
  have := (List.append_inj e4 hlen).2
  rw [List.cons.injEq] at this
  exact this.1

theorem reports_infiniteDname {g : IG} {us : List Nat} (h : ResolutionPath g (0 :: us)) (hs : ∀ x ∈ uses g (0 :: us), x.2.type ≠ .N) :
    ∃ y, PathFn.run g (0 :: us) .infiniteDname = .ok y ∧ (∀ v ∈ y, Reports (view g 0).ask (us.map (view g)) v .infiniteDname) ∧
      ∀ v, Reports (view g 0).ask (us.map (view g)) v .infiniteDname → ∃ v' ∈ y, Alike v v' := by
  obtain ⟨ys, h1, h2, h3, h4⟩ := C52_infinite_dname g _ h hs
  have hsound : ∀ v ∈ ys, Reports (view g 0).ask (us.map (view g)) v .infiniteDname := by
    intro v hv
    obtain ⟨pre, x, y, post, used, e1, e2, e3, e4, rfl⟩ := h4 v hv
    refine ⟨pre.map (viewUse g), viewUse g x, viewUse g y, post.map (viewUse g), used, ?_, ?_, ?_, ?_, ?_⟩
    · rw [usesOf_view, ← uses_root h, e1]; simp
    · have := regrows_view e2; simpa using this
    · intro a b hab
      obtain ⟨x, y, hxy⟩ := regrows_unview hab
      exact e3 _ _ hxy
    · rw [List.map_map]; exact e4
    · unfold viewUse; rw [view_show, view_show]
  refine ⟨ys, h1, hsound, ?_⟩
  intro v hv
  have hv' := hv
  obtain ⟨pre, x, y, post, used, e1, e2, e3, e4, rfl⟩ := hv
  have hne : ys ≠ [] := by
    rw [h2]
    apply regrows_unview (g := g) (X := x) (Y := y)
    rw [uses_root h, ← usesOf_view, e1]
    have := e2.append (vs := post)
    simpa using this
  obtain ⟨v', hm⟩ := List.exists_mem_of_ne_nil _ hne
  refine ⟨v', hm, ?_⟩
  obtain ⟨pre', x', y', post', used', f1, f2, f3, f4, rfl⟩ := hsound v' hm
  obtain ⟨rfl, rfl, rfl⟩ := regrows_first e1 e2 e3 f1 f2 f3
  exact .inr ⟨_, _, _, _, rfl, rfl, e4.trans f4.symm⟩

/-- Every path check on a path is what it says about the transcript. -/
theorem reports_run {w : World} {a0 : Ask} {g : IG} (hi : BInv w a0 g []) (hw : WellFormed w) {us : List Nat} (h : ResolutionPath g (0 :: us)) (f : PathFn)
    (hf : f.Configured) : ∃ y, f.run g (0 :: us) = .ok y ∧ (∀ v ∈ y, Reports a0 (us.map (view g)) v f) ∧
      ∀ v, Reports a0 (us.map (view g)) v f → ∃ v' ∈ y, Alike v v' := by
  have e0 : (view g 0).ask = a0 := hi.core.root.2.2
  rw [← e0]
  have mk : ∀ {f : PathFn}, (∃ y, f.run g (0 :: us) = .ok y ∧ ∀ v, v ∈ y ↔ Reports (view g 0).ask (us.map (view g)) v f) →
      ∃ y, f.run g (0 :: us) = .ok y ∧ (∀ v ∈ y, Reports (view g 0).ask (us.map (view g)) v f) ∧
        ∀ v, Reports (view g 0).ask (us.map (view g)) v f → ∃ v' ∈ y, Alike v v' := by
    rintro f ⟨y, h1, h2⟩
    exact ⟨y, h1, fun v hv => (h2 v).mp hv, fun v hv => ⟨v, (h2 v).mpr hv, .inl rfl⟩⟩
  cases f with
  | misfit b => exact hf.elim
  | hops n => exact mk (reports_hops h n)
  | rewrites n => exact mk (reports_rewrites h n)
  | delegation => exact mk (reports_delegation h)
  | infiniteDname => exact reports_infiniteDname h (fun x hx => hi.supported_uses hw hx)
  | lame => exact mk (reports_lame h)
  | queryRewrite ds => exact mk (reports_queryRewrite h ds hf)
  | nsContact ds => exact mk (reports_nsContact h ds hf)
  | blackholing => exact mk (reports_blackholing h)
  | allAliases ns => exact mk (reports_allAliases h ns)
  | dnameLength => exact mk (reports_dnameLength h)

end Groot
