import Verif.Lemmas.Outcome

/-! # Each path check on a path is what it says about the transcript -/

namespace Groot
open Spec

theorem map_split2 {α β : Type} {f : α → β} {us : List α} {pre post : List β} {x y : β} (h : us.map f = pre ++ x :: y :: post) :
    ∃ a u v b, us = a ++ u :: v :: b ∧ a.map f = pre ∧ f u = x ∧ f v = y ∧ b.map f = post := by
  obtain ⟨a, r, rfl, h1, h2⟩ := List.map_eq_append_iff.mp h
  obtain ⟨u, r, rfl, h3, h4⟩ := List.map_eq_cons_iff.mp h2
  obtain ⟨v, b, rfl, h5, h6⟩ := List.map_eq_cons_iff.mp h4
  exact ⟨a, u, v, b, rfl, h1, h3, h5, h6⟩

theorem map_split1 {α β : Type} {f : α → β} {us : List α} {pre post : List β} {x : β} (h : us.map f = pre ++ x :: post) :
    ∃ a u b, us = a ++ u :: b ∧ a.map f = pre ∧ f u = x ∧ b.map f = post := by
  obtain ⟨a, r, rfl, h1, h2⟩ := List.map_eq_append_iff.mp h
  obtain ⟨u, b, rfl, h3, h4⟩ := List.map_eq_cons_iff.mp h2
  exact ⟨a, u, b, rfl, h1, h3, h4⟩

section
variable {g : IG} {us : List Nat}

/-- Of the consecutive nodes of a path, those of which the first answers. -/
theorem consecutive_tail {v0 : Nat} (h0 : ∀ t, ¬ Answers g v0 t) {x : Nat × Nat} {t : Tag} (ha : Answers g x.1 t) :
    x ∈ consecutive (v0 :: us) ↔ ∃ a b, us = a ++ x.1 :: x.2 :: b := by
  rw [mem_consecutive]
  constructor
  · rintro ⟨a, b, e⟩
    cases a with
    | nil =>
      simp only [List.nil_append, List.cons.injEq] at e
      exact absurd (e.1 ▸ ha) (h0 t)
    | cons c a =>
      simp only [List.cons_append, List.cons.injEq] at e
      exact ⟨a, b, e.2⟩
  · rintro ⟨a, b, e⟩
    exact ⟨v0 :: a, b, by rw [e]; rfl⟩

variable (h : ResolutionPath g (0 :: us))
include h

theorem root_silent : ∀ t, ¬ Answers g 0 t := by
  obtain ⟨w0, rest', e, h1, h2, h3⟩ := h
  cases e
  intro t; simp [Answers, firstAns, h2]

theorem rest_servers : ∀ u ∈ us, (g.vtx u).ns ≠ [] := by
  obtain ⟨w0, rest', e, h1, h2, h3⟩ := h
  cases e
  exact fun u hu => (h3 u hu).1

theorem root_ns : (g.vtx 0).ns = [] := by
  obtain ⟨w0, rest', e, h1, h2, h3⟩ := h
  cases e
  exact h1

theorem servers_view : servers g (0 :: us) = (us.map (view g)).map (·.server) := by
  unfold servers
  rw [List.map_cons, List.filter_cons_of_neg (by simp [root_ns h]), List.map_map]
  rw [List.filter_eq_self.mpr]
  · rfl
  · intro s hs
    obtain ⟨u, hu, rfl⟩ := List.mem_map.mp hs
    simp [rest_servers h u hu]

theorem filter_view (t : Tag) : ((0 :: us).filter (fun v => decide (Answers g v t))).length =
    ((us.map (view g)).filter (fun x => decide (x.Tells t))).length := by
  rw [List.filter_cons_of_neg (by simp [root_silent h]), List.filter_map, List.length_map]
  congr 1
  apply List.filter_congr
  intro u _
  simp only [Function.comp]
  exact decide_eq_decide.mpr (view_tells g u t).symm

theorem reports_hops (n : Int) : ∃ y, PathFn.run g (0 :: us) (.hops n) = .ok y ∧ ∀ v, v ∈ y ↔ Reports (view g 0).ask (us.map (view g)) v (.hops n) := by
  refine ⟨_, C39_hops g n 0 us h, fun v => ?_⟩
  rw [servers_view h, ← view_show]
  unfold Reports
  split
  · rename_i hc
    rw [List.mem_singleton]
    exact ⟨fun e => ⟨hc.1, hc.2, e⟩, fun e => e.2.2⟩
  · rename_i hc
    constructor
    · intro hv; cases hv
    · rintro ⟨h1, h2, _⟩; exact absurd ⟨h1, h2⟩ hc

theorem reports_rewrites (n : Int) :
    ∃ y, PathFn.run g (0 :: us) (.rewrites n) = .ok y ∧ ∀ v, v ∈ y ↔ Reports (view g 0).ask (us.map (view g)) v (.rewrites n) := by
  refine ⟨_, C40_rewrites g n 0 us h, fun v => ?_⟩
  rw [filter_view h, ← view_show]
  unfold Reports
  split
  · rename_i hc
    rw [List.mem_singleton]
    exact ⟨fun e => ⟨_, rfl, hc, e⟩, fun ⟨k, e, _, e'⟩ => by rw [← e]; exact e'⟩
  · rename_i hc
    constructor
    · intro hv; cases hv
    · rintro ⟨k, h1, h2, _⟩; exact absurd (h1 ▸ h2) hc

theorem reports_lame : ∃ y, PathFn.run g (0 :: us) .lame = .ok y ∧ ∀ v, v ∈ y ↔ Reports (view g 0).ask (us.map (view g)) v .lame := by
  refine ⟨_, C44_lame_delegation g 0 us h, fun v => ?_⟩
  rw [List.mem_map]
  unfold Reports
  constructor
  · rintro ⟨x, hx, rfl⟩
    rw [List.mem_filter, decide_eq_true_eq] at hx
    obtain ⟨hx, h1, h2, h3⟩ := hx
    obtain ⟨a, b, e⟩ := (consecutive_tail (root_silent h) h1).mp hx
    refine ⟨a.map (view g), view g x.1, view g x.2, b.map (view g), by rw [e]; simp, (view_tells _ _ _).mpr h1, (view_tells _ _ _).mpr h2, h3, ?_⟩
    rw [view_show]; rfl
  · rintro ⟨pre, x, y, post, e, h1, h2, h3, rfl⟩
    obtain ⟨a, u, u', b, e1, -, rfl, rfl, -⟩ := map_split2 e
    have h1 := (view_tells _ _ _).mp h1
    refine ⟨(u, u'), ?_, by rw [view_show]; rfl⟩
    rw [List.mem_filter, decide_eq_true_eq]
    exact ⟨(consecutive_tail (root_silent h) h1).mpr ⟨a, b, e1⟩, h1, (view_tells _ _ _).mp h2, h3⟩

theorem reports_queryRewrite (ds : List Name) (hd : ds ≠ []) :
    ∃ y, PathFn.run g (0 :: us) (.queryRewrite ds) = .ok y ∧ ∀ v, v ∈ y ↔ Reports (view g 0).ask (us.map (view g)) v (.queryRewrite ds) := by
  refine ⟨_, C41_query_rewrite g ds hd _ h, fun v => ?_⟩
  rw [List.mem_map]
  unfold Reports
  constructor
  · rintro ⟨x, hx, rfl⟩
    rw [List.mem_filter, decide_eq_true_eq] at hx
    obtain ⟨hx, h1, h2⟩ := hx
    obtain ⟨a, b, e⟩ := (consecutive_tail (root_silent h) h1).mp hx
    refine ⟨a.map (view g), view g x.1, view g x.2, b.map (view g), by rw [e]; simp, (view_tells _ _ _).mpr h1, h2, ?_⟩
    rw [view_show, view_show]; rfl
  · rintro ⟨pre, x, y, post, e, h1, h2, rfl⟩
    obtain ⟨a, u, u', b, e1, -, rfl, rfl, -⟩ := map_split2 e
    have h1 := (view_tells _ _ _).mp h1
    refine ⟨(u, u'), ?_, by rw [view_show, view_show]; rfl⟩
    rw [List.mem_filter, decide_eq_true_eq]
    exact ⟨(consecutive_tail (root_silent h) h1).mpr ⟨a, b, e1⟩, h1, h2⟩

theorem reports_nsContact (ds : List Name) (hd : ds ≠ []) :
    ∃ y, PathFn.run g (0 :: us) (.nsContact ds) = .ok y ∧ ∀ v, v ∈ y ↔ Reports (view g 0).ask (us.map (view g)) v (.nsContact ds) := by
  refine ⟨_, C42_ns_contact g ds hd _, fun v => ?_⟩
  rw [List.mem_map]
  unfold Reports
  constructor
  · rintro ⟨x, hx, rfl⟩
    rw [List.mem_filter, decide_eq_true_eq] at hx
    obtain ⟨hx, h1, h2⟩ := hx
    rcases List.mem_cons.mp hx with rfl | hx
    · exact absurd (root_ns h) h1
    · exact ⟨view g x, List.mem_map_of_mem hx, h2, by rw [view_show]; rfl⟩
  · rintro ⟨x, hx, h1, rfl⟩
    obtain ⟨u, hu, rfl⟩ := List.mem_map.mp hx
    refine ⟨u, ?_, by rw [view_show]; rfl⟩
    rw [List.mem_filter, decide_eq_true_eq]
    exact ⟨List.mem_cons_of_mem _ hu, rest_servers h u hu, h1⟩

theorem reports_allAliases (ns : List Name) :
    ∃ y, PathFn.run g (0 :: us) (.allAliases ns) = .ok y ∧ ∀ v, v ∈ y ↔ Reports (view g 0).ask (us.map (view g)) v (.allAliases ns) := by
  obtain ⟨y, h1, h2⟩ := C50_all_aliases g ns _ h
  refine ⟨y, h1, fun v => ?_⟩
  rw [h2]
  unfold Reports
  have hb : ∀ u, (view g u).ask.below = false ↔ (g.vtx u).query.excluded = none := by
    intro u
    unfold view ask
    simp
  constructor
  · rintro ⟨a, x, b, u, c, e, h3, h4, h5, rfl⟩
    cases a with
    | nil =>
      simp only [List.nil_append, List.cons_append, List.cons.injEq] at e
      exact absurd (e.1 ▸ h3) (root_silent h _)
    | cons z a =>
      simp only [List.cons_append, List.cons.injEq] at e
      refine ⟨a.map (view g), view g x, b.map (view g), view g u, c.map (view g), by rw [e.2]; simp, (view_tells _ _ _).mpr h3, h4, (hb u).mpr h5, ?_⟩
      rw [view_show, view_show]
  · rintro ⟨pre, x, mid, y, post, e, h3, h4, h5, rfl⟩
    rw [List.append_assoc] at e
    obtain ⟨a, x, r, rfl, -, rfl, e1⟩ := map_split1 e
    obtain ⟨b, u, c, rfl, -, rfl, -⟩ := map_split1 e1
    exact ⟨0 :: a, x, b, u, c, by simp, (view_tells _ _ _).mp h3, h4, (hb u).mp h5, by rw [view_show, view_show]⟩

theorem reports_dnameLength : ∃ y, PathFn.run g (0 :: us) .dnameLength = .ok y ∧ ∀ v, v ∈ y ↔ Reports (view g 0).ask (us.map (view g)) v .dnameLength := by
  obtain ⟨last, hl⟩ : ∃ l, (0 :: us).getLast? = some l := ⟨_, List.getLast?_eq_some_getLast (by simp)⟩
  refine ⟨_, C51_dname_length g 0 us last hl h, fun v => ?_⟩
  unfold Reports
  split
  · rename_i hc
    rw [List.mem_singleton]
    constructor
    · rintro rfl
      cases us using List.reverseRecOn with
      | nil => simp at hl; subst hl; exact absurd hc (root_silent h _)
      | append_singleton us u =>
        have : u = last := by
          rw [← List.cons_append, List.getLast?_append] at hl
          simpa using hl
        subst this
        refine ⟨us.map (view g), view g u, by simp, (view_tells _ _ _).mpr hc, ?_⟩
        rw [view_show, view_show]; rfl
    · rintro ⟨pre, y, e, h1, rfl⟩
      obtain ⟨a, u, b, rfl, -, rfl, e1⟩ := map_split1 e
      rw [List.map_eq_nil_iff] at e1; subst e1
      have : u = last := by
        rw [← List.cons_append, List.getLast?_append] at hl
        simpa using hl
      subst this
      rw [view_show, view_show]; rfl
  · rename_i hc
    constructor
    · intro hv; cases hv
    · rintro ⟨pre, y, e, h1, -⟩
      obtain ⟨a, u, b, rfl, -, rfl, e1⟩ := map_split1 e
      rw [List.map_eq_nil_iff] at e1; subst e1
      have : u = last := by
        rw [← List.cons_append, List.getLast?_append] at hl
        simpa using hl
      subst this
      exact absurd ((view_tells _ _ _).mp h1) hc

theorem reports_blackholing : ∃ y, PathFn.run g (0 :: us) .blackholing = .ok y ∧ ∀ v, v ∈ y ↔ Reports (view g 0).ask (us.map (view g)) v .blackholing := by
  obtain ⟨last, hl⟩ : ∃ l, (0 :: us).getLast? = some l := ⟨_, List.getLast?_eq_some_getLast (by simp)⟩
  refine ⟨_, C43_blackholing g _ last hl h, fun v => ?_⟩
  have hn := root_silent h
  clear h
  cases us using List.reverseRecOn with
  | nil =>
    unfold Reports
    simp
  | append_singleton us u =>
    have : u = last := by
      rw [← List.cons_append, List.getLast?_append] at hl
      simpa using hl
    subst this
    have e0 : (0 :: (us ++ [u])).dropLast = 0 :: us := by
      rw [← List.cons_append, List.dropLast_concat]
    rw [e0, List.find?_cons_of_neg (by simp [hn])]
    unfold Reports
    cases hf : us.find? (fun v => decide (Answers g v .REWRITE)) with
    | none =>
      constructor
      · intro hv; cases hv
      · rintro ⟨pre, x, mid, y, e, h1, -⟩
        rw [List.map_append, List.map_singleton] at e
        have := (List.append_inj' e rfl).1
        obtain ⟨a, z, b, rfl, -, rfl, -⟩ := map_split1 this
        have := List.find?_eq_none.mp hf z (by simp)
        exact absurd ((view_tells _ _ _).mp h1) (by simpa using this)
    | some x =>
      obtain ⟨hx, a, b, e, ha⟩ := List.find?_eq_some_iff_append.mp hf
      subst e
      have hx : Answers g x .REWRITE := by simpa using hx
      have ha : ∀ z ∈ a, ¬ Answers g z .REWRITE := by simpa using ha
      dsimp only
      split
      · rename_i hc
        rw [List.mem_singleton]
        constructor
        · rintro rfl
          refine ⟨a.map (view g), view g x, b.map (view g), view g u, by simp, (view_tells _ _ _).mpr hx, ?_, (view_tells _ _ _).mpr hc, ?_⟩
          · intro z hz
            obtain ⟨z, hz', rfl⟩ := List.mem_map.mp hz
            rw [view_tells]; exact ha z hz'
          · rw [view_show, view_show]; rfl
        · rintro ⟨pre, z, mid, y, e, h1, h2, h3, rfl⟩
          rw [List.map_append, List.map_singleton] at e
          obtain ⟨e, ey⟩ := List.append_inj' e rfl
          have ey : view g u = y := by simpa using ey
          obtain ⟨a', z, b', e1, rfl, rfl, -⟩ := map_split1 e
          have h1 := (view_tells _ _ _).mp h1
          have h2 : ∀ z ∈ a', ¬ Answers g z .REWRITE := fun z hz => by
            rw [← view_tells]; exact h2 _ (List.mem_map_of_mem hz)
          have : x = z := by
            have f1 : (a ++ x :: b).find? (fun v => decide (Answers g v .REWRITE)) = some x := by
              rw [List.find?_eq_some_iff_append]; exact ⟨by simpa using hx, a, b, rfl, by simpa using ha⟩
            rw [e1] at f1
            have f2 : (a' ++ z :: b').find? (fun v => decide (Answers g v .REWRITE)) = some z := by
              rw [List.find?_eq_some_iff_append]; exact ⟨by simpa using h1, a', b', rfl, by simpa using h2⟩
            rw [f2] at f1; exact (Option.some.inj f1).symm
          subst this
          rw [← ey, view_show, view_show]; rfl
      · rename_i hc
        constructor
        · intro hv; cases hv
        · rintro ⟨pre, z, mid, y, e, h1, h2, h3, -⟩
          rw [List.map_append, List.map_singleton] at e
          obtain ⟨e, ey⟩ := List.append_inj' e rfl
          have ey : view g u = y := by simpa using ey
          rw [← ey] at h3
          exact absurd ((view_tells _ _ _).mp h3) hc

end
end Groot
