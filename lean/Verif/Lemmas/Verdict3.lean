import Verif.Lemmas.Verdict2

/-! # More checks, and loops of members -/

namespace Groot
open Spec

theorem forall₂_split {α β : Type} {R : α → β → Prop} : ∀ {us : List α} {pre ps : List β}, List.Forall₂ R us (pre ++ ps) →
    ∃ u1 u2, us = u1 ++ u2 ∧ List.Forall₂ R u1 pre ∧ List.Forall₂ R u2 ps := by
  intro us pre
  induction pre generalizing us with
  | nil => intro ps h; exact ⟨[], us, rfl, .nil, h⟩
  | cons x pre ih =>
    intro ps h
    cases h with
    | cons h1 h2 =>
      obtain ⟨u1, u2, rfl, h3, h4⟩ := ih h2
      exact ⟨_ :: u1, u2, rfl, .cons h1 h3, h4⟩

theorem forall₂_split' {α β : Type} {R : α → β → Prop} : ∀ {u1 u2 : List α} {ps : List β}, List.Forall₂ R (u1 ++ u2) ps →
    ∃ p1 p2, ps = p1 ++ p2 ∧ List.Forall₂ R u1 p1 ∧ List.Forall₂ R u2 p2 := by
  intro u1
  induction u1 with
  | nil => intro u2 ps h; exact ⟨[], ps, rfl, .nil, h⟩
  | cons x u1 ih =>
    intro u2 ps h
    cases h with
    | cons h1 h2 =>
      obtain ⟨p1, p2, rfl, h3, h4⟩ := ih h2
      exact ⟨_ :: p1, p2, rfl, .cons h1 h3, h4⟩

theorem forall₂_mem {α β : Type} {R : α → β → Prop} {us : List α} {ps : List β} (h : List.Forall₂ R us ps) {x : β} (hx : x ∈ ps) : ∃ u ∈ us, R u x := by
  induction h with
  | nil => cases hx
  | cons h1 _ ih =>
    rcases List.mem_cons.mp hx with rfl | hx
    · exact ⟨_, List.mem_cons_self, h1⟩
    · obtain ⟨u, hu, h⟩ := ih hx; exact ⟨u, List.mem_cons_of_mem _ hu, h⟩

theorem forall₂_mem' {α β : Type} {R : α → β → Prop} {us : List α} {ps : List β} (h : List.Forall₂ R us ps) {u : α} (hu : u ∈ us) : ∃ x ∈ ps, R u x := by
  induction h with
  | nil => cases hu
  | cons h1 _ ih =>
    rcases List.mem_cons.mp hu with rfl | hu
    · exact ⟨_, List.mem_cons_self, h1⟩
    · obtain ⟨x, hx, h⟩ := ih hu; exact ⟨x, List.mem_cons_of_mem _ hx, h⟩

variable {w : World} {pf : List PathFn} {nf : List NodeFn} {q : EC} {vs : List Violation} {g : IG} {l : Option Violation} {s : IG.Enum}

theorem Processed.not_root (h : Processed w pf nf q vs g l s) (t : Tag) : ¬ Answers g 0 t := by
  have := h.inv.core.dummy 0 _ h.inv.core.root
  simp [Answers, firstAns, this]

theorem at_name {v : Nat} {s : Str} {a : Ask} (h : At g v s a) : (g.vtx v).query.name = a.name := by rw [← h.2.2]; rfl

/-! ### RewriteBlackholing -/

theorem Processed.blackhole (h : Processed w pf nf q vs g l s) (hw : WellFormed w) (hf : PathFn.blackholing ∈ pf) {p : Trail} (hp : Complete w (ask q) p)
    {sv : Str} (hb : Blackholed w p sv) : ∃ a b, .blackhole a b sv ∈ vs := by
  obtain ⟨us, h1, h2⟩ := h.of_complete hp
  obtain ⟨pre, y, rfl, ⟨x, hx, hk⟩, hn, rfl⟩ := hb
  have hsv := route_server hw hp.route
  obtain ⟨u1, u2, rfl, h3, h4⟩ := forall₂_split h2
  cases h4 with
  | @cons u _ _ _ hu h5 =>
  cases h5
  have hl : (0 :: (u1 ++ [u])).getLast? = some u := by rw [← List.cons_append, List.getLast?_concat]
  have hrun := C43_blackholing g _ u hl (h.resolution _ h1)
  have hdl : (0 :: (u1 ++ [u])).dropLast = 0 :: u1 := by rw [← List.cons_append, List.dropLast_concat]
  obtain ⟨v, hv, hv'⟩ := forall₂_mem h3 hx
  have hrw : Answers g v .REWRITE := (answers_iff_kind h.inv hv' (hsv x (by simp [hx])) h.sane (by simp) (by simp)).mpr hk
  have hnx : Answers g u .NX := (answers_iff_kind h.inv hu (hsv y (by simp)) h.sane (by simp) (by simp)).mpr hn
  cases hfd : (0 :: (u1 ++ [u])).dropLast.find? (fun v => decide (Answers g v .REWRITE)) with
  | none =>
    have := List.find?_eq_none.mp hfd v (by rw [hdl]; exact List.mem_cons_of_mem _ hv)
    simp [hrw] at this
  | some z =>
    rw [hfd] at hrun
    dsimp only at hrun
    rw [if_pos hnx, hu.2.1] at hrun
    exact ⟨_, _, (h.mem _).mpr (.inr (.inl ⟨_, h1, _, hf, _, hrun, List.mem_singleton.mpr rfl⟩))⟩

theorem Processed.blackhole_sound (h : Processed w pf nf q vs g l s) (hw : WellFormed w) {a b sv : Str} (hv : .blackhole a b sv ∈ vs) :
    PathFn.blackholing ∈ pf ∧ ∃ p, Route w [] (ask q) p ∧ Blackholed w p sv := by
  obtain ⟨p, hp, f, hf, he, y, hy, hv⟩ := h.path_source hv (fun _ e => nomatch e) (fun f hf => by cases f <;> exact hf)
  cases f with
  | blackholing =>
    refine ⟨hf, ?_⟩
    obtain ⟨us, t, rfl, h1, h2⟩ := h.to_route hp
    obtain ⟨u, hl⟩ : ∃ u, (0 :: us).getLast? = some u := ⟨_, List.getLast?_eq_some_getLast (by simp)⟩
    have hrun := (C43_blackholing g _ u hl (h.resolution _ hp)).symm.trans hy
    injection hrun with hrun
    rw [← hrun] at hv
    split at hv
    · cases hv
    · rename_i z hz
      split at hv
      · rename_i hnx
        have := List.mem_singleton.mp hv
        injection this with _ _ e3
        have hzm := List.mem_of_find?_eq_some hz
        have hzr := List.find?_some hz
        simp only [decide_eq_true_eq] at hzr
        rcases List.eq_nil_or_concat us with rfl | ⟨u1, u', e⟩
        · simp at hzm
        · rw [List.concat_eq_append] at e; subst e
          rw [← List.cons_append, List.getLast?_concat] at hl
          cases hl
          rw [← List.cons_append, List.dropLast_concat] at hzm
          obtain ⟨p1, p2, rfl, h3, h4⟩ := forall₂_split' h2
          cases h4 with
          | @cons _ y2 _ _ hu h5 =>
          cases h5
          have hsv := route_server hw h1
          rcases List.mem_cons.mp hzm with rfl | hzm
          · exact absurd hzr (h.not_root _)
          · obtain ⟨x, hx, hx'⟩ := forall₂_mem' h3 hzm
            exact ⟨_, h1, p1, y2, rfl, ⟨x, hx, answers_kind h.inv hx' (hsv x (by simp [hx])) hzr⟩,
              answers_kind h.inv hu (hsv y2 (by simp)) hnx, by rw [e3, hu.2.1]⟩
      · cases hv
  | _ => exact absurd he (by simp [PathFn.Emits])

/-! ### QueryRewrite -/

theorem Processed.away (h : Processed w pf nf q vs g l s) (hw : WellFormed w) {d : List Name} (hd : d ≠ []) (hf : PathFn.queryRewrite d ∈ pf) {p : Trail}
    (hp : Complete w (ask q) p) {sv : Str} (hb : RewrittenAway w d p sv) : ∃ a b, .queryRewrite a b sv (printList d) ∈ vs := by
  obtain ⟨us, h1, h2⟩ := h.of_complete hp
  obtain ⟨pre, x, y, post, rfl, rfl, hk, ho⟩ := hb
  have hsv := route_server hw hp.route
  obtain ⟨u1, u2, rfl, h3, h4⟩ := forall₂_split h2
  cases h4 with
  | @cons u _ _ _ hu h5 =>
  cases h5 with
  | @cons v _ u3 _ hv h6 =>
  have hrun := C41_query_rewrite g d hd _ (h.resolution _ h1)
  refine ⟨(showQuery (g.vtx u).query), (showQuery (g.vtx v).query),
    (h.mem _).mpr (.inr (.inl ⟨_, h1, _, hf, _, hrun, List.mem_map.mpr ⟨(u, v), List.mem_filter.mpr ⟨?_, ?_⟩, ?_⟩⟩))⟩
  · exact mem_consecutive.mpr ⟨0 :: u1, u3, by simp⟩
  · rw [decide_eq_true_eq]
    refine ⟨(answers_iff_kind h.inv hu (hsv x (by simp)) h.sane (by simp) (by simp)).mpr hk, ?_⟩
    dsimp only
    rw [at_name hv]; exact ho
  · dsimp only
    rw [hu.2.1]

theorem Processed.away_sound (h : Processed w pf nf q vs g l s) (hw : WellFormed w) (hpf : ∀ f ∈ pf, f.Configured) {a b sv al : Str}
    (hv : .queryRewrite a b sv al ∈ vs) :
    ∃ d, PathFn.queryRewrite d ∈ pf ∧ al = printList d ∧ ∃ p, Route w [] (ask q) p ∧ RewrittenAway w d p sv := by
  obtain ⟨p, hp, f, hf, he, y, hy, hv⟩ := h.path_source hv (fun _ e => nomatch e) (fun f hf => by cases f <;> exact hf)
  cases f with
  | queryRewrite d =>
    refine ⟨d, hf, he, ?_⟩
    obtain ⟨us, t, rfl, h1, h2⟩ := h.to_route hp
    have hrun := (C41_query_rewrite g d (hpf _ hf) _ (h.resolution _ hp)).symm.trans hy
    injection hrun with hrun
    rw [← hrun] at hv
    obtain ⟨⟨u, v⟩, hx, e⟩ := List.mem_map.mp hv
    injection e with _ _ e3 _
    obtain ⟨hx, hc⟩ := List.mem_filter.mp hx
    rw [decide_eq_true_eq] at hc
    obtain ⟨c1, c2, e⟩ := mem_consecutive.mp hx
    have hsv := route_server hw h1
    cases c1 with
    | nil =>
      injection e with e1 e2
      dsimp only at e1
      exact absurd (e1 ▸ hc.1) (h.not_root _)
    | cons z c1 =>
      injection e with e1 e2
      subst e2
      obtain ⟨p1, p2, rfl, h3, h4⟩ := forall₂_split' h2
      cases h4 with
      | @cons _ x _ _ hu h5 =>
      cases h5 with
      | @cons _ y _ p3 hv h6 =>
      refine ⟨_, h1, p1, x, y, p3, rfl, ?_, answers_kind h.inv hu (hsv x (by simp)) hc.1, ?_⟩
      · rw [← e3]; exact hu.2.1.symm
      · have := hc.2
        dsimp only at this
        rw [at_name hv] at this
        exact this
  | _ => exact absurd he (by simp [PathFn.Emits])

/-! ### NameserverContact -/

theorem Processed.contact (h : Processed w pf nf q vs g l s) (hw : WellFormed w) {d : List Name} (hd : d ≠ []) (hf : PathFn.nsContact d ∈ pf) {p : Trail}
    (hp : Complete w (ask q) p) {sv : Str} (hb : ContactedAway d p sv) : ∃ a, .nsContact a sv (printList d) ∈ vs := by
  obtain ⟨us, h1, h2⟩ := h.of_complete hp
  obtain ⟨x, hx, rfl, ho⟩ := hb
  have hsv := route_server hw hp.route
  obtain ⟨u, hu, hu'⟩ := forall₂_mem h2 hx
  have hrun := C42_ns_contact g d hd (0 :: us)
  refine ⟨(showQuery (g.vtx u).query), (h.mem _).mpr (.inr (.inl ⟨_, h1, _, hf, _, hrun, List.mem_map.mpr ⟨u, List.mem_filter.mpr ⟨by simp [hu], ?_⟩, ?_⟩⟩))⟩
  · rw [decide_eq_true_eq]
    unfold Server
    rw [hu'.2.1]
    exact ⟨hsv x hx, ho⟩
  · rw [hu'.2.1]

theorem Processed.contact_sound (h : Processed w pf nf q vs g l s) (hpf : ∀ f ∈ pf, f.Configured) {a sv al : Str}
    (hv : .nsContact a sv al ∈ vs) :
    ∃ d, PathFn.nsContact d ∈ pf ∧ al = printList d ∧ ∃ p, Route w [] (ask q) p ∧ ContactedAway d p sv := by
  obtain ⟨p, hp, f, hf, he, y, hy, hv⟩ := h.path_source hv (fun _ e => nomatch e) (fun f hf => by cases f <;> exact hf)
  cases f with
  | nsContact d =>
    refine ⟨d, hf, he, ?_⟩
    obtain ⟨us, t, rfl, h1, h2⟩ := h.to_route hp
    have hrun := (C42_ns_contact g d (hpf _ hf) (0 :: us)).symm.trans hy
    injection hrun with hrun
    rw [← hrun] at hv
    obtain ⟨u, hx, e⟩ := List.mem_map.mp hv
    injection e with _ e2 _
    obtain ⟨hx, hc⟩ := List.mem_filter.mp hx
    rw [decide_eq_true_eq] at hc
    rcases List.mem_cons.mp hx with rfl | hx
    · exact absurd h.inv.core.root.2.1 hc.1
    · obtain ⟨x, hx, hx'⟩ := forall₂_mem' h2 hx
      have e4 : x.1 = sv := by rw [← e2]; exact hx'.2.1.symm
      refine ⟨t, h1, x, hx, e4, ?_⟩
      have := hc.2
      rw [hx'.2.1, e4] at this
      exact this
  | _ => exact absurd he (by simp [PathFn.Emits])

/-! ### Loops of members -/

/-- One can go on for `n` steps. -/
def Lasts {α : Type} (R : α → α → Prop) : Nat → α → Prop
  | 0, _ => True
  | n + 1, x => ∃ y, R x y ∧ Lasts R n y

theorem lasts_cycle {α : Type} {R : α → α → Prop} (n : Nat) : ∀ x, Relation.TransGen R x x → Lasts R n x := by
  induction n with
  | zero => exact fun _ _ => trivial
  | succ n ih =>
    intro x hx
    obtain ⟨y, h1, h2⟩ := Relation.TransGen.head'_iff.mp hx
    exact ⟨y, h1, ih y (Relation.TransGen.tail' h2 h1)⟩

theorem lasts_reach {α : Type} {R : α → α → Prop} {x y : α} (h : Relation.ReflTransGen R x y) (hy : ∀ n, Lasts R n y) : ∀ n, Lasts R n x := by
  induction h using Relation.ReflTransGen.head_induction_on with
  | refl => exact hy
  | head h1 _ ih =>
    intro n
    cases n with
    | zero => trivial
    | succ n => exact ⟨_, h1, ih n⟩

theorem lasts_chain {α : Type} {R : α → α → Prop} : ∀ (n : Nat) (x : α), Lasts R n x → ∃ l, l.length = n ∧ List.IsChain R (x :: l) := by
  intro n
  induction n with
  | zero => exact fun x _ => ⟨[], rfl, List.isChain_singleton _⟩
  | succ n ih =>
    rintro x ⟨y, h1, h2⟩
    obtain ⟨l, h3, h4⟩ := ih y h2
    exact ⟨y :: l, by simp [h3], List.isChain_cons_cons.mpr ⟨h1, h4⟩⟩

/-- A chain longer than the number of nodes goes round a cycle. -/
theorem cycle_of_long {R : Nat → Nat → Prop} {N : Nat} (hR : ∀ u v, R u v → v < N) {v : Nat} (hv : v < N) (h : Lasts R N v) :
    ∃ u, Relation.ReflTransGen R v u ∧ Relation.TransGen R u u := by
  obtain ⟨l, hl, hc⟩ := lasts_chain N v h
  have hlt : ∀ x ∈ v :: l, x < N := by
    intro x hx
    rcases List.mem_cons.mp hx with rfl | hx
    · exact hv
    · have : ∀ (l : List Nat) (v : Nat), List.IsChain R (v :: l) → ∀ x ∈ l, x < N := by
        intro l
        induction l with
        | nil => intro v _ x hx; cases hx
        | cons y l ih =>
          intro v hc x hx
          rw [List.isChain_cons_cons] at hc
          rcases List.mem_cons.mp hx with rfl | hx
          · exact hR _ _ hc.1
          · exact ih y hc.2 x hx
      exact this l v hc x hx
  have hnd : ¬ (v :: l).Nodup := by
    intro hnd
    have hsub : (v :: l) ⊆ List.range N := fun x hx => List.mem_range.mpr (hlt x hx)
    have := (hnd.subperm hsub).length_le
    simp [hl] at this
  have hp : (v :: l).Pairwise (Relation.TransGen R) := by
    have : List.IsChain (Relation.TransGen R) (v :: l) := hc.imp (fun _ _ h => .single h)
    exact List.isChain_iff_pairwise.mp this
  obtain ⟨u, hu⟩ := List.exists_duplicate_iff_not_nodup.mpr hnd
  have hs := List.duplicate_iff_sublist.mp hu
  have huu : Relation.TransGen R u u := by
    have := hp.sublist hs
    simpa using this
  refine ⟨u, ?_, huu⟩
  have hm : u ∈ v :: l := hs.subset (by simp)
  rcases List.mem_cons.mp hm with rfl | hm
  · exact .refl
  · exact ((List.pairwise_cons.mp hp).1 u hm).to_reflTransGen

theorem needs_reached {w : World} {a0 : Ask} {x y : Str × Ask} (hr : Reached w a0 x.1 x.2) (h : Needs w x y) : Reached w a0 y.1 y.2 := by
  rcases h with ⟨sd, h⟩ | ⟨s', a', h, hy⟩
  · exact .step _ _ _ _ _ hr h
  · rw [hy]; exact .side _ _ _ _ _ hr h

theorem side_exact {w : World} {s : Str} {a : Ask} {s' : Str} {a' b : Ask} (h : Step w s a s' a' (some b)) : b.below = false := by
  cases h with
  | referral _ _ as x r _ _ h1 h2 h3 h4 h5 h6 =>
    rcases h6 with ⟨_, h6⟩ | ⟨_, h6⟩
    · cases h6
    · cases h6; rfl

theorem needs_member {w : World} {a0 : Ask} {l : Label} {rest : Name} (hf : Fresh w a0 l rest) {x y : Str × Ask} (hr : Reached w a0 x.1 x.2)
    (h : Needs w x y) : Needs w (x.1, x.2.member l rest) (y.1, y.2.member l rest) := by
  have hr' := needs_reached hr h
  rcases h with ⟨sd, h⟩ | ⟨s', a', h, hy⟩
  · exact .inl ⟨sd, step_member (hf.good hr) (hf.good hr') h⟩
  · refine .inr ⟨s', a'.member l rest, ?_, hy⟩
    have := step_member (hf.good hr) (hf.good (.step _ _ _ _ _ hr h)) h
    dsimp only
    rw [member_exact (side_exact h)]
    exact this

theorem needs_of_member {w : World} {a0 : Ask} {l : Label} {rest : Name} (hf : Fresh w a0 l rest) {s : Str} {a : Ask} {z : Str × Ask} (hr : Reached w a0 s a)
    (h : Needs w (s, a.member l rest) z) : ∃ a', z.2 = a'.member l rest ∧ Needs w (s, a) (z.1, a') := by
  have lift : ∀ {s' : Str} {b : Ask} {side : Option Ask}, Step w s (a.member l rest) s' b side → ∃ a', b = a'.member l rest ∧ Step w s a s' a' side := by
    intro s' b side hst
    have hroute : Route w s (a.member l rest) [(s', b, side)] := .step _ _ _ _ _ _ hst (.done _ _)
    obtain ⟨p, hp, hr2⟩ := route_of_member hf hr hroute
    match p, hp with
    | [(s1, a1, sd1)], hp =>
      simp only [List.map_cons, List.map_nil, List.cons.injEq, Prod.mk.injEq, and_true] at hp
      obtain ⟨rfl, rfl, rfl⟩ := hp
      cases hr2 with
      | step _ _ _ _ _ _ h1 _ => exact ⟨a1, rfl, h1⟩
    | [], hp => cases hp
    | _ :: _ :: _, hp => simp at hp
  rcases h with ⟨sd, h⟩ | ⟨s', a', h, hy⟩
  · obtain ⟨a', e, h2⟩ := lift h
    exact ⟨a', e, .inl ⟨sd, h2⟩⟩
  · obtain ⟨a2, e, h2⟩ := lift h
    refine ⟨z.2, (member_exact (side_exact h)).symm, .inr ⟨s', a2, h2, hy⟩⟩

theorem circular_member {w : World} {a0 : Ask} {l : Label} {rest : Name} (hf : Fresh w a0 l rest) (h : Circular w a0) : Circular w (a0.member l rest) := by
  obtain ⟨x, h1, h2⟩ := h
  have key : ∀ {x y : Str × Ask}, Reached w a0 x.1 x.2 → Relation.TransGen (Needs w) x y →
      Reached w a0 y.1 y.2 ∧ Relation.TransGen (Needs w) (x.1, x.2.member l rest) (y.1, y.2.member l rest) := by
    intro x y hr ht
    induction ht with
    | single h => exact ⟨needs_reached hr h, .single (needs_member hf hr h)⟩
    | tail _ h ih => exact ⟨needs_reached ih.1 h, ih.2.tail (needs_member hf ih.1 h)⟩
  rcases Relation.reflTransGen_iff_eq_or_transGen.mp h1 with rfl | h1
  · exact ⟨([], a0.member l rest), .refl, (key .start h2).2⟩
  · have := key (x := ([], a0)) .start h1
    exact ⟨_, this.2.to_reflTransGen, (key this.1 h2).2⟩

theorem Processed.circular_of_member (h : Processed w pf nf q vs g l s) {lb : Label} {rest : Name} (hf : Fresh w (ask q) lb rest)
    (hc : Circular w ((ask q).member lb rest)) : Circular w (ask q) := by
  rw [← h.loop_iff]
  have h1 : (∃ ns, Violation.loop ns ∈ vs) ↔ l.isSome := by
    rw [h.loop_iff, h.loop]
    constructor
    · intro hc
      have := h.loop_iff.mpr hc
      obtain ⟨ns, hns⟩ := this
      rcases (h.mem _).mp hns with e | ⟨p, hp, f, hf, y, hy, hv⟩ | ⟨f, hf, y, hy, hv⟩
      · exact h.loop.mp (by rw [e]; rfl)
      · obtain ⟨y', hy', he⟩ := h.pathEmits p hp f hf
        have := hy'.symm.trans hy
        injection this with e
        have := he _ (e ▸ hv)
        cases f <;> exact this.elim
      · obtain ⟨y', hy', he⟩ := h.nodeEmits f hf
        have := hy'.symm.trans hy
        injection this with e
        have := he _ (e ▸ hv)
        cases f <;> exact this.elim
    · intro hl
      have hs := h.loop.mpr hl
      obtain ⟨x, e⟩ := Option.isSome_iff_exists.mp hs
      obtain ⟨ns, rfl⟩ := h.isLoop x e
      exact h.loop_iff.mp ⟨ns, (h.mem _).mpr (.inl e)⟩
  rw [h1, h.loop]
  obtain ⟨x, h2, h3⟩ := hc
  have hlast := lasts_reach h2 (fun n => lasts_cycle n x h3)
  have conv : ∀ (n : Nat) (v : Nat) (sv : Str) (a : Ask), At g v sv a → Lasts (Needs w) n (sv, a.member lb rest) → Lasts (Dep g) n v := by
    intro n
    induction n with
    | zero => exact fun _ _ _ _ _ => trivial
    | succ n ih =>
      rintro v sv a hv ⟨y, hy, hn⟩
      have hr := h.inv.core.reach v sv a hv
      obtain ⟨a', e, hnd⟩ := needs_of_member hf hr hy
      have : ∃ u, At g u y.1 a' ∧ Dep g v u := by
        rcases hnd with ⟨sd, hs⟩ | ⟨s', a2, hs, hyy⟩
        · obtain ⟨ed, he, rfl, h2, _⟩ := h.inv.step hv hs
          exact ⟨ed.dst, h2, ed, he, rfl, .inl rfl⟩
        · obtain ⟨ed, he, rfl, _, h3⟩ := h.inv.step hv hs
          rcases h3 with ⟨_, h3⟩ | ⟨m, b, h3, h4, h5⟩
          · cases h3
          · cases h4
            dsimp only at hyy
            rw [← hyy] at h5
            exact ⟨m, h5, ed, he, rfl, .inr h3⟩
      obtain ⟨u, hu, hd⟩ := this
      refine ⟨u, hd, ih u y.1 a' hu ?_⟩
      rw [← e]; exact hn
  have := conv g.verts.length 0 [] (ask q) h.inv.core.root (hlast _)
  refine cycle_of_long ?_ h.inv.core.root.1 this
  rintro u v ⟨e, he, rfl, h4 | h4⟩
  · rw [← h4]; exact h.sane.dst e he
  · exact h.sane.side e he v h4

end Groot
