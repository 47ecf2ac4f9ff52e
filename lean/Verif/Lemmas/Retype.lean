import Verif.Lemmas.Verdict3

/-! # The requested types do not decide where a resolution goes (unless only CNAME is requested) -/

namespace Groot
open Spec

theorem exists_types (P : RRType → Prop) : ∃ ts : TypeSet, ∀ t, Member ts t ↔ t ≠ .N ∧ P t := by
  classical
  have key : ∀ (l : List RRType), ∃ ts : TypeSet, ∀ t, TypeSet.has ts t = true ↔ t ≠ .N ∧ t ∈ l ∧ P t := by
    intro l
    induction l with
    | nil => exact ⟨0, fun t => by simp⟩
    | cons x l ih =>
      obtain ⟨ts, h⟩ := ih
      by_cases hx : P x
      · refine ⟨ts.add x, fun t => ?_⟩
        rw [has_add, Bool.or_eq_true, h, decide_eq_true_eq]
        constructor
        · rintro (⟨h1, h2, h3⟩ | ⟨rfl, h2⟩)
          · exact ⟨h1, List.mem_cons_of_mem _ h2, h3⟩
          · exact ⟨h2, List.mem_cons_self, hx⟩
        · rintro ⟨h1, h2, h3⟩
          rcases List.mem_cons.mp h2 with rfl | h2
          · exact .inr ⟨rfl, h1⟩
          · exact .inl ⟨h1, h2, h3⟩
      · refine ⟨ts, fun t => ?_⟩
        rw [h]
        constructor
        · rintro ⟨h1, h2, h3⟩; exact ⟨h1, List.mem_cons_of_mem _ h2, h3⟩
        · rintro ⟨h1, h2, h3⟩
          rcases List.mem_cons.mp h2 with rfl | h2
          · exact absurd h3 hx
          · exact ⟨h1, h2, h3⟩
  obtain ⟨ts, h⟩ := key RRType.supported
  refine ⟨ts, fun t => ?_⟩
  rw [← has_iff, h, mem_supported]
  tauto

/-- The two questions differ only in the types: `t1` for the first and `t2` for the second, or both without CNAME. -/
def AlikeAsk (t1 t2 : TypeSet) (a b : Ask) : Prop :=
  a.name = b.name ∧ a.below = b.below ∧ (a.types = t1 ∧ b.types = t2 ∨ a.types = t1.remove .CNAME ∧ b.types = t2.remove .CNAME)

theorem AlikeAsk.symm {t1 t2 : TypeSet} {a b : Ask} (h : AlikeAsk t1 t2 a b) : AlikeAsk t2 t1 b a :=
  ⟨h.1.symm, h.2.1.symm, h.2.2.imp And.symm And.symm⟩

theorem remove_other {ts : TypeSet} (h : AsksOther ts) : AsksOther (ts.remove .CNAME) := by
  obtain ⟨t, h1, h2⟩ := h
  exact ⟨t, h1, (member_remove _ _).mpr ⟨h2, h1⟩⟩

theorem AlikeAsk.left {t1 t2 : TypeSet} {a b : Ask} (h : AlikeAsk t1 t2 a b) (h1 : AsksOther t1) : AsksOther a.types := by
  rcases h.2.2 with ⟨e, _⟩ | ⟨e, _⟩ <;> rw [e]
  · exact h1
  · exact remove_other h1

/-- The steering answers occur in both lists, and the first answers are of the same kind. -/
def Steers (as bs : List Answer) : Prop :=
  (∀ x ∈ as, x.tag = .REWRITE ∨ x.tag = .REF → x ∈ bs) ∧ as.head?.map (·.tag) = bs.head?.map (·.tag)

theorem reply_retype {log : List RR} {q q' : EC} (hn : q.name = q'.name) (hx : q.excluded = q'.excluded) (h1 : AsksOther q.types)
    (h2 : AsksOther q'.types) {as : List Answer} (h : Reply log q as) : ∃ bs, Reply log q' bs ∧ Steers as bs := by
  have hoc : ¬ OnlyCname q := by
    obtain ⟨t, ht, hm⟩ := h1
    intro h; exact ht ((h t).mp hm)
  have hoc' : ¬ OnlyCname q' := by
    obtain ⟨t, ht, hm⟩ := h2
    intro h; exact ht ((h t).mp hm)
  have hex : ∀ e, ExactFor q e ↔ ExactFor q' e := by
    intro e; unfold ExactFor; rw [hn, hx]
  have hsrc : ∀ e m x, Source log q e m x → Source log q' e m x := by
    rintro e m x ⟨h3, h4⟩
    refine ⟨h3, ?_⟩
    rw [← hex e]; exact h4
  cases h with
  | referral e ts he hc ht => exact ⟨_, .referral e ts (hn ▸ he) hc ht, fun x hx _ => hx, rfl⟩
  | dname e ts r he hc hxx h3 h4 h5 ht => exact ⟨_, .dname e ts r (hn ▸ he) hc (fun h => hxx ((hex e).mpr h)) h3 h4 h5 ht, fun x hx _ => hx, rfl⟩
  | cname e m exact ts r tag he hs h3 h4 h5 ht htag =>
    refine ⟨_, .cname e m exact ts r tag (hn ▸ he) (hsrc _ _ _ hs) h3 h4 h5 ht ?_, fun x hx _ => hx, rfl⟩
    rcases htag with ⟨h, _⟩ | ⟨_, h⟩
    · exact absurd h hoc
    · exact .inr ⟨hoc', h⟩
  | data e m exact found missing he hs h3 h4 h5 =>
    obtain ⟨f', hf'⟩ := exists_types (fun t => Member q'.types t ∧ HasType log m t)
    obtain ⟨g', hg'⟩ := exists_types (fun t => Member q'.types t ∧ ¬ HasType log m t)
    have hN : ∀ {ts : TypeSet} {t : RRType}, Member ts t → t ≠ .N := fun h => h.1
    refine ⟨_, .data e m exact f' g' (hn ▸ he) (hsrc _ _ _ hs) h3 (fun t => ?_) (fun t => ?_), ?_, ?_⟩
    · rw [hf']; exact ⟨fun h => h.2, fun h => ⟨hN h.1, h⟩⟩
    · rw [hg']; exact ⟨fun h => h.2, fun h => ⟨hN h.1, h⟩⟩
    · intro x hx ht
      exfalso
      unfold dataAnswers at hx
      rcases List.mem_append.mp hx with hx | hx
      · split at hx
        · cases hx
        · rw [List.mem_singleton.mp hx] at ht; rcases ht with ht | ht <;> cases ht
      · split at hx
        · cases hx
        · rw [List.mem_singleton.mp hx] at ht; rcases ht with ht | ht <;> cases ht
    · have head : ∀ {T f g : TypeSet} (l : List RR), AsksOther T → (∀ t, Member f t ↔ Member T t ∧ HasType log m t) →
          (∀ t, Member g t ↔ Member T t ∧ ¬ HasType log m t) → (dataAnswers f g l).head?.map (·.tag) = some .ANS := by
        rintro T f g l ⟨t, _, ht⟩ hf hg
        have z : ∀ t, ¬ Member (0 : TypeSet) t := by intro t h; simp [Member] at h
        unfold dataAnswers
        by_cases hf0 : f = 0
        · have hg0 : g ≠ 0 := by
            intro hg0
            by_cases hh : HasType log m t
            · exact z t (hf0 ▸ (hf t).mpr ⟨ht, hh⟩)
            · exact z t (hg0 ▸ (hg t).mpr ⟨ht, hh⟩)
          rw [if_pos hf0, if_neg hg0]; rfl
        · rw [if_neg hf0]; rfl
      rw [head _ h1 h4 h5, head _ h2 (fun t => ?_) (fun t => ?_)]
      · rw [hf']; exact ⟨fun h => h.2, fun h => ⟨hN h.1, h⟩⟩
      · rw [hg']; exact ⟨fun h => h.2, fun h => ⟨hN h.1, h⟩⟩
  | nx e he hc hxx hd hw =>
    refine ⟨_, .nx e (hn ▸ he) hc (fun h => hxx ((hex e).mpr h)) hd hw, ?_, rfl⟩
    intro x hx ht
    rw [List.mem_singleton.mp hx] at ht; rcases ht with ht | ht <;> cases ht

theorem says_retype {w : World} {s : Str} {a b : Ask} (hn : a.name = b.name) (hb : a.below = b.below) (h1 : AsksOther a.types)
    (h2 : AsksOther b.types) {as : List Answer} (h : Says w s a as) : ∃ bs, Says w s b bs ∧ Steers as bs := by
  have lone : ∀ {t : Tag} {x y : TypeSet}, t ≠ .REWRITE → t ≠ .REF → Steers [⟨t, x, []⟩] [⟨t, y, []⟩] := by
    intro t x y h3 h4
    refine ⟨?_, rfl⟩
    intro z hz ht
    rw [List.mem_singleton.mp hz] at ht
    rcases ht with ht | ht
    · exact absurd ht h3
    · exact absurd ht h4
  cases h with
  | tooLong h => exact ⟨_, .tooLong (hn ▸ h), lone (by decide) (by decide)⟩
  | zone id _ h3 h4 h5 =>
    obtain ⟨bs, h6, h7⟩ := reply_retype (q := a.ec) (q' := b.ec) hn (by unfold Ask.ec; rw [hb]) h1 h2 h5
    exact ⟨bs, .zone id bs (hn ▸ h3) (hn ▸ h4) h6, h7⟩
  | refused h3 h4 h5 => exact ⟨_, .refused (hn ▸ h3) (hn ▸ h4) h5, lone (by decide) (by decide)⟩
  | unknown h3 h4 => exact ⟨_, .unknown (hn ▸ h3) h4, lone (by decide) (by decide)⟩

theorem Spec.Kind.retype {w : World} {s : Str} {a b : Ask} (hn : a.name = b.name) (hb : a.below = b.below) (h1 : AsksOther a.types)
    (h2 : AsksOther b.types) {t : Tag} (h : Kind w s a t) : Kind w s b t := by
  obtain ⟨x, as, h, rfl⟩ := h
  obtain ⟨bs, h3, _, h4⟩ := says_retype hn hb h1 h2 h
  cases bs with
  | nil => cases h4
  | cons y bs =>
    simp only [List.head?_cons, Option.map_some, Option.some.injEq] at h4
    exact ⟨y, bs, h3, h4.symm⟩

theorem rewritten_retype {t1 t2 : TypeSet} {r : RR} {a b a' : Ask} (h : AlikeAsk t1 t2 a b) (hr : Rewritten r a a') :
    ∃ b', Rewritten r b b' ∧ AlikeAsk t1 t2 a' b' := by
  obtain ⟨hn, hb, ht⟩ := h
  have rr : ∀ ts : TypeSet, (ts.remove .CNAME).remove .CNAME = ts.remove .CNAME := by
    intro ts
    apply typeSet_ext
    intro t
    rw [Bool.eq_iff_iff, has_iff, has_iff, member_remove, member_remove]
    tauto
  cases hr with
  | cname h1 h2 h3 h4 =>
    have e : a'.types = a.types.remove .CNAME := by
      apply typeSet_ext
      intro t
      rw [Bool.eq_iff_iff, has_iff, has_iff, h3, member_remove]
    refine ⟨⟨stringToLabels r.rdata, b.types.remove .CNAME, false⟩, .cname h1 rfl (fun t => member_remove _ t) rfl, h2, h4, .inr ?_⟩
    rw [e]
    rcases ht with ⟨e1, e2⟩ | ⟨e1, e2⟩ <;> rw [e1, e2]
    · exact ⟨rfl, rfl⟩
    · exact ⟨rr _, rr _⟩
  | dname rest h1 h2 h3 h4 h5 =>
    exact ⟨⟨stringToLabels r.rdata ++ rest, b.types, b.below⟩, .dname rest h1 (hn ▸ h2) rfl rfl rfl, h3, h5.trans hb, by rw [h4]; exact ht⟩

theorem step_retype {w : World} {t1 t2 : TypeSet} (h1 : AsksOther t1) (h2 : AsksOther t2) {s : Str} {a b : Ask} (h : AlikeAsk t1 t2 a b)
    {s' : Str} {a' : Ask} {sd : Option Ask} (hs : Step w s a s' a' sd) : ∃ b', Step w s b s' b' sd ∧ AlikeAsk t1 t2 a' b' := by
  have hl := h.left h1
  have hr := h.symm.left h2
  cases hs with
  | top _ _ h3 => exact ⟨b, .top b s' h3, h⟩
  | rewriteHere _ _ as x r _ h3 h4 h5 h6 h7 h8 h9 =>
    obtain ⟨bs, h10, h11, _⟩ := says_retype h.1 h.2.1 hl hr h4
    obtain ⟨b', h12, h13⟩ := rewritten_retype h h8
    exact ⟨b', .rewriteHere s b bs x r b' h3 h10 (h11 x h5 (.inl h6)) h6 h7 h12 (h13.1 ▸ h9), h13⟩
  | rewriteTop _ _ as x r _ _ h3 h4 h5 h6 h7 h8 h9 h9' h9'' =>
    obtain ⟨bs, h10, h11, _⟩ := says_retype h.1 h.2.1 hl hr h4
    obtain ⟨b', h12, h13⟩ := rewritten_retype h h8
    exact ⟨b', .rewriteTop s b bs x r b' s' h3 h10 (h11 x h5 (.inl h6)) h6 h7 h12 (h13.1 ▸ h9) (h13.1 ▸ h9') h9'', h13⟩
  | referral _ _ as x r _ h3 h4 h5 h6 h7 h8 h9 =>
    obtain ⟨bs, h10, h11, _⟩ := says_retype h.1 h.2.1 hl hr h4
    exact ⟨b, .referral s b bs x r sd h3 h10 (h11 x h5 (.inr h6)) h6 h7 h8 h9, h⟩

theorem route_retype {w : World} {t1 t2 : TypeSet} (h1 : AsksOther t1) (h2 : AsksOther t2) {s : Str} {a : Ask} {p : Trail} (hp : Route w s a p) :
    ∀ {b : Ask}, AlikeAsk t1 t2 a b → ∃ p', Route w s b p' ∧ List.Forall₂ (fun x y => x.1 = y.1 ∧ AlikeAsk t1 t2 x.2.1 y.2.1) p p' := by
  induction hp with
  | done s a => intro b _; exact ⟨[], .done s b, .nil⟩
  | step s a s' a' side p hs _ ih =>
    intro b h
    obtain ⟨b', h3, h4⟩ := step_retype h1 h2 h hs
    obtain ⟨p', h5, h6⟩ := ih h4
    exact ⟨_, .step s b s' b' side p' h3 h5, .cons ⟨rfl, h4⟩ h6⟩

theorem forall₂_nodup {α β : Type} {R : α → β → Prop} (hinj : ∀ x x' y, R x y → R x' y → x = x') {l : List α} {l' : List β}
    (h : List.Forall₂ R l l') (hn : l.Nodup) : l'.Nodup := by
  induction h with
  | nil => exact .nil
  | @cons x y l l' hxy hl ih =>
    rw [List.nodup_cons] at hn ⊢
    refine ⟨fun hy => ?_, ih hn.2⟩
    obtain ⟨x', hx', hr⟩ : ∃ x' ∈ l, R x' y := forall₂_mem hl hy
    exact hn.1 (hinj x x' y hxy hr ▸ hx')

theorem forall₂_last {α β : Type} {R : α → β → Prop} {l : List α} {l' : List β} (h : List.Forall₂ R l l') (hne : l ≠ []) :
    ∃ x y, l.getLast? = some x ∧ l'.getLast? = some y ∧ R x y := by
  induction h with
  | nil => exact absurd rfl hne
  | @cons x y l l' hxy hl ih =>
    cases hl with
    | nil => exact ⟨x, y, rfl, rfl, hxy⟩
    | cons h1 h2 =>
      obtain ⟨x', y', e1, e2, e3⟩ := ih (by simp)
      exact ⟨x', y', by rw [List.getLast?_cons_cons]; exact e1, by rw [List.getLast?_cons_cons]; exact e2, e3⟩

theorem complete_retype {w : World} {t1 t2 : TypeSet} (h1 : AsksOther t1) (h2 : AsksOther t2) (hc : Member t2 .CNAME) {a b : Ask}
    (h : AlikeAsk t1 t2 a b) {p : Trail} (hp : Complete w a p) :
    ∃ p', Complete w b p' ∧ List.Forall₂ (fun x y => x.1 = y.1 ∧ AlikeAsk t1 t2 x.2.1 y.2.1) p p' := by
  obtain ⟨p', h3, h4⟩ := route_retype h1 h2 hp.route h
  have hv : List.Forall₂ (fun (x y : Str × Ask) => x.1 = y.1 ∧ AlikeAsk t1 t2 x.2 y.2) (visited a p) (visited b p') := by
    refine .cons ⟨rfl, h⟩ ?_
    clear h3 hp
    induction h4 with
    | nil => exact .nil
    | cons hxy _ ih => exact .cons hxy ih
  refine ⟨p', ⟨h3, ?_, ?_⟩, h4⟩
  · refine forall₂_nodup ?_ hv hp.simple
    rintro ⟨x1, x⟩ ⟨x1', x'⟩ ⟨y1, y⟩ ⟨e1, n1, b1, ty1⟩ ⟨e2, n2, b2, ty2⟩
    dsimp only at e1 n1 b1 ty1 e2 n2 b2 ty2
    have hne : t2 ≠ t2.remove .CNAME := by
      intro e
      have := (member_remove t2 .CNAME).mp (e ▸ hc)
      exact this.2 rfl
    have ht : x.types = x'.types := by
      rcases ty1 with ⟨c1, c2⟩ | ⟨c1, c2⟩ <;> rcases ty2 with ⟨d1, d2⟩ | ⟨d1, d2⟩
      · rw [c1, d1]
      · exact absurd (c2.symm.trans d2) hne
      · exact absurd (d2.symm.trans c2) hne
      · rw [c1, d1]
    obtain ⟨xn, xt, xb⟩ := x
    obtain ⟨xn', xt', xb'⟩ := x'
    dsimp only at n1 b1 n2 b2 ht
    rw [e1, e2, n1, n2, b1, b2, ht]
  · intro y hy s' b' sd hst
    obtain ⟨x, y', e1, e2, e3, e4⟩ := forall₂_last hv (by simp [visited])
    rw [hy] at e2
    cases e2
    obtain ⟨a', h5, _⟩ := step_retype h2 h1 e4.symm hst
    exact hp.ended x e1 s' a' sd (e3 ▸ h5)

/-- Circularity does not depend on the types either, as far as endless resolution is concerned. -/
theorem lasts_retype {w : World} {t1 t2 : TypeSet} (h1 : AsksOther t1) (h2 : AsksOther t2) (n : Nat) :
    ∀ {s : Str} {a b : Ask}, a = b ∨ AlikeAsk t1 t2 a b → Lasts (Needs w) n (s, a) → Lasts (Needs w) n (s, b) := by
  induction n with
  | zero => exact fun _ _ => trivial
  | succ n ih =>
    rintro s a b (rfl | h) hl
    · exact hl
    · obtain ⟨⟨s', a'⟩, hn, hl⟩ := hl
      rcases hn with ⟨sd, hs⟩ | ⟨s2, a2, hs, e⟩
      · obtain ⟨b', h3, h4⟩ := step_retype h1 h2 h hs
        exact ⟨(s', b'), .inl ⟨sd, h3⟩, ih (.inr h4) hl⟩
      · obtain ⟨b2, h3, _⟩ := step_retype h1 h2 h hs
        exact ⟨(s', a'), .inr ⟨s2, b2, h3, e⟩, hl⟩

end Groot
