import Verif.Spec.Verdict
import Verif.Props.Resolve
import Verif.Props.Members
import Verif.Props.Labels

/-! # From questions to paths and back -/

namespace Groot
open Spec

/-! ## Trails and paths of a finished graph -/

theorem path_of_route {w : World} {a0 : Ask} {g : IG} (h : BInv w a0 g []) {s : Str} {a : Ask} {p : Trail} (hp : Route w s a p) :
    ∀ v, At g v s a → ∃ vs, List.IsChain (Edge g) (v :: vs) ∧ List.Forall₂ (fun u x => At g u x.1 x.2.1) vs p := by
  induction hp with
  | done s a => exact fun v _ => ⟨[], List.isChain_singleton _, .nil⟩
  | step s a s' a' side p hs _ ih =>
    intro v hv
    obtain ⟨e, he, rfl, h2, -⟩ := h.step hv hs
    obtain ⟨vs, h3, h4⟩ := ih _ h2
    exact ⟨e.dst :: vs, List.isChain_cons_cons.mpr ⟨⟨e, he, rfl, rfl⟩, h3⟩, .cons h2 h4⟩

theorem route_of_path {w : World} {a0 : Ask} {g : IG} (h : BInv w a0 g []) :
    ∀ (vs : List Nat) (v : Nat) (s : Str) (a : Ask), At g v s a → List.IsChain (Edge g) (v :: vs) →
      ∃ p, Route w s a p ∧ List.Forall₂ (fun u x => At g u x.1 x.2.1) vs p := by
  intro vs
  induction vs with
  | nil => exact fun v s a _ _ => ⟨[], .done _ _, .nil⟩
  | cons u vs ih =>
    intro v s a hv hc
    rw [List.isChain_cons_cons] at hc
    obtain ⟨⟨e, he, rfl, rfl⟩, hc⟩ := hc
    obtain ⟨s1, a1, s', a', sd, h1, h2, -, h4⟩ := h.core.edges e he
    obtain ⟨rfl, rfl⟩ := h1.unique hv
    obtain ⟨p, h5, h6⟩ := ih _ s' a' h2 hc
    exact ⟨(s', a', sd) :: p, .step _ _ _ _ _ _ h4 h5, .cons h2 h6⟩

theorem nodup_of_at {g : IG} {vs : List Nat} {xs : List (Str × Ask)} (h : List.Forall₂ (fun u x => At g u x.1 x.2) vs xs)
    (hn : xs.Nodup) : vs.Nodup := by
  induction h with
  | nil => exact List.nodup_nil
  | @cons u x vs xs hu hr ih =>
    rw [List.nodup_cons] at hn ⊢
    refine ⟨?_, ih hn.2⟩
    intro hm
    have : ∀ (vs : List Nat) (xs : List (Str × Ask)), List.Forall₂ (fun u x => At g u x.1 x.2) vs xs → u ∈ vs → x ∈ xs := by
      intro vs xs hf
      induction hf with
      | nil => intro h; cases h
      | @cons a y vs xs h1 _ ih2 =>
        intro h
        rcases List.mem_cons.mp h with rfl | h
        · have := h1.unique hu
          exact List.mem_cons.mpr (.inl (Prod.ext this.1.symm this.2.symm))
        · exact List.mem_cons_of_mem _ (ih2 h)
    exact hn.1 (this vs xs hr hm)

theorem forall₂_getLast {g : IG} {vs : List Nat} {xs : List (Str × Ask)} (h : List.Forall₂ (fun u x => At g u x.1 x.2) vs xs)
    (hne : vs ≠ []) : ∃ u x, vs.getLast? = some u ∧ xs.getLast? = some x ∧ At g u x.1 x.2 := by
  induction h with
  | nil => exact absurd rfl hne
  | @cons u x vs xs hu hr ih =>
    cases hr with
    | nil => exact ⟨u, x, rfl, rfl, hu⟩
    | cons h1 h2 =>
      obtain ⟨u', x', e1, e2, e3⟩ := ih (by simp)
      exact ⟨u', x', by rw [List.getLast?_cons_cons]; exact e1, by rw [List.getLast?_cons_cons]; exact e2, e3⟩

theorem forall₂_visited {g : IG} {a0 : Ask} {vs : List Nat} {p : Trail} (h0 : At g 0 [] a0)
    (h : List.Forall₂ (fun u (x : Str × Ask × Option Ask) => At g u x.1 x.2.1) vs p) :
    List.Forall₂ (fun u (x : Str × Ask) => At g u x.1 x.2) (0 :: vs) (visited a0 p) := by
  refine .cons h0 ?_
  induction h with
  | nil => exact .nil
  | cons h1 _ ih => exact .cons h1 ih

/-- A complete resolution is a maximal path of the graph. -/
theorem maximal_of_complete {w : World} {a0 : Ask} {g : IG} (h : BInv w a0 g []) {p : Trail} (hp : Complete w a0 p) :
    ∃ vs, MaximalPath g 0 (0 :: vs) ∧ List.Forall₂ (fun u x => At g u x.1 x.2.1) vs p := by
  obtain ⟨vs, h1, h2⟩ := path_of_route h hp.route 0 h.core.root
  have hv := forall₂_visited h.core.root h2
  refine ⟨vs, ⟨⟨rfl, h1⟩, nodup_of_at hv hp.simple, ?_⟩, h2⟩
  obtain ⟨u, x, e1, e2, e3⟩ := forall₂_getLast hv (by simp)
  refine ⟨u, e1, ?_⟩
  rintro u' ⟨e, he, rfl, rfl⟩
  obtain ⟨s, a, s', a', sd, h3, -, -, h5⟩ := h.core.edges e he
  obtain ⟨rfl, rfl⟩ := h3.unique e3
  exact hp.ended x e2 _ _ _ h5

/-- And a maximal path of the graph is a complete resolution. -/
theorem complete_of_maximal {w : World} {a0 : Ask} {g : IG} (h : BInv w a0 g []) {vs : List Nat} (hp : MaximalPath g 0 (0 :: vs)) :
    ∃ p, Complete w a0 p ∧ List.Forall₂ (fun u x => At g u x.1 x.2.1) vs p := by
  obtain ⟨⟨_, hc⟩, hn, ⟨u, hu, hlast⟩⟩ := hp
  obtain ⟨p, h1, h2⟩ := route_of_path h vs 0 [] a0 h.core.root hc
  have hv := forall₂_visited h.core.root h2
  refine ⟨p, ⟨h1, ?_, ?_⟩, h2⟩
  · have : ∀ (us : List Nat) (xs : List (Str × Ask)), List.Forall₂ (fun u x => At g u x.1 x.2) us xs → us.Nodup → xs.Nodup := by
      intro us xs hf
      induction hf with
      | nil => exact fun _ => List.nodup_nil
      | @cons a y us xs h3 hr ih =>
        intro hn
        rw [List.nodup_cons] at hn ⊢
        refine ⟨fun hm => hn.1 ?_, ih hn.2⟩
        clear ih hn
        induction hr with
        | nil => cases hm
        | @cons b z us xs h4 _ ih =>
          rcases List.mem_cons.mp hm with rfl | hm
          · exact List.mem_cons.mpr (.inl (h.core.uniq a b _ _ h3 h4))
          · exact List.mem_cons_of_mem _ (ih hm)
    exact this _ _ hv hn
  · intro x hx s' a' sd hst
    obtain ⟨u', x', e1, e2, e3⟩ := forall₂_getLast hv (by simp)
    rw [hu] at e1; cases e1
    rw [hx] at e2; cases e2
    obtain ⟨e, he, hsrc, hd, _⟩ := h.step e3 hst
    exact hlast e.dst ⟨e, he, hsrc, rfl⟩

/-! ## What the nodes answer -/

theorem Spec.Kind.unique {w : World} {s : Str} {a : Ask} {x : Answer} {as : List Answer} {t : Tag} (h : Says w s a (x :: as)) (hk : Kind w s a t)
    (ht : t ≠ .REFUSED) (ht' : t ≠ .NSNOTFOUND) : x.tag = t := by
  obtain ⟨y, bs, h', rfl⟩ := hk
  cases h' with
  | tooLong h1 =>
    cases h with
    | tooLong => rfl
    | zone id _ h2 => exact absurd h2 h1
    | refused h2 => exact absurd h2 h1
    | unknown h2 => exact absurd h2 h1
  | zone id _ h1 h2 h3 =>
    have := Says.unique h1 h2 h h3
    injection this with e1 _
    rw [e1]
  | refused => exact absurd rfl ht
  | unknown => exact absurd rfl ht'

theorem answers_kind {w : World} {a0 : Ask} {g : IG} (h : BInv w a0 g []) {v : Nat} {s : Str} {a : Ask} (hv : At g v s a) (hs : s ≠ [])
    {t : Tag} (ha : Answers g v t) : Kind w s a t := by
  obtain ⟨as, h1, h2⟩ := h.says hv hs
  unfold Answers firstAns at ha
  rw [h1] at ha
  cases as with
  | nil => cases ha
  | cons x as => exact ⟨x, as, h2, by simpa using ha⟩

theorem answers_iff_kind {w : World} {a0 : Ask} {g : IG} (h : BInv w a0 g []) {v : Nat} {s : Str} {a : Ask} (hv : At g v s a) (hs : s ≠ [])
    (hg : Sane g) {t : Tag} (ht : t ≠ .REFUSED) (ht' : t ≠ .NSNOTFOUND) : Answers g v t ↔ Kind w s a t := by
  refine ⟨answers_kind h hv hs, fun hk => ?_⟩
  obtain ⟨as, h1, h2⟩ := h.says hv hs
  unfold Answers firstAns
  rw [h1]
  cases as with
  | nil => exact absurd h1 (hg.answers v)
  | cons x as => simpa using hk.unique h2 ht ht'

theorem route_server {w : World} (hw : WellFormed w) {s : Str} {a : Ask} {p : Trail} (hp : Route w s a p) : ∀ x ∈ p, x.1 ≠ [] := by
  induction hp with
  | done => intro x hx; cases hx
  | step s a s' a' side p hs _ ih =>
    intro x hx
    rcases List.mem_cons.mp hx with rfl | hx
    · exact hs.target_ne hw
    · exact ih x hx

theorem servers_of_at {g : IG} {a0 : Ask} (h0 : At g 0 [] a0) {vs : List Nat} {p : Trail}
    (h : List.Forall₂ (fun u x => At g u x.1 x.2.1) vs p) (hs : ∀ x ∈ p, x.1 ≠ []) : servers g (0 :: vs) = p.map (·.1) := by
  have hrec : servers g vs = p.map (·.1) := by
    induction h with
    | nil => rfl
    | @cons u x vs p hu _ ih =>
      have := ih (fun y hy => hs y (List.mem_cons_of_mem _ hy))
      unfold servers at this ⊢
      rw [List.map_cons, List.map_cons, List.filter_cons_of_pos (by simpa [hu.2.1] using hs x List.mem_cons_self), this, hu.2.1]
  rw [← hrec]
  unfold servers
  rw [List.map_cons, List.filter_cons_of_neg (by simp [h0.2.1])]

theorem filter_of_at {w : World} {a0 : Ask} {g : IG} (h : BInv w a0 g []) (hg : Sane g) {vs : List Nat} {p : Trail}
    (hf : List.Forall₂ (fun u x => At g u x.1 x.2.1) vs p) (hs : ∀ x ∈ p, x.1 ≠ []) :
    ((0 :: vs).filter (fun v => decide (Answers g v .REWRITE))).length = rewritesOf w p := by
  have h0 : ¬ Answers g 0 .REWRITE := by
    have := h.core.dummy 0 _ h.core.root
    simp [Answers, firstAns, this]
  rw [List.filter_cons_of_neg (by simpa using h0)]
  unfold rewritesOf
  induction hf with
  | nil => rfl
  | @cons u x vs p hu _ ih =>
    have := ih (fun y hy => hs y (List.mem_cons_of_mem _ hy))
    have hk := answers_iff_kind h hu (hs x List.mem_cons_self) hg (t := .REWRITE) (by simp) (by simp)
    by_cases hr : Kind w x.1 x.2.1 .REWRITE
    · rw [List.filter_cons_of_pos (by simpa using hk.mpr hr), List.filter_cons_of_pos (by simpa using hr), List.length_cons, List.length_cons, this]
    · rw [List.filter_cons_of_neg (by simpa using fun h => hr (hk.mp h)), List.filter_cons_of_neg (by simpa using hr), this]

/-! ## Class and member -/

theorem below_only {w : World} (hd : ∀ id, ∀ r ∈ w.log id, r.type ≠ .DNAME) {a0 : Ask} {s : Str} {a : Ask} (h : Reached w a0 s a) :
    a.below = true → a0.below = true := by
  induction h with
  | start => exact id
  | step s a s' a' side _ hs ih =>
    intro hb
    cases hs with
    | top => exact ih hb
    | referral => exact ih hb
    | rewriteHere _ _ as x r _ _ h1 h2 h3 h4 h5 =>
      obtain ⟨id, hid⟩ := says_records h1 h2 h3 h4
      exact absurd (below_rewritten h5 hb) (hd id r hid)
    | rewriteTop _ _ as x r _ _ _ h1 h2 h3 h4 h5 =>
      obtain ⟨id, hid⟩ := says_records h1 h2 h3 h4
      exact absurd (below_rewritten h5 hb) (hd id r hid)
  | side s a s' a' b _ hs ih =>
    intro hb
    cases hs with
    | referral _ _ as x r _ _ h1 h2 h3 h4 h5 h6 =>
      rcases h6 with ⟨_, h6⟩ | ⟨_, h6⟩
      · cases h6
      · cases h6; cases hb

/-- Each name a class stands for is obtained from it by narrowing, and the narrowing is harmless. -/
theorem member_of_stands {w : World} (hw : WellFormed w) {all : List RR} (hall : ∀ id, ∀ r ∈ w.log id, r ∈ all) (hd : ∀ r ∈ all, r.type ≠ .DNAME)
    {q : EC} {m : Name} (hm : Stands all q m) (hs : Short m) :
    ∃ l rest, (ask q).member l rest = ⟨m, q.types, false⟩ ∧ Fresh w (ask q) l rest := by
  have hd' : ∀ id, ∀ r ∈ w.log id, r.type ≠ .DNAME := fun id r hr => hd r (hall id r hr)
  unfold Stands at hm
  cases hx : q.excluded with
  | none =>
    rw [hx] at hm
    dsimp only at hm
    subst hm
    have hb : (ask q).below = false := by simp [ask, hx]
    refine ⟨[], [], by rw [member_exact hb]; simp [ask, hx], ?_⟩
    intro a ha hab
    rcases ha with ⟨s, h⟩ | ⟨s, b, as, x, r, _, _, h1, h2, h3, h4, h5⟩
    · rw [below_only hd' h hab] at hb; cases hb
    · obtain ⟨id, hid⟩ := says_records h1 h2 h3 h4
      exact absurd (below_rewritten h5 hab) (hd' id r hid)
  | some ex =>
    rw [hx] at hm
    obtain ⟨l, rest, rfl, hk⟩ := hm
    have hn : ∀ id, ¬ NameExists (w.log id) (q.name ++ [l]) := by
      rintro id (h | ⟨r, hr, h⟩)
      · simp at h
      · exact hk (Or.inr ⟨r, hall id r hr, hw.supported id r hr, Or.inl h⟩)
    have hb0 : (ask q).below = true := by simp [ask, hx]
    exact ⟨l, rest, member_below hb0, C28_fresh_of_unknown w hd' (ask q) l rest hs hn⟩

theorem reached_route {w : World} {a0 : Ask} {s : Str} {a : Ask} {p : Trail} (hr : Reached w a0 s a) (hp : Route w s a p) :
    ∀ x ∈ p, Reached w a0 x.1 x.2.1 := by
  induction hp with
  | done => intro x hx; cases hx
  | step s a s' a' side p hs _ ih =>
    have := Reached.step s a s' a' side hr hs
    intro x hx
    rcases List.mem_cons.mp hx with rfl | hx
    · exact this
    · exact ih this x hx

/-- Narrow a whole trail. -/
def narrow (l : Label) (rest : Name) (p : Trail) : Trail := p.map (fun x => (x.1, x.2.1.member l rest, x.2.2))

theorem visited_narrow (l : Label) (rest : Name) (a0 : Ask) (p : Trail) :
    visited (a0.member l rest) (narrow l rest p) = (visited a0 p).map (fun x => (x.1, x.2.member l rest)) := by
  unfold visited narrow
  simp [Function.comp_def]

theorem complete_of_member {w : World} {a0 : Ask} {l : Label} {rest : Name} (hf : Fresh w a0 l rest) {p' : Trail}
    (h : Complete w (a0.member l rest) p') : ∃ p, p' = narrow l rest p ∧ Complete w a0 p := by
  obtain ⟨p, rfl, hp⟩ := C28_member_to_class w a0 l rest hf p' h.route
  have hv := visited_narrow l rest a0 p
  unfold narrow at hv
  refine ⟨p, rfl, hp, ?_, ?_⟩
  · have := h.simple
    rw [hv] at this
    exact this.of_map
  · intro x hx s' a' sd hst
    have hxm : x ∈ visited a0 p := List.mem_of_getLast? hx
    have hr : Reached w a0 x.1 x.2 := by
      rcases List.mem_cons.mp hxm with rfl | hxm
      · exact .start
      · obtain ⟨y, hy, rfl⟩ := List.mem_map.mp hxm
        exact reached_route .start hp y hy
    have hst' := step_member (hf.good hr) (hf.good (.step _ _ _ _ _ hr hst)) hst
    refine h.ended (x.1, x.2.member l rest) ?_ _ _ _ hst'
    rw [hv, List.getLast?_map, hx]
    rfl

theorem kind_member {w : World} {a0 : Ask} {l : Label} {rest : Name} (hf : Fresh w a0 l rest) {s : Str} {a : Ask} (hr : Reached w a0 s a) (t : Tag) :
    Kind w s a t ↔ Kind w s (a.member l rest) t := by
  unfold Kind
  constructor
  · rintro ⟨x, as, h, ht⟩; exact ⟨x, as, (C28_same_answers w a0 l rest hf s a hr _).mp h, ht⟩
  · rintro ⟨x, as, h, ht⟩; exact ⟨x, as, (C28_same_answers w a0 l rest hf s a hr _).mpr h, ht⟩

theorem hopsOf_narrow (l : Label) (rest : Name) (p : Trail) : hopsOf (narrow l rest p) = hopsOf p := by
  unfold hopsOf narrow
  simp [Function.comp_def]

theorem rewritesOf_narrow {w : World} {a0 : Ask} {l : Label} {rest : Name} (hf : Fresh w a0 l rest) {p : Trail}
    (hr : ∀ x ∈ p, Reached w a0 x.1 x.2.1) : rewritesOf w (narrow l rest p) = rewritesOf w p := by
  unfold rewritesOf narrow
  rw [List.filter_map, List.length_map]
  congr 1
  apply List.filter_congr
  intro x hx
  simp only [Function.comp_def, decide_eq_decide]
  exact (kind_member hf (hr x hx) _).symm

/-! ## Collected violations -/

theorem mem_concatM {α β : Type} {f : α → Res (List β)} : ∀ {l : List α} {r : List β}, concatM f l = .ok r → ∀ v, v ∈ r ↔ ∃ x ∈ l, ∃ rx, f x = .ok rx ∧ v ∈ rx := by
  intro l
  induction l with
  | nil =>
    intro r h v
    cases h
    simp
  | cons x l ih =>
    intro r h v
    unfold concatM at h
    obtain ⟨a, ha, h⟩ := bind_ok_iff.mp h
    obtain ⟨b, hb, h⟩ := bind_ok_iff.mp h
    cases h
    rw [List.mem_append, ih hb v]
    constructor
    · rintro (h | ⟨y, hy, ry, h1, h2⟩)
      · exact ⟨x, by simp, a, ha, h⟩
      · exact ⟨y, by simp [hy], ry, h1, h2⟩
    · rintro ⟨y, hy, ry, h1, h2⟩
      rcases List.mem_cons.mp hy with rfl | hy
      · rw [ha] at h1; cases h1; exact .inl h2
      · exact .inr ⟨y, hy, ry, h1, h2⟩

theorem concatM_all {α β : Type} {f : α → Res (List β)} : ∀ {l : List α} {r : List β}, concatM f l = .ok r → ∀ x ∈ l, ∃ rx, f x = .ok rx ∧ ∀ v ∈ rx, v ∈ r := by
  intro l
  induction l with
  | nil => intro r _ x hx; cases hx
  | cons y l ih =>
    intro r h x hx
    unfold concatM at h
    obtain ⟨a, ha, h⟩ := bind_ok_iff.mp h
    obtain ⟨b, hb, h⟩ := bind_ok_iff.mp h
    cases h
    rcases List.mem_cons.mp hx with rfl | hx
    · exact ⟨a, ha, fun v hv => List.mem_append_left _ hv⟩
    · obtain ⟨rx, h1, h2⟩ := ih hb x hx
      exact ⟨rx, h1, fun v hv => List.mem_append_right _ (h2 v hv)⟩

/-- What the processing of one class reports: the loop, the path checks on the enumerated paths, the end-node checks. -/
theorem processEC_parts {fuel thr : Nat} {ctx : Context} {pf : List PathFn} {nf : List NodeFn} {q : EC} {r : List Violation × Nat × Nat}
    (h : processEC fuel thr ctx pf nf q = .ok r) : ∃ g l s a b, buildIG fuel thr ctx q = .ok g ∧ g.checkLoops fuel 0 [] = .ok l ∧
      g.enumerate fuel 0 [] {} = .ok s ∧ concatM (fun p => concatM (PathFn.run g p) pf) s.paths = .ok a ∧
      concatM (NodeFn.run g s.ends) nf = .ok b ∧ r.1 = l.toList ++ (a ++ b) := by
  unfold processEC checkProperties at h
  obtain ⟨g, h1, h⟩ := bind_ok_iff.mp h
  obtain ⟨l, h2, h⟩ := bind_ok_iff.mp h
  obtain ⟨v, h3, h⟩ := bind_ok_iff.mp h
  obtain ⟨s, h4, h3⟩ := bind_ok_iff.mp h3
  obtain ⟨a, h5, h3⟩ := bind_ok_iff.mp h3
  obtain ⟨b, h6, h3⟩ := bind_ok_iff.mp h3
  cases h3
  cases h
  exact ⟨g, l, s, a, b, h1, h2, h4, h5, h6, rfl⟩

end Groot
