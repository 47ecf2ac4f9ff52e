import Verif.Spec.Final
import Verif.Props.Outcome

/-! # Where resolutions end: the same for a class and for its members -/

namespace Groot
open Spec

theorem route_append {w : World} {s : Str} {a : Ask} {p1 p2 : Trail} {x : Str × Ask × Option Ask} (h : Route w s a (p1 ++ x :: p2)) :
    Route w x.1 x.2.1 p2 := by
  induction p1 generalizing s a with
  | nil => cases h with | step _ _ _ _ _ _ _ h => exact h
  | cons y p1 ih => cases h with | step _ _ _ _ _ _ _ h => exact ih h

/-- Circles can be cut out of a sequence of steps. -/
theorem cut_circles {w : World} {s : Str} {a : Ask} {p : Trail} (h : Route w s a p) :
    ∃ p', Route w s a p' ∧ ((s, a) :: p'.map (fun x => (x.1, x.2.1))).Nodup ∧
      ((s, a) :: p'.map (fun x => (x.1, x.2.1))).getLast? = ((s, a) :: p.map (fun x => (x.1, x.2.1))).getLast? := by
  induction h with
  | done s a => exact ⟨[], .done _ _, by simp, rfl⟩
  | step s a s' a' side p hs _ ih =>
    obtain ⟨p', h1, h2, h3⟩ := ih
    by_cases hm : (s, a) ∈ (s', a') :: p'.map (fun x => (x.1, x.2.1))
    · -- the rest comes back here
      have key : ∃ p'', Route w s a p'' ∧ ∃ pre, (s', a') :: p'.map (fun x => (x.1, x.2.1)) = pre ++ (s, a) :: p''.map (fun x => (x.1, x.2.1)) := by
        rcases List.mem_cons.mp hm with e | hm
        · injection e with e1 e2; subst e1; subst e2
          exact ⟨p', h1, [], rfl⟩
        · obtain ⟨y, hy, e⟩ := List.mem_map.mp hm
          obtain ⟨p1, p2, rfl⟩ := List.append_of_mem hy
          injection e with e1 e2
          refine ⟨p2, by have := route_append h1; rwa [e1, e2] at this, (s', a') :: p1.map (fun x => (x.1, x.2.1)), ?_⟩
          simp [e1, e2]
      obtain ⟨p'', h4, pre, h5⟩ := key
      refine ⟨p'', h4, ?_, ?_⟩
      · rw [h5] at h2; exact h2.of_append_right
      · rw [List.map_cons, List.getLast?_cons_cons, ← h3, h5, List.getLast?_append, List.getLast?_cons]
        rfl
    · refine ⟨(s', a', side) :: p', .step _ _ _ _ _ _ hs h1, List.nodup_cons.mpr ⟨hm, h2⟩, ?_⟩
      rw [List.map_cons, List.map_cons, List.getLast?_cons_cons, List.getLast?_cons_cons]
      exact h3

theorem getLast?_map_some {α β : Type} {f : α → β} {l : List α} {y : β} (h : (l.map f).getLast? = some y) :
    ∃ pre x, l = pre ++ [x] ∧ f x = y := by
  rw [List.getLast?_map] at h
  cases hl : l.getLast? with
  | none => rw [hl] at h; cases h
  | some x =>
    rw [hl] at h
    obtain ⟨pre, e⟩ := List.getLast?_eq_some_iff.mp hl
    exact ⟨pre, x, e, by simpa using h⟩

theorem reached_of_route {w : World} {a0 : Ask} {p : Trail} {s : Str} {a : Ask} {side : Option Ask} (h : Route w [] a0 (p ++ [(s, a, side)])) :
    Reached w a0 s a := reached_route .start h (s, a, side) (by simp)

/-- The ends of the examined resolutions are the ends of all resolutions. -/
theorem endsAt_iff {w : World} (hw : WellFormed w) {a0 : Ask} {said : Str → Ask → List Answer} (ha : Answering w a0 said) (x : Visit) :
    EndsAt w said a0 x ↔ Ending w a0 x ∧ x.said = said x.server x.ask := by
  constructor
  · rintro ⟨p, hp, hl⟩
    have hl0 := hl
    unfold transcript at hl
    obtain ⟨pre, ⟨s, a, side⟩, rfl, rfl⟩ := getLast?_map_some hl
    have hroute : Route w [] a0 (pre ++ [(s, a, side)]) := hp.elim (·.route) (·.route)
    have hr := reached_of_route hroute
    have hs : s ≠ [] := route_server hw hroute (s, a, side) (by simp)
    refine ⟨⟨⟨pre, side, hroute⟩, ha s a hr hs, ?_⟩, rfl⟩
    rcases hp with hp | hp
    · refine .inl (hp.ended (s, a) ?_)
      unfold visited
      simp [List.getLast?_cons]
    · obtain ⟨y, h1, h2⟩ := hp.ended
      rw [hl0] at h1
      cases h1
      exact .inr h2
  · rintro ⟨⟨⟨p, side, hroute⟩, hsay, hend⟩, hsaid⟩
    obtain ⟨sv, a, as⟩ := x
    dsimp only at hroute hsay hsaid hend
    have hs : sv ≠ [] := route_server hw hroute (sv, a, side) (by simp)
    obtain ⟨p', h1, h2, h3⟩ := cut_circles hroute
    have h4 : (([], a0) :: (p ++ [(sv, a, side)]).map (fun x => (x.1, x.2.1))).getLast? = some (sv, a) := by simp [List.getLast?_cons]
    rw [h4] at h3
    have hlast : (p'.map (fun x => (x.1, x.2.1))).getLast? = some (sv, a) := by
      cases hp' : p'.map (fun x => (x.1, x.2.1)) with
      | nil => rw [hp'] at h3; simp at h3; exact absurd h3.1 hs
      | cons y ys => rw [hp', List.getLast?_cons_cons] at h3; exact h3
    obtain ⟨pre, y, rfl, e⟩ := getLast?_map_some hlast
    injection e with e1 e2
    have htr : (transcript said (pre ++ [y])).getLast? = some ⟨sv, a, as⟩ := by
      unfold transcript
      simp [e1, e2, hsaid]
    refine ⟨pre ++ [y], ?_, htr⟩
    rcases hend with hend | hend
    · refine .inl ⟨h1, h2, ?_⟩
      intro z hz
      change (([], a0) :: (pre ++ [y]).map (fun x => (x.1, x.2.1))).getLast? = some z at hz
      rw [h3] at hz
      cases hz
      exact hend
    · refine .inr ⟨h1, ?_, _, htr, hend⟩
      exact (List.dropLast_sublist _).nodup h2

/-- An answer other than a refusal or ignorance of the server is the only one. -/
theorem says_determined {w : World} {s : Str} {a : Ask} {as as' : List Answer} (h : Says w s a as) (h' : Says w s a as')
    (hr : as.head?.map (·.tag) ≠ some .REFUSED) (hn : as.head?.map (·.tag) ≠ some .NSNOTFOUND) : as = as' := by
  cases h with
  | tooLong h1 =>
    cases h' with
    | tooLong => rfl
    | zone _ _ h2 => exact absurd h2 h1
    | refused h2 => exact absurd h2 h1
    | unknown h2 => exact absurd h2 h1
  | zone id _ h1 h2 h3 => exact (Says.unique h1 h2 h' h3).symm
  | refused => exact absurd rfl hr
  | unknown => exact absurd rfl hn

/-- The end of a class's resolution is, for a member, the end of its resolution. -/
theorem ending_member {w : World} {a0 : Ask} {l : Label} {rest : Name} (hf : Fresh w a0 l rest) {x : Visit} (h : Ending w a0 x) :
    Ending w (a0.member l rest) ⟨x.server, x.ask.member l rest, x.said⟩ := by
  obtain ⟨⟨p, side, hr⟩, hs, he⟩ := h
  have hre := reached_of_route hr
  refine ⟨⟨narrow l rest p, side, ?_⟩, (says_member (hf.good hre) _ _).mp hs, ?_⟩
  · have := C28_class_to_member w a0 l rest hf _ hr
    simpa [narrow] using this
  · rcases he with he | he
    · left
      intro s' a' sd hst
      obtain ⟨b, _, h2⟩ := step_of_member (hf.good hre) (hf.good' hre) hst
      exact he _ _ _ h2
    · right
      refine ⟨he.1, he.2.1, ?_⟩
      have : (x.ask.member l rest).types = x.ask.types := by unfold Ask.member; split <;> rfl
      show Member (x.ask.member l rest).types .CNAME
      rw [this]; exact he.2.2

/-- Every end of a member's resolution arises so. -/
theorem ending_of_member {w : World} {a0 : Ask} {l : Label} {rest : Name} (hf : Fresh w a0 l rest) {x : Visit} (h : Ending w (a0.member l rest) x) :
    ∃ b, x.ask = b.member l rest ∧ Ending w a0 ⟨x.server, b, x.said⟩ := by
  obtain ⟨⟨p, side, hr⟩, hs, he⟩ := h
  obtain ⟨p2, e, hr2⟩ := C28_member_to_class w a0 l rest hf _ hr
  obtain ⟨pre, y, rfl⟩ : ∃ pre y, p2 = pre ++ [y] := by
    rcases List.eq_nil_or_concat p2 with rfl | ⟨pre, y, rfl⟩
    · simp at e
    · exact ⟨pre, y, by simp⟩
  rw [List.map_append, List.map_singleton] at e
  have e2 := (List.append_inj' e rfl).2
  injection e2 with e2
  obtain ⟨ys, yb, yd⟩ := y
  injection e2 with e3 e2
  injection e2 with e4 e5
  subst e3
  dsimp only at e4
  have hre := reached_of_route hr2
  refine ⟨yb, e4, ⟨pre, yd, hr2⟩, (says_member (hf.good hre) _ _).mpr (e4 ▸ hs), ?_⟩
  rcases he with he | he
  · left
    intro s' a' sd hst
    have := step_member (hf.good hre) (hf.good (.step _ _ _ _ _ hre hst)) hst
    rw [← e4] at this
    exact he _ _ _ this
  · right
    refine ⟨he.1, he.2.1, ?_⟩
    have h1 := he.2.2
    rw [e4] at h1
    have : (yb.member l rest).types = yb.types := by unfold Ask.member; split <;> rfl
    rw [this] at h1; exact h1


/-! ### Asking for more types -/

/-- Asked for more types, a server gives an answer of the same kind with at least the same records. -/
structure Widens (as bs : List Answer) : Prop where
  tag : as.head?.map (·.tag) = bs.head?.map (·.tag)
  records : ∀ r ∈ (as.head?.map (·.rrs)).getD [], r ∈ (bs.head?.map (·.rrs)).getD []
  rewrite : as.head?.map (·.tag) = some .REWRITE → as = bs

theorem dataFor_mono {log : List RR} {q q' : EC} {m : Name} {exact : Bool} (h : ∀ t, Member q.types t → Member q'.types t) {r : RR}
    (hr : r ∈ dataFor log q m exact) : r ∈ dataFor log q' m exact := by
  unfold dataFor at *
  cases exact with
  | true =>
    rw [if_pos rfl] at *
    rcases List.mem_append.mp hr with hr | hr
    · rw [List.mem_filter, decide_eq_true_eq] at hr
      exact List.mem_append_left _ (List.mem_filter.mpr ⟨hr.1, decide_eq_true ⟨hr.2.1, h _ hr.2.2⟩⟩)
    · split at hr
      · rename_i hn
        rw [if_pos (h _ hn)]
        exact List.mem_append_right _ hr
      · cases hr
  | false =>
    rw [if_neg (by simp)] at *
    rw [List.mem_filter, decide_eq_true_eq] at hr
    exact List.mem_filter.mpr ⟨hr.1, decide_eq_true (h _ hr.2)⟩

theorem reply_widen {log : List RR} {q q' : EC} (hn : q.name = q'.name) (hx : q.excluded = q'.excluded) (h1 : AsksOther q.types)
    (h2 : AsksOther q'.types) (hsub : ∀ t, Member q.types t → Member q'.types t) {as : List Answer} (h : Reply log q as) :
    ∃ bs, Reply log q' bs ∧ Widens as bs := by
  have hoc : ¬ OnlyCname q := by
    obtain ⟨t, ht, hm⟩ := h1
    intro h; exact ht ((h t).mp hm)
  have hoc' : ¬ OnlyCname q' := by
    obtain ⟨t, ht, hm⟩ := h2
    intro h; exact ht ((h t).mp hm)
  have hex : ∀ e, ExactFor q e ↔ ExactFor q' e := by
    intro e; unfold ExactFor; rw [hn, hx]
  have hsrc : ∀ e m x, Source log q e m x → Source log q' e m x := by
    rintro e m x ⟨h3, h4⟩
    refine ⟨h3, ?_⟩
    rw [← hex e]; exact h4
  cases h with
  | referral e ts he hc ht => exact ⟨_, .referral e ts (hn ▸ he) hc ht, rfl, fun _ h => h, fun _ => rfl⟩
  | dname e ts r he hc hxx h3 h4 h5 ht =>
    exact ⟨_, .dname e ts r (hn ▸ he) hc (fun h => hxx ((hex e).mpr h)) h3 h4 h5 ht, rfl, fun _ h => h, fun _ => rfl⟩
  | cname e m exact ts r tag he hs h3 h4 h5 ht htag =>
    refine ⟨_, .cname e m exact ts r tag (hn ▸ he) (hsrc _ _ _ hs) h3 h4 h5 ht ?_, rfl, fun _ h => h, fun _ => rfl⟩
    rcases htag with ⟨h, _⟩ | ⟨_, h⟩
    · exact absurd h hoc
    · exact .inr ⟨hoc', h⟩
  | data e m exact found missing he hs h3 h4 h5 =>
    obtain ⟨f', hf'⟩ := exists_types (fun t => Member q'.types t ∧ HasType log m t)
    obtain ⟨g', hg'⟩ := exists_types (fun t => Member q'.types t ∧ ¬ HasType log m t)
    have hN : ∀ {ts : TypeSet} {t : RRType}, Member ts t → t ≠ .N := fun h => h.1
    have z : ∀ t, ¬ Member (0 : TypeSet) t := by intro t h; simp [Member] at h
    have head : ∀ {T f g : TypeSet} (l : List RR), AsksOther T → (∀ t, Member f t ↔ Member T t ∧ HasType log m t) →
        (∀ t, Member g t ↔ Member T t ∧ ¬ HasType log m t) → (dataAnswers f g l).head?.map (·.tag) = some .ANS := by
      rintro T f g l ⟨t, _, ht⟩ hf hg
      unfold dataAnswers
      by_cases hf0 : f = 0
      · have hg0 : g ≠ 0 := by
          intro hg0
          by_cases hh : HasType log m t
          · exact z t (hf0 ▸ (hf t).mpr ⟨ht, hh⟩)
          · exact z t (hg0 ▸ (hg t).mpr ⟨ht, hh⟩)
        rw [if_pos hf0, if_neg hg0]; rfl
      · rw [if_neg hf0]; rfl
    have ha := head (dataFor log q m exact) h1 h4 h5
    have hf2 : ∀ t, Member f' t ↔ Member q'.types t ∧ HasType log m t := fun t => by rw [hf']; exact ⟨fun h => h.2, fun h => ⟨hN h.1, h⟩⟩
    have hg2 : ∀ t, Member g' t ↔ Member q'.types t ∧ ¬ HasType log m t := fun t => by rw [hg']; exact ⟨fun h => h.2, fun h => ⟨hN h.1, h⟩⟩
    have hb := head (dataFor log q' m exact) h2 hf2 hg2
    refine ⟨_, .data e m exact f' g' (hn ▸ he) (hsrc _ _ _ hs) h3 hf2 hg2, ha.trans hb.symm, ?_, fun h => ?_⟩
    · intro r hr
      by_cases hf0 : found = 0
      · exfalso
        unfold dataAnswers at hr
        rw [if_pos hf0] at hr
        split at hr <;> simp at hr
      · have hf0' : f' ≠ 0 := by
          intro e
          apply hf0
          apply typeSet_ext
          intro t
          rw [Bool.eq_iff_iff, has_iff, has_iff]
          constructor
          · intro h
            have := (h4 t).mp h
            exact absurd ((hf2 t).mpr ⟨hsub t this.1, this.2⟩) (e ▸ z t)
          · intro h; exact absurd h (z t)
        unfold dataAnswers at hr ⊢
        rw [if_neg hf0] at hr
        rw [if_neg hf0']
        exact dataFor_mono hsub hr
    · rw [ha] at h; cases h
  | nx e he hc hxx hd hw =>
    exact ⟨_, .nx e (hn ▸ he) hc (fun h => hxx ((hex e).mpr h)) hd hw, rfl, fun _ h => h, fun h => by cases h⟩

theorem says_widen {w : World} {s : Str} {a b : Ask} (hn : a.name = b.name) (hb : a.below = b.below) (h1 : AsksOther a.types)
    (h2 : AsksOther b.types) (hsub : ∀ t, Member a.types t → Member b.types t) {as : List Answer} (h : Says w s a as) :
    ∃ bs, Says w s b bs ∧ Widens as bs := by
  cases h with
  | tooLong h => exact ⟨_, .tooLong (hn ▸ h), rfl, fun _ h => h, fun h => by cases h⟩
  | zone id _ h3 h4 h5 =>
    obtain ⟨bs, h6, h7⟩ := reply_widen (q := a.ec) (q' := b.ec) hn (by unfold Ask.ec; rw [hb]) h1 h2 hsub h5
    exact ⟨bs, .zone id bs (hn ▸ h3) (hn ▸ h4) h6, h7⟩
  | refused h3 h4 h5 => exact ⟨_, .refused (hn ▸ h3) (hn ▸ h4) h5, rfl, fun _ h => h, fun h => by cases h⟩
  | unknown h3 h4 => exact ⟨_, .unknown (hn ▸ h3) h4, rfl, fun _ h => h, fun h => by cases h⟩

theorem alike_sub {t1 t2 : TypeSet} (h : ∀ t, Member t1 t → Member t2 t) {a b : Ask} (hal : AlikeAsk t1 t2 a b) :
    ∀ t, Member a.types t → Member b.types t := by
  intro t ht
  rcases hal.2.2 with ⟨e1, e2⟩ | ⟨e1, e2⟩
  · rw [e2]; rw [e1] at ht; exact h t ht
  · rw [e2, member_remove]; rw [e1, member_remove] at ht; exact ⟨h t ht.1, ht.2⟩

theorem ending_widen {w : World} {t1 t2 : TypeSet} (h1 : AsksOther t1) (h2 : AsksOther t2) (hsub : ∀ t, Member t1 t → Member t2 t)
    {a b : Ask} (hal : AlikeAsk t1 t2 a b) {x : Visit} (hx : Ending w a x) :
    ∃ y, Ending w b y ∧ y.server = x.server ∧ y.ask.name = x.ask.name ∧ (∀ t, Member x.ask.types t → Member y.ask.types t) ∧ Widens x.said y.said := by
  obtain ⟨⟨p, side, hr⟩, hs, he⟩ := hx
  obtain ⟨p', h3, h4⟩ := route_retype h1 h2 hr hal
  obtain ⟨z, y, e1, e2, e3, e4⟩ := forall₂_last h4 (by simp)
  obtain ⟨pre, rfl⟩ := List.getLast?_eq_some_iff.mp e2
  simp at e1
  subst e1
  obtain ⟨ys, ya, yd⟩ := y
  dsimp only at e3 e4
  subst e3
  have hsb := alike_sub hsub e4
  obtain ⟨bs, h5, h6⟩ := says_widen e4.1 e4.2.1 (e4.left h1) (e4.symm.left h2) hsb hs
  refine ⟨⟨x.server, ya, bs⟩, ⟨⟨pre, yd, h3⟩, h5, ?_⟩, rfl, e4.1.symm, hsb, h6⟩
  rcases he with he | he
  · left
    intro s' a' sd hst
    obtain ⟨b', h7, _⟩ := step_retype h2 h1 e4.symm hst
    exact he _ _ _ h7
  · right
    have := h6.rewrite he.1
    subst this
    exact ⟨he.1, he.2.1, hsb _ he.2.2⟩

theorem known_closed {rs : List RR} {n rest : Name} (h : Known rs (n ++ rest)) : Known rs n := by
  rcases h with h | ⟨r, hr, ht, ⟨x, hx⟩ | ⟨hd, x, hx⟩⟩
  · left; exact (List.append_eq_nil_iff.mp h).1
  · exact .inr ⟨r, hr, ht, .inl ⟨rest ++ x, by rw [hx]; simp⟩⟩
  · exact .inr ⟨r, hr, ht, .inr ⟨hd, rest ++ x, by rw [hx]; simp⟩⟩

/-- The longest known part of a name is unique. -/
theorem longest_unique {rs : List RR} {n n' : Name} {l l' : Label} {rest rest' : Name} (e : n ++ l :: rest = n' ++ l' :: rest') (hn : Known rs n)
    (hl : ¬ Known rs (n ++ [l])) (hn' : Known rs n') (hl' : ¬ Known rs (n' ++ [l'])) : n = n' := by
  have key : ∀ {n n' : Name} {l l' : Label} {rest rest' : Name}, n ++ l :: rest = n' ++ l' :: rest' → ¬ Known rs (n ++ [l]) → Known rs n' →
      n'.length ≤ n.length := by
    intro n n' l l' rest rest' e hl hn'
    by_contra hlt
    rw [Nat.not_le] at hlt
    apply hl
    have h1 : (n ++ l :: rest).take (n.length + 1) = n ++ [l] := by simp [List.take_append]
    have h2 : (n' ++ l' :: rest').take (n.length + 1) = n'.take (n.length + 1) := by
      rw [List.take_append_of_le_length]; omega
    rw [e, h2] at h1
    rw [← h1]
    have h3 := List.take_append_drop (n.length + 1) n'
    rw [← h3] at hn'
    exact known_closed hn'
  have h1 := key e hl hn'
  have h2 := key e.symm hl' hn
  exact (List.append_inj e (by omega)).1

variable {ctx : Context} {w : World} {xs : List (RR × Nat × Nat)} {job : Job}

/-- What is asked about the names a class of the run stands for. -/
theorem Setting.asked (S : Setting ctx w xs job) {thr thr' fuel : Nat} {g' : LGraph} {ts : List Task} {vs : List Violation}
    (hrun : Driver.runSequential fuel thr ctx (labelGraph thr' xs) job = .ok (g', ts, vs)) {q : EC} (hq : q ∈ Spec.classes ts) {m : Name}
    (hm : Stands (xs.map (·.1)) q m) :
    question job (xs.map (·.1)) m = ⟨m, q.types, false⟩ ∧ (q.nonExistent = true ↔ Unexpected job (xs.map (·.1)) m) := by
  have hts := S.generated hrun
  have key : (q.types = job.types ∧ q.nonExistent = false ∧ ¬ Unexpected job (xs.map (·.1)) m) ∨
      (q.types = ~~~0 ∧ q.nonExistent = true ∧ Unexpected job (xs.map (·.1)) m) := by
    by_cases hc : job.subdomains = true ∧ Known (xs.map (·.1)) (stringToLabels job.domain)
    · obtain ⟨hsub, hk⟩ := hc
      obtain ⟨N, ts', h1, h2⟩ := C24_classes_no_dname thr' xs S.regular S.noDname (Driver.req job) S.domain hsub hk
      have := mono_agree (f := fun n => LGraph.generateECs n (labelGraph thr' xs) (Driver.req job)) (fun n r => generateECs_mono n _ _ r) (h1 N (Nat.le_refl _)) hts
      simp at this
      obtain ⟨_, rfl⟩ := this
      obtain ⟨n, _, hn, _, rfl | e⟩ := (h2 q).mp hq
      · left
        refine ⟨rfl, rfl, ?_⟩
        rintro ⟨_, _, n', l, rest, e, _, h3, _⟩
        change m = n at hm
        apply h3
        rw [hm] at e
        rw [e] at hn
        exact known_closed (rest := rest) (by simpa using hn)
      · unfold belowClass at e
        split at e
        · rename_i hwild
          subst e
          obtain ⟨l, rest, rfl, hl⟩ := hm
          left
          refine ⟨rfl, rfl, ?_⟩
          rintro ⟨_, _, n', l', rest', e, h3, h4, h5⟩
          have := longest_unique e hn hl h3 h4
          subst this
          exact h5 hwild
        · rename_i hwild
          subst e
          obtain ⟨l, rest, rfl, hl⟩ := hm
          right
          exact ⟨rfl, rfl, hsub, hk, n, l, rest, rfl, hn, hl, hwild⟩
    · left
      have hno : ¬ Unexpected job (xs.map (·.1)) m := fun h => hc ⟨h.1, h.2.1⟩
      obtain ⟨N, ts', h1, _, h3⟩ := C29_single thr' xs (Driver.req job)
      have := mono_agree (f := fun n => LGraph.generateECs n (labelGraph thr' xs) (Driver.req job)) (fun n r => generateECs_mono n _ _ r) (h1 N (Nat.le_refl _)) hts
      simp at this
      obtain ⟨_, rfl⟩ := this
      obtain ⟨k, ⟨kn, hk⟩, _, h6, h7⟩ := h3 S.domain
      by_cases hk' : k = (stringToLabels (Driver.req job).domain).length
      · have hsf : job.subdomains = false := by
          cases hs : job.subdomains with
          | false => rfl
          | true =>
            exfalso
            apply hc
            refine ⟨hs, ?_⟩
            obtain ⟨hkn, ⟨rest, hp⟩, hkk⟩ := (matches_plain (no_dname_records S.noDname)).mp hk
            have hr : rest = [] := by
              have := congrArg List.length hp
              rw [List.length_append] at this
              exact List.length_eq_zero_iff.mp (by omega)
            rw [hr, List.append_nil] at hp
            rw [← hp] at hkk
            exact hkk
        have := h6 hk' hsf
        rw [this] at hq
        have : q = exactClass (stringToLabels job.domain) job.types := List.mem_singleton.mp hq
        subst this
        exact ⟨rfl, rfl, hno⟩
      · have := h7 hk'
        rw [this] at hq
        have : q = { name := (stringToLabels job.domain).take k, types := job.types, excluded := some [] } := List.mem_singleton.mp hq
        subst this
        exact ⟨rfl, rfl, hno⟩
  unfold question
  rcases key with ⟨h1, h2, h3⟩ | ⟨h1, h2, h3⟩
  · rw [if_neg h3, h1, h2]; simp [h3]
  · rw [if_pos h3, h1, h2]; simp [h3]

/-- Without DNAMEs, the only question about a class of unknown names is the first one. -/
theorem below_same {w : World} (hd : ∀ id, ∀ r ∈ w.log id, r.type ≠ .DNAME) {a0 : Ask} {s : Str} {a : Ask} (h : Reached w a0 s a) :
    a.below = true → a = a0 := by
  induction h with
  | start => exact fun _ => rfl
  | step s a s' a' side _ hs ih =>
    intro hb
    cases hs with
    | top => exact ih hb
    | referral => exact ih hb
    | rewriteHere _ _ as x r _ _ h1 h2 h3 h4 h5 =>
      obtain ⟨id, hid⟩ := says_records h1 h2 h3 h4
      exact absurd (below_rewritten h5 hb) (hd id r hid)
    | rewriteTop _ _ as x r _ _ _ h1 h2 h3 h4 h5 =>
      obtain ⟨id, hid⟩ := says_records h1 h2 h3 h4
      exact absurd (below_rewritten h5 hb) (hd id r hid)
  | side s a s' a' b _ hs ih =>
    intro hb
    cases hs with
    | referral _ _ as x r _ _ h1 h2 h3 h4 h5 h6 =>
      rcases h6 with ⟨_, h6⟩ | ⟨_, h6⟩
      · cases h6
      · cases h6; cases hb

/-- The question `b` in the resolution of a class corresponds to the question `c` in that of its member `a`. -/
def SameAsk (q : EC) (a b c : Ask) : Prop := c = b ∨ b = ask q ∧ c = a

/-- The class and its members: where their resolutions end. -/
structure EndBridge (w : World) (q : EC) (a : Ask) : Prop where
  types : a.types = q.types
  down : ∀ x, Ending w (ask q) x → ∃ c, Ending w a ⟨x.server, c, x.said⟩ ∧ SameAsk q a x.ask c
  up : ∀ x, Ending w a x → ∃ b, Ending w (ask q) ⟨x.server, b, x.said⟩ ∧ SameAsk q a b x.ask

theorem EndBridge.same (hB : EndBridge w q a) {b c : Ask} (h : SameAsk q a b c) : b.types = c.types := by
  rcases h with rfl | ⟨rfl, rfl⟩
  · rfl
  · exact hB.types.symm

theorem Setting.endBridge (S : Setting ctx w xs job) {thr thr' fuel : Nat} {g' : LGraph} {ts : List Task} {vs : List Violation}
    (hrun : Driver.runSequential fuel thr ctx (labelGraph thr' xs) job = .ok (g', ts, vs)) {q : EC} (hq : q ∈ Spec.classes ts) {m : Name}
    (hm : Stands (xs.map (·.1)) q m) (hs : Short m) : EndBridge w q (question job (xs.map (·.1)) m) := by
  obtain ⟨lb, rest, e, hf⟩ := member_of_stands S.wellFormed S.all S.noDname' hm hs
  have key : ∀ (b : Ask) (s : Str), Reached w (ask q) s b → SameAsk q (question job (xs.map (·.1)) m) b (b.member lb rest) := by
    intro b s hr
    cases hb : b.below with
    | false => left; rw [member_exact hb]
    | true =>
      right
      have := below_same S.noDnameW hr hb
      subst this
      exact ⟨rfl, e.trans (S.asked hrun hq hm).1.symm⟩
  have hqn : question job (xs.map (·.1)) m = (ask q).member lb rest := (S.asked hrun hq hm).1.trans e.symm
  refine ⟨by rw [(S.asked hrun hq hm).1], ?_, ?_⟩
  · intro x hx
    obtain ⟨p, side, hr⟩ := hx.route
    exact ⟨_, hqn ▸ ending_member hf hx, key _ _ (reached_of_route hr)⟩
  · intro x hx
    obtain ⟨b, e, h⟩ := ending_of_member hf (hqn ▸ hx)
    obtain ⟨p, side, hr⟩ := h.route
    exact ⟨b, h, e ▸ key _ _ (reached_of_route hr)⟩

end Groot
