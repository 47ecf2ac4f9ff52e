import Verif.Lemmas.Watched
import Verif.Lemmas.Verdict5
import Verif.Spec.Watched

/-! # Rewriting with the same record more than once -/

namespace Groot
open Spec

theorem reply_rewrite_one {log : List RR} {q : EC} {as : List Answer} (h : Reply log q as) {x : Answer} (e : as = [x]) (ht : x.tag = .REWRITE) :
    x.rrs.length ≤ 1 := by
  cases h with
  | referral => injection e with e; rw [← e] at ht; cases ht
  | dname => injection e with e; rw [← e]; exact Nat.le_refl _
  | cname => injection e with e; rw [← e]; exact Nat.le_refl _
  | data e m exact found missing =>
    have hx : x ∈ dataAnswers found missing (dataFor log q m exact) := by rw [e]; simp
    unfold dataAnswers at hx
    split at hx <;> simp_all
    rcases hx with rfl | ⟨-, rfl⟩ <;> cases ht
  | nx => injection e with e; rw [← e] at ht; cases ht

theorem reply_not_yx {log : List RR} {q : EC} {as : List Answer} (h : Reply log q as) : ∀ x ∈ as, x.tag ≠ .YX := by
  intro x hx
  cases h with
  | referral => rw [List.mem_singleton.mp hx]; simp
  | dname => rw [List.mem_singleton.mp hx]; simp
  | cname _ _ _ _ _ _ _ _ _ _ _ _ h =>
    rw [List.mem_singleton.mp hx]
    rcases h with ⟨-, rfl⟩ | ⟨-, rfl⟩ <;> simp
  | data e m exact found missing =>
    unfold dataAnswers at hx
    rcases List.mem_append.mp hx with hx | hx <;> split at hx
    · cases hx
    · rw [List.mem_singleton.mp hx]; simp
    · cases hx
    · rw [List.mem_singleton.mp hx]; simp
  | nx => rw [List.mem_singleton.mp hx]; simp

section

variable {w : World} {said : Str → Ask → List Answer} {p : Trail}

/-- The visit of a step. -/
def visitOf (said : Str → Ask → List Answer) (z : Str × Ask × Option Ask) : Visit := ⟨z.1, z.2.1, said z.1 z.2.1⟩

theorem uses_cons (v : Visit) (tr : List Visit) :
    usesOf (v :: tr) = (if v.Tells .REWRITE then (v.said.flatMap (·.rrs)).map (fun r => (v, r)) else []) ++ usesOf tr := by
  unfold usesOf
  by_cases h : v.Tells .REWRITE
  · rw [List.filter_cons_of_pos (by simpa using h), List.flatMap_cons, if_pos h]
  · rw [List.filter_cons_of_neg (by simpa using h), if_neg h, List.nil_append]

/-- A visit uses one record at most. -/
theorem uses_one {v : Visit} (h : Says w v.server v.ask v.said) (ht : v.Tells .REWRITE) :
    v.said.flatMap (·.rrs) = [] ∨ ∃ r, v.said.flatMap (·.rrs) = [r] ∧ RewrittenWith w v.server v.ask r := by
  obtain ⟨s, a, as⟩ := v
  dsimp only at h ⊢
  cases as with
  | nil => exact .inl rfl
  | cons x as =>
    have hat : x.tag = .REWRITE := by simpa [Visit.Tells] using ht
    have e := rewrite_alone h List.mem_cons_self hat
    injection e with _ e
    subst e
    have hone : x.rrs.length ≤ 1 := by
      cases h with
      | tooLong => cases hat
      | refused => cases hat
      | unknown => cases hat
      | zone id _ _ _ hR => exact reply_rewrite_one hR rfl hat
    simp only [List.flatMap_cons, List.flatMap_nil, List.append_nil]
    cases hr : x.rrs with
    | nil => exact .inl rfl
    | cons r rs =>
      rw [hr] at hone
      cases rs with
      | cons _ _ => simp at hone
      | nil => exact .inr ⟨r, rfl, x, [], h, hat, by rw [hr]; exact List.mem_cons_self⟩

theorem uses_split (ha : ∀ x ∈ p, Says w x.1 x.2.1 (said x.1 x.2.1)) {pre post : List (Visit × RR)} {y : Visit × RR}
    (h : usesOf (transcript said p) = pre ++ y :: post) :
    ∃ p1 z p2, p = p1 ++ z :: p2 ∧ usesOf (transcript said p1) = pre ∧ y.1 = visitOf said z ∧ RewrittenWith w z.1 z.2.1 y.2 := by
  induction p generalizing pre with
  | nil => exact absurd h (by simp [transcript, usesOf])
  | cons z p ih =>
    have ih := fun {pre} => @ih (fun x hx => ha x (List.mem_cons_of_mem _ hx)) pre
    have e : transcript said (z :: p) = visitOf said z :: transcript said p := rfl
    rw [e, uses_cons] at h
    have skip : ∀ {pre}, usesOf (transcript said p) = pre ++ y :: post → (if (visitOf said z).Tells .REWRITE then
        ((visitOf said z).said.flatMap (·.rrs)).map (fun r => (visitOf said z, r)) else []) = [] →
        ∃ p1 z' p2, z :: p = p1 ++ z' :: p2 ∧ usesOf (transcript said p1) = pre ∧ y.1 = visitOf said z' ∧ RewrittenWith w z'.1 z'.2.1 y.2 := by
      intro pre h h0
      obtain ⟨p1, z', p2, rfl, h1, h2, h3⟩ := ih h
      refine ⟨z :: p1, z', p2, rfl, ?_, h2, h3⟩
      show usesOf (visitOf said z :: transcript said p1) = pre
      rw [uses_cons, h0, h1, List.nil_append]
    by_cases ht : (visitOf said z).Tells .REWRITE
    · rw [if_pos ht] at h
      rcases uses_one (v := visitOf said z) (ha z List.mem_cons_self) ht with h0 | ⟨r, h0, hr⟩
      · rw [h0] at h
        exact skip h (by rw [if_pos ht, h0]; rfl)
      · rw [h0] at h
        cases pre with
        | nil =>
          simp only [List.map_cons, List.map_nil, List.cons_append, List.nil_append, List.cons.injEq] at h
          refine ⟨[], z, p, rfl, rfl, by rw [← h.1], ?_⟩
          rw [← h.1]; exact hr
        | cons x pre =>
          simp only [List.map_cons, List.map_nil, List.cons_append, List.nil_append, List.cons.injEq] at h
          obtain ⟨p1, z', p2, rfl, h1, h2, h3⟩ := ih h.2
          refine ⟨z :: p1, z', p2, rfl, ?_, h2, h3⟩
          show usesOf (visitOf said z :: transcript said p1) = _
          rw [uses_cons, if_pos ht, h0, h1, ← h.1]; rfl
    · rw [if_neg ht] at h
      exact skip h (by rw [if_neg ht])

theorem RewrittenWith.tells {s : Str} {a : Ask} {r : RR} (h : RewrittenWith w s a r) {as : List Answer} (hs : Says w s a as) :
    (Visit.mk s a as).Tells .REWRITE ∧ r ∈ as.flatMap (·.rrs) := by
  obtain ⟨x, as', h, ht, hr⟩ := h
  have e := says_determined h hs (by simp [ht]) (by simp [ht])
  subst e
  exact ⟨by simpa [Visit.Tells] using ht, List.mem_flatMap.mpr ⟨x, List.mem_cons_self, hr⟩⟩

theorem mem_uses (ha : ∀ x ∈ p, Says w x.1 x.2.1 (said x.1 x.2.1)) (r : RR) :
    (∃ v, (v, r) ∈ usesOf (transcript said p)) ↔ ∃ z ∈ p, RewrittenWith w z.1 z.2.1 r := by
  constructor
  · rintro ⟨v, h⟩
    obtain ⟨pre, post, h⟩ := List.append_of_mem h
    obtain ⟨p1, z, p2, rfl, -, -, h3⟩ := uses_split ha h
    exact ⟨z, by simp, h3⟩
  · rintro ⟨z, hz, h⟩
    obtain ⟨h1, h2⟩ := RewrittenWith.tells h (ha z hz)
    refine ⟨visitOf said z, ?_⟩
    unfold usesOf
    refine List.mem_flatMap.mpr ⟨visitOf said z, List.mem_filter.mpr ⟨List.mem_map.mpr ⟨z, hz, rfl⟩, decide_eq_true h1⟩, ?_⟩
    exact List.mem_map.mpr ⟨r, h2, rfl⟩

theorem shown_of {x y : Str × Ask × Option Ask} (h1 : y.2.1.below = false → x.2.1.name = y.2.1.name)
    (h2 : y.2.1.below = true → ∃ l rest, x.2.1.name = y.2.1.name ++ l :: rest) : Shown (showAsk y.2.1) x.2.1.name y.2.1.name := by
  cases hb : y.2.1.below with
  | false =>
    left
    refine ⟨?_, (h1 hb).symm⟩
    rw [h1 hb]
    unfold showAsk showQuery Ask.ec; rw [hb]; rfl
  | true =>
    right
    obtain ⟨l, rest, e⟩ := h2 hb
    refine ⟨l, rest, e, ?_⟩
    unfold showAsk showQuery Ask.ec
    rw [hb]

/-- What is reported about a class is true of its names. -/
theorem recurs_of_reports (ha : ∀ x ∈ p, Says w x.1 x.2.1 (said x.1 x.2.1)) {a0 : Ask} {a b : Str} {used : List Str}
    (h : Reports a0 (transcript said p) (.infiniteDname a b used) .infiniteDname) {p' : Trail} (hm : Mirrors w p' p) : Recurs w p' a b used := by
  obtain ⟨pre, x, y, post, us, h1, ⟨A, B, C, h2, hk, -, hlen⟩, -, hperm, e⟩ := h
  injection e with e1 e2 e3
  subst e3
  have hpre : ∃ B', pre = A ++ x :: B' := by
    rcases List.eq_nil_or_concat' C with rfl | ⟨C', z, rfl⟩
    · rw [show A ++ x :: B ++ [y] = (A ++ x :: B) ++ [y] by simp] at h2
      exact ⟨B, List.append_inj_left' h2 rfl⟩
    · rw [show A ++ x :: B ++ y :: (C' ++ [z]) = (A ++ x :: (B ++ y :: C')) ++ [z] by simp] at h2
      exact ⟨_, List.append_inj_left' h2 rfl⟩
  obtain ⟨B', rfl⟩ := hpre
  obtain ⟨p1, zy, p2, rfl, h3, h4, h5⟩ := uses_split ha h1
  obtain ⟨p3, zx, p4, rfl, h6, h7, h8⟩ := uses_split (fun z hz => ha z (List.mem_append_left _ hz)) h3
  obtain ⟨m1, m2, rfl, hm1, hm2⟩ := forall₂_split hm
  obtain ⟨m3, m4, rfl, hm3, hm4⟩ := forall₂_split hm1
  cases hm2 with
  | @cons my _ post' _ hy hm2 =>
  cases hm4 with
  | @cons mx _ mid' _ hx hm4 =>
  refine ⟨m3, mx, mid', my, post', x.2, y.2, zx.2.1.name, zy.2.1.name, by simp, (hx.2.2.2.2.2 _).mpr h8, (hy.2.2.2.2.2 _).mpr h5, hk, ?_, ?_, ?_, ?_⟩
  · rw [e1, h7]; exact shown_of hx.2.2.1 hx.2.2.2.2.1
  · rw [e2, h4]; exact shown_of hy.2.2.1 hy.2.2.2.2.1
  · rw [h7, h4] at hlen; exact hlen
  · intro t
    rw [hperm.mem_iff, List.mem_map]
    have hkey : ∀ k, k ∈ ((A ++ x :: B').map (fun z => key z.2)).eraseDups ↔ ∃ z ∈ p3 ++ zx :: p4, ∃ r, RewrittenWith w z.1 z.2.1 r ∧ k = key r := by
      intro k
      rw [List.mem_eraseDups, List.mem_map]
      constructor
      · rintro ⟨u, hu, rfl⟩
        rw [← h3] at hu
        obtain ⟨z, hz, hr⟩ := (mem_uses (fun z hz => ha z (List.mem_append_left _ hz)) u.2).mp ⟨u.1, hu⟩
        exact ⟨z, hz, u.2, hr, rfl⟩
      · rintro ⟨z, hz, r, hr, rfl⟩
        obtain ⟨v, hv⟩ := (mem_uses (fun z hz => ha z (List.mem_append_left _ hz)) r).mpr ⟨z, hz, hr⟩
        rw [h3] at hv
        exact ⟨(v, r), hv, rfl⟩
    have hall : List.Forall₂ (fun x y => ∀ r, RewrittenWith w x.1 x.2.1 r ↔ RewrittenWith w y.1 y.2.1 r) (m3 ++ mx :: mid') (p3 ++ zx :: p4) :=
      List.Forall₂.imp (fun _ _ h => h.2.2.2.2.2) hm1
    constructor
    · rintro ⟨k, hk, rfl⟩
      obtain ⟨z, hz, r, hr, rfl⟩ := (hkey k).mp hk
      obtain ⟨z', hz', h⟩ := forall₂_mem hall hz
      exact ⟨z', hz', r, (h r).mpr hr, rfl⟩
    · rintro ⟨z', hz', r, hr, rfl⟩
      obtain ⟨z, hz, h⟩ := forall₂_mem' hall hz'
      exact ⟨key r, (hkey _).mpr ⟨z, hz, r, (h r).mp hr, rfl⟩, rfl⟩

/-! ### Every such repetition is reported -/

theorem regrows_of_pair : ∀ (n : Nat) (A : List (Visit × RR)) (x : Visit × RR) (B : List (Visit × RR)) (y : Visit × RR) (C : List (Visit × RR)),
    B.length ≤ n → key x.2 = key y.2 → x.1.ask.name.length ≤ y.1.ask.name.length → ∃ a b, Regrows (A ++ x :: B ++ y :: C) a b := by
  intro n
  induction n with
  | zero =>
    intro A x B y C hn hk hl
    have : B = [] := List.length_eq_zero_iff.mp (Nat.le_zero.mp hn)
    subst this
    exact ⟨x, y, A, [], C, rfl, hk, (fun _ h => nomatch h), hl⟩
  | succ n ih =>
    intro A x B y C hn hk hl
    by_cases hB : ∃ z ∈ B, key z.2 = key y.2
    · obtain ⟨z, hz, hzk⟩ := hB
      obtain ⟨B1, B2, rfl⟩ := List.append_of_mem hz
      simp only [List.length_append, List.length_cons] at hn
      by_cases hxz : x.1.ask.name.length ≤ z.1.ask.name.length
      · obtain ⟨a, b, h⟩ := ih A x B1 z (B2 ++ y :: C) (by omega) (hk.trans hzk.symm) hxz
        exact ⟨a, b, by simpa using h⟩
      · obtain ⟨a, b, h⟩ := ih (A ++ x :: B1) z B2 y C (by omega) hzk (by omega)
        exact ⟨a, b, by simpa using h⟩
    · exact ⟨x, y, A, B, C, rfl, hk, fun z hz h => hB ⟨z, hz, h⟩, hl⟩

theorem first_regrows : ∀ (n : Nat) (us : List (Visit × RR)), us.length = n → (∃ a b, Regrows us a b) →
    ∃ pre x y post, us = pre ++ y :: post ∧ Regrows (pre ++ [y]) x y ∧ ∀ a b, ¬ Regrows pre a b := by
  intro n
  induction n with
  | zero =>
    rintro us hn ⟨a, b, A, B, C, h, -⟩
    rw [List.length_eq_zero_iff.mp hn] at h
    exact absurd h (by simp)
  | succ n ih =>
    rintro us hn ⟨a, b, h⟩
    rcases List.eq_nil_or_concat' us with rfl | ⟨us', y, rfl⟩
    · cases hn
    have hn' : us'.length = n := by simpa using hn
    by_cases hr : ∃ a b, Regrows us' a b
    · obtain ⟨pre, x, y', post, rfl, h2, h3⟩ := ih us' hn' hr
      exact ⟨pre, x, y', post ++ [y], by simp, h2, h3⟩
    · obtain ⟨A, B, C, e, hk, hB, hl⟩ := h
      rcases List.eq_nil_or_concat' C with rfl | ⟨C', z, rfl⟩
      · rw [show A ++ a :: B ++ [b] = (A ++ a :: B) ++ [b] by simp] at e
        have e1 := List.append_inj_left' e rfl
        have e2 := List.append_inj_right' e rfl
        injection e2 with e2
        subst e1 e2
        exact ⟨A ++ a :: B, a, y, [], rfl, ⟨A, B, [], rfl, hk, hB, hl⟩, fun a b h => hr ⟨a, b, h⟩⟩
      · rw [show A ++ a :: B ++ b :: (C' ++ [z]) = (A ++ a :: B ++ b :: C') ++ [z] by simp] at e
        have e1 := List.append_inj_left' e rfl
        exact absurd ⟨a, b, A, B, C', e1, hk, hB, hl⟩ hr

theorem reports_of_pair (ha : ∀ x ∈ p, Says w x.1 x.2.1 (said x.1 x.2.1)) (a0 : Ask) {pre mid post : Trail} {x y : Str × Ask × Option Ask}
    (hp : p = pre ++ x :: mid ++ y :: post) {r r' : RR} (hx : RewrittenWith w x.1 x.2.1 r) (hy : RewrittenWith w y.1 y.2.1 r') (hk : key r = key r')
    (hl : x.2.1.name.length ≤ y.2.1.name.length) : ∃ a b used, Reports a0 (transcript said p) (.infiniteDname a b used) .infiniteDname := by
  have use : ∀ {z : Str × Ask × Option Ask} {r : RR}, z ∈ p → RewrittenWith w z.1 z.2.1 r → ∀ l,
      ∃ A C, usesOf (visitOf said z :: transcript said l) = A ++ (visitOf said z, r) :: C ++ usesOf (transcript said l) := by
    intro z r hz hr l
    obtain ⟨h1, h2⟩ := RewrittenWith.tells hr (ha z hz)
    obtain ⟨A, C, e⟩ := List.append_of_mem h2
    refine ⟨A.map (fun r => (visitOf said z, r)), C.map (fun r => (visitOf said z, r)), ?_⟩
    rw [uses_cons]
    rw [if_pos (show (visitOf said z).Tells .REWRITE from h1)]
    show List.map _ (List.flatMap (fun x => x.rrs) (said z.1 z.2.1)) ++ _ = _
    rw [e]; simp
  have app : ∀ (l l' : List Visit), usesOf (l ++ l') = usesOf l ++ usesOf l' := by
    intro l l'
    unfold usesOf; simp
  obtain ⟨A, C, h1⟩ := use (z := x) (by rw [hp]; simp) hx (mid ++ y :: post)
  obtain ⟨A', C', h2⟩ := use (z := y) (by rw [hp]; simp) hy post
  have hu : ∃ L M N, usesOf (transcript said p) = L ++ (visitOf said x, r) :: M ++ (visitOf said y, r') :: N := by
    refine ⟨usesOf (transcript said pre) ++ A, C ++ usesOf (transcript said mid) ++ A', C' ++ usesOf (transcript said post), ?_⟩
    rw [hp, show pre ++ x :: mid ++ y :: post = pre ++ x :: (mid ++ y :: post) by simp]
    have e1 : transcript said (pre ++ x :: (mid ++ y :: post)) = transcript said pre ++ (visitOf said x :: transcript said (mid ++ y :: post)) := by
      simp [transcript, visitOf]
    have e2 : transcript said (mid ++ y :: post) = transcript said mid ++ (visitOf said y :: transcript said post) := by simp [transcript, visitOf]
    rw [e1, app, h1, e2, app, h2]
    simp
  obtain ⟨L, M, N, hu⟩ := hu
  obtain ⟨a, b, hr⟩ := regrows_of_pair M.length L (visitOf said x, r) M (visitOf said y, r') N (Nat.le_refl _) hk hl
  rw [← hu] at hr
  obtain ⟨pre', x', y', post', e, h3, h4⟩ := first_regrows _ _ rfl ⟨a, b, hr⟩
  exact ⟨_, _, _, pre', x', y', post', _, e, h3, h4, List.Perm.refl _, rfl⟩

end

/-! ### From a name to its class -/

theorem step_narrow {w : World} {s s' : Str} {a a' : Ask} {sd : Option Ask} (h : Step w s a s' a' sd) (hb : a.below = false) : a'.below = false := by
  have rew : ∀ {r : RR} {a a' : Ask}, a.below = false → Rewritten r a a' → a'.below = false := by
    intro r a a' hb h
    cases h with
    | cname _ _ _ h => exact h
    | dname _ _ _ _ _ h => rw [h, hb]
  cases h with
  | top => exact hb
  | referral => exact hb
  | rewriteHere _ _ _ _ _ _ _ _ _ _ _ h => exact rew hb h
  | rewriteTop _ _ _ _ _ _ _ _ _ _ _ _ h => exact rew hb h

/-- A question for a single name is never followed by one for a class of names. -/
theorem route_narrow {w : World} {s : Str} {a : Ask} {p : Trail} (h : Route w s a p) (hb : a.below = false) : ∀ x ∈ p, x.2.1.below = false := by
  induction h with
  | done => intro x hx; cases hx
  | step s a s' a' sd p h1 _ ih =>
    have := step_narrow h1 hb
    intro x hx
    rcases List.mem_cons.mp hx with rfl | hx
    · exact this
    · exact ih this x hx

theorem complete_of_fresh {w : World} {job : Job} (hty : AsksOther job.types) {q : EC} (hq : q.types = job.types ∨ q.types = ~~~0) {m : Name}
    {lb : Label} {rest : Name} (e : (ask q).member lb rest = ⟨m, q.types, false⟩) (hf : Fresh w (ask q) lb rest) {p : Trail}
    (hc : Complete w ⟨m, job.types, false⟩ p) :
    ∃ p2, Complete w (ask q) p2 ∧ List.Forall₂ (fun x y => x.1 = y.1 ∧ x.2.1.name = (y.2.1.member lb rest).name ∧
      ∀ r, RewrittenWith w x.1 x.2.1 r → RewrittenWith w y.1 y.2.1 r) p p2 := by
  have hqo : AsksOther q.types := by
    rcases hq with e | e <;> rw [e]
    · exact hty
    · exact all_other
  have : ∃ p1, Complete w ⟨m, q.types, false⟩ p1 ∧ List.Forall₂ (fun x y => x.1 = y.1 ∧ x.2.1.name = y.2.1.name ∧
      ∀ r, RewrittenWith w x.1 x.2.1 r → RewrittenWith w y.1 y.2.1 r) p p1 := by
    rcases hq with e1 | e1
    · exact ⟨p, by rw [e1]; exact hc, List.forall₂_same.mpr (fun x _ => ⟨rfl, rfl, fun _ h => h⟩)⟩
    · obtain ⟨p1, h1, h2⟩ := complete_retype hty hqo (by rw [e1]; exact member_all _ (by decide)) (a := ⟨m, job.types, false⟩)
        (b := ⟨m, q.types, false⟩) ⟨rfl, rfl, .inl ⟨rfl, rfl⟩⟩ hc
      refine ⟨p1, h1, h2.imp (fun x y h => ⟨h.1, h.2.1, fun r hr => ?_⟩)⟩
      rw [← h.1]
      exact hr.retype h.2.1 h.2.2.1 (h.2.left hty) (h.2.symm.left hqo)
  obtain ⟨p1, h1, h2⟩ := this
  rw [← e] at h1
  obtain ⟨p2, rfl, h3⟩ := complete_of_member hf h1
  refine ⟨p2, h3, ?_⟩
  unfold narrow at h2
  rw [List.forall₂_map_right_iff] at h2
  have hr := reached_route .start h3.route
  clear h1 hc h3
  induction h2 with
  | nil => exact .nil
  | @cons x y l l' h _ ih =>
    refine .cons ⟨h.1, h.2.1, fun r hx => ?_⟩ (ih (fun z hz => hr z (List.mem_cons_of_mem _ hz)))
    obtain ⟨z, as, h4, h5⟩ := h.2.2 r hx
    exact ⟨z, as, (C28_same_answers w (ask q) lb rest hf y.1 y.2.1 (hr y List.mem_cons_self) _).mpr h4, h5⟩

/-- Twice the same record on the way of a name, the second time for a name at least as long: the same for its class. -/
theorem pair_of_member {w : World} {lb : Label} {rest : Name} {a0 : Ask} {p p2 : Trail} (hr : Route w [] a0 p2)
    (h : List.Forall₂ (fun x y => x.1 = y.1 ∧ x.2.1.name = (y.2.1.member lb rest).name ∧
      ∀ r, RewrittenWith w x.1 x.2.1 r → RewrittenWith w y.1 y.2.1 r) p p2) {pre mid post : Trail} {x y : Str × Ask × Option Ask}
    (hp : p = pre ++ x :: mid ++ y :: post) {r r' : RR} (hx : RewrittenWith w x.1 x.2.1 r) (hy : RewrittenWith w y.1 y.2.1 r')
    (hl : x.2.1.name.length ≤ y.2.1.name.length) :
    ∃ pre2 x2 mid2 y2 post2, p2 = pre2 ++ x2 :: mid2 ++ y2 :: post2 ∧ RewrittenWith w x2.1 x2.2.1 r ∧ RewrittenWith w y2.1 y2.2.1 r' ∧
      x2.2.1.name.length ≤ y2.2.1.name.length := by
  subst hp
  rw [List.append_assoc] at h
  obtain ⟨pre2, r2, rfl, hm1, hm2⟩ := forall₂_split' h
  cases hm2 with
  | @cons _ x2 _ r3 hx2 hm3 =>
  obtain ⟨mid2, r4, rfl, hm4, hm5⟩ := forall₂_split' hm3
  cases hm5 with
  | @cons _ y2 _ post2 hy2 hm6 =>
  refine ⟨pre2, x2, mid2, y2, post2, by simp, hx2.2.2 _ hx, hy2.2.2 _ hy, ?_⟩
  rw [hx2.2.1, hy2.2.1] at hl
  cases hxb : x2.2.1.below with
  | false =>
    have hyb : y2.2.1.below = false := by
      have h1 := route_append hr
      exact route_narrow h1 hxb y2 (by simp)
    rw [member_exact hxb, member_exact hyb] at hl
    exact hl
  | true =>
    rw [member_below hxb] at hl
    cases hyb : y2.2.1.below with
    | false =>
      rw [member_exact hyb] at hl
      simp only [List.length_append] at hl
      omega
    | true =>
      rw [member_below hyb] at hl
      simpa using hl

end Groot
