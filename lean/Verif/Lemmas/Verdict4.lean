import Verif.Lemmas.Retype
import Verif.Lemmas.Budget

/-! # From the classes of a job to the names in its scope -/

namespace Groot
open Spec

/-! ### A larger budget does not change the outcome -/

theorem checkLoops_mono (g : IG) : ∀ (n v : Nat) (p : List Nat) r, g.checkLoops n v p = .ok r → g.checkLoops (n + 1) v p = .ok r := by
  intro n
  induction n with
  | zero => intro v p r h; cases h
  | succ n ih =>
    intro v p r h
    unfold IG.checkLoops at h ⊢
    split at h
    · rename_i hc
      rw [if_pos hc]; exact h
    · rename_i hc
      rw [if_neg hc]
      refine foldlM_mono ?_ _ _ _ h
      intro f e r hx
      cases f with
      | some x => exact hx
      | none =>
        dsimp only at hx ⊢
        cases hs : e.side with
        | none =>
          rw [hs] at hx
          exact ih _ _ _ hx
        | some u =>
          rw [hs] at hx
          obtain ⟨y, hy, hx⟩ := bind_ok_iff.mp hx
          refine bind_ok_iff.mpr ⟨y, ih _ _ _ hy, ?_⟩
          cases y with
          | some x => exact hx
          | none => exact ih _ _ _ hx

theorem enumerate_mono (g : IG) : ∀ (n v : Nat) (p : List Nat) (s : IG.Enum) r, g.enumerate n v p s = .ok r → g.enumerate (n + 1) v p s = .ok r := by
  intro n
  induction n with
  | zero => intro v p s r h; cases h
  | succ n ih =>
    intro v p s r h
    unfold IG.enumerate at h ⊢
    obtain ⟨c, hc, h⟩ := bind_ok_iff.mp h
    refine bind_ok_iff.mpr ⟨c, hc, ?_⟩
    dsimp only at h ⊢
    split at h
    · rename_i hp
      rw [if_pos hp]; exact h
    · rename_i hp
      rw [if_neg hp]
      obtain ⟨s', hs, h⟩ := bind_ok_iff.mp h
      exact bind_ok_iff.mpr ⟨s', foldlM_mono (fun s e r hx => ih _ _ _ _ hx) _ _ _ hs, h⟩

theorem processEC_mono (thr : Nat) (ctx : Context) (pf : List PathFn) (nf : List NodeFn) (q : EC) (n : Nat) (r : List Violation × Nat × Nat)
    (h : processEC n thr ctx pf nf q = .ok r) : processEC (n + 1) thr ctx pf nf q = .ok r := by
  unfold processEC checkProperties at h ⊢
  obtain ⟨g, h1, h⟩ := bind_ok_iff.mp h
  obtain ⟨l, h2, h⟩ := bind_ok_iff.mp h
  obtain ⟨v, h3, h⟩ := bind_ok_iff.mp h
  obtain ⟨s, h4, h3⟩ := bind_ok_iff.mp h3
  exact bind_ok_iff.mpr ⟨g, exec_mono thr ctx n _ _ _ h1 (n + 1) (Nat.le_succ n), bind_ok_iff.mpr ⟨l, checkLoops_mono g _ _ _ _ h2,
    bind_ok_iff.mpr ⟨v, bind_ok_iff.mpr ⟨s, enumerate_mono g _ _ _ _ _ h4, h3⟩, h⟩⟩⟩

/-! ### The structural check reports nothing else -/

theorem structural_emits {thr : Nat} {g : LGraph} {ctx : Context} {d : Str} {v : Nat} {vs : List Violation}
    (h : LGraph.structuralCheck thr g ctx d v = .ok vs) : ∀ x ∈ vs, ∃ ps, x = .structural d ps := by
  unfold LGraph.structuralCheck at h
  dsimp only at h
  split at h
  · obtain ⟨st, _, h⟩ := bind_ok_iff.mp h
    obtain ⟨ps, _, h⟩ := bind_ok_iff.mp h
    split at h
    · cases h; intro x hx; cases hx
    · cases h; intro x hx; exact ⟨ps, List.mem_singleton.mp hx⟩
  · cases h; intro x hx; cases hx

/-! ### Trails that agree on everything that is checked -/

theorem rewrite_alone {w : World} {s : Str} {a : Ask} {as : List Answer} (h : Says w s a as) {x : Answer} (hx : x ∈ as) (ht : x.tag = .REWRITE) : as = [x] := by
  cases h with
  | tooLong => rw [List.mem_singleton.mp hx]
  | refused => rw [List.mem_singleton.mp hx]
  | unknown => rw [List.mem_singleton.mp hx]
  | zone id as _ _ hR =>
    cases hR with
    | referral => rw [List.mem_singleton.mp hx]
    | dname => rw [List.mem_singleton.mp hx]
    | cname => rw [List.mem_singleton.mp hx]
    | nx => rw [List.mem_singleton.mp hx]
    | data =>
      exfalso
      unfold dataAnswers at hx
      rcases List.mem_append.mp hx with hx | hx
      · split at hx
        · cases hx
        · rw [List.mem_singleton.mp hx] at ht; cases ht
      · split at hx
        · cases hx
        · rw [List.mem_singleton.mp hx] at ht; cases ht

theorem Spec.RewrittenWith.retype {w : World} {s : Str} {a b : Ask} (hn : a.name = b.name) (hb : a.below = b.below) (h1 : AsksOther a.types)
    (h2 : AsksOther b.types) {r : RR} (h : RewrittenWith w s a r) : RewrittenWith w s b r := by
  obtain ⟨x, as, h, ht, hr⟩ := h
  obtain ⟨bs, h3, h4, -⟩ := says_retype hn hb h1 h2 h
  have h5 := h4 x List.mem_cons_self (.inl ht)
  rw [rewrite_alone h3 h5 ht] at h3
  exact ⟨x, [], h3, ht, hr⟩


/-- The trail `p` of a name mirrors the trail `p2` of its class. -/
def Mirrors (w : World) (p p2 : Trail) : Prop :=
  List.Forall₂ (fun x y => x.1 = y.1 ∧ (∀ t, Kind w x.1 x.2.1 t ↔ Kind w y.1 y.2.1 t) ∧ (y.2.1.below = false → x.2.1.name = y.2.1.name) ∧
    AtOrBelow y.2.1.name x.2.1.name ∧ (y.2.1.below = true → ∃ l rest, x.2.1.name = y.2.1.name ++ l :: rest) ∧
    ∀ r, RewrittenWith w x.1 x.2.1 r ↔ RewrittenWith w y.1 y.2.1 r) p p2

theorem Mirrors.hops {w : World} {p p2 : Trail} (h : Mirrors w p p2) : hopsOf p = hopsOf p2 := by
  have : p.map (·.1) = p2.map (·.1) := by
    induction h with
    | nil => rfl
    | cons hxy _ ih => simp [hxy.1, ih]
  unfold hopsOf; rw [this]

theorem Mirrors.rewrites {w : World} {p p2 : Trail} (h : Mirrors w p p2) : rewritesOf w p = rewritesOf w p2 := by
  unfold rewritesOf
  induction h with
  | nil => rfl
  | @cons x y p p2 hxy _ ih =>
    by_cases hk : Kind w x.1 x.2.1 .REWRITE
    · rw [List.filter_cons_of_pos (by simpa using hk), List.filter_cons_of_pos (by simpa using (hxy.2.1 _).mp hk), List.length_cons, List.length_cons, ih]
    · rw [List.filter_cons_of_neg (by simpa using hk), List.filter_cons_of_neg (by simpa using fun h => hk ((hxy.2.1 _).mpr h)), ih]

theorem Mirrors.blackholed {w : World} {p p2 : Trail} (h : Mirrors w p p2) (s : Str) : Blackholed w p s ↔ Blackholed w p2 s := by
  constructor
  · rintro ⟨pre, y, rfl, ⟨x, hx, hk⟩, hn, e⟩
    obtain ⟨p1, p3, rfl, h1, h2⟩ := forall₂_split' h
    cases h2 with
    | @cons _ y' _ _ hy h3 =>
    cases h3
    obtain ⟨x', hx', hr⟩ := forall₂_mem' h1 hx
    exact ⟨p1, y', rfl, ⟨x', hx', (hr.2.1 _).mp hk⟩, (hy.2.1 _).mp hn, hy.1 ▸ e⟩
  · rintro ⟨pre, y, rfl, ⟨x, hx, hk⟩, hn, e⟩
    obtain ⟨p1, p3, rfl, h1, h2⟩ := forall₂_split h
    cases h2 with
    | @cons y' _ _ _ hy h3 =>
    cases h3
    obtain ⟨x', hx', hr⟩ := forall₂_mem h1 hx
    exact ⟨p1, y', rfl, ⟨x', hx', (hr.2.1 _).mpr hk⟩, (hy.2.1 _).mpr hn, hy.1.trans e⟩

theorem Mirrors.contact {w : World} {p p2 : Trail} (h : Mirrors w p p2) (ds : List Name) (s : Str) : ContactedAway ds p s ↔ ContactedAway ds p2 s := by
  constructor
  · rintro ⟨x, hx, e, ho⟩
    obtain ⟨y, hy, hr⟩ := forall₂_mem' h hx
    exact ⟨y, hy, hr.1 ▸ e, ho⟩
  · rintro ⟨y, hy, e, ho⟩
    obtain ⟨x, hx, hr⟩ := forall₂_mem h hy
    exact ⟨x, hx, hr.1.trans e, ho⟩

theorem ref_alone {w : World} {s : Str} {a : Ask} {as : List Answer} (h : Says w s a as) {x : Answer} (hx : x ∈ as) (ht : x.tag = .REF) : as = [x] := by
  cases h with
  | tooLong => rw [List.mem_singleton.mp hx]
  | refused => rw [List.mem_singleton.mp hx]
  | unknown => rw [List.mem_singleton.mp hx]
  | zone id as _ _ hR =>
    cases hR with
    | referral => rw [List.mem_singleton.mp hx]
    | dname => rw [List.mem_singleton.mp hx]
    | cname => rw [List.mem_singleton.mp hx]
    | nx => rw [List.mem_singleton.mp hx]
    | data =>
      exfalso
      unfold dataAnswers at hx
      rcases List.mem_append.mp hx with hx | hx
      · split at hx
        · cases hx
        · rw [List.mem_singleton.mp hx] at ht; cases ht
      · split at hx
        · cases hx
        · rw [List.mem_singleton.mp hx] at ht; cases ht

/-- Without DNAMEs the step after a rewriting asks for a single name. -/
theorem after_rewrite {w : World} (hd : ∀ id, ∀ r ∈ w.log id, r.type ≠ .DNAME) {s : Str} {a : Ask} (hs : s ≠ []) (hk : Kind w s a .REWRITE)
    {s' : Str} {a' : Ask} {sd : Option Ask} (h : Step w s a s' a' sd) : a'.below = false := by
  cases h with
  | top => exact absurd rfl hs
  | rewriteHere _ _ as x r _ _ h1 h2 h3 h4 h5 =>
    obtain ⟨id, hid⟩ := says_records h1 h2 h3 h4
    cases hb : a'.below with
    | false => rfl
    | true => exact absurd (below_rewritten h5 hb) (hd id r hid)
  | rewriteTop _ _ as x r _ _ _ h1 h2 h3 h4 h5 =>
    obtain ⟨id, hid⟩ := says_records h1 h2 h3 h4
    cases hb : a'.below with
    | false => rfl
    | true => exact absurd (below_rewritten h5 hb) (hd id r hid)
  | referral _ _ as x r _ _ h1 h2 h3 =>
    have e := ref_alone h1 h2 h3
    rw [e] at h1
    have := hk.unique h1 (by decide) (by decide)
    rw [h3] at this; cases this

theorem route_next {w : World} {s : Str} {a : Ask} {pre : Trail} {x y : Str × Ask × Option Ask} {post : Trail}
    (h : Route w s a (pre ++ x :: y :: post)) : Step w x.1 x.2.1 y.1 y.2.1 y.2.2 := by
  generalize hp : pre ++ x :: y :: post = p at h
  induction h generalizing pre with
  | done => simp at hp
  | step s a s' a' side p hs hr ih =>
    cases pre with
    | nil =>
      simp only [List.nil_append, List.cons.injEq] at hp
      obtain ⟨rfl, rfl⟩ := hp
      cases hr with
      | step _ _ s2 a2 sd2 p2 h1 h2 => exact h1
    | cons z pre =>
      simp only [List.cons_append, List.cons.injEq] at hp
      exact ih hp.2

theorem Mirrors.away {w : World} (hw : WellFormed w) (hd : ∀ id, ∀ r ∈ w.log id, r.type ≠ .DNAME) {p p2 : Trail} (h : Mirrors w p p2) {a : Ask}
    (hr : Route w [] a p2) (ds : List Name) (s : Str) : RewrittenAway w ds p s ↔ RewrittenAway w ds p2 s := by
  constructor
  · rintro ⟨pre, x, y, post, rfl, e, hk, ho⟩
    obtain ⟨p1, p3, rfl, h1, h2⟩ := forall₂_split' h
    cases h2 with
    | @cons _ x' _ _ hx h3 =>
    cases h3 with
    | @cons _ y' _ post' hy h4 =>
    have hk' := (hx.2.1 _).mp hk
    have hb := after_rewrite hd (route_server hw hr x' (by simp)) hk' (route_next hr)
    exact ⟨p1, x', y', post', rfl, hx.1 ▸ e, hk', hy.2.2.1 hb ▸ ho⟩
  · rintro ⟨pre, x, y, post, rfl, e, hk, ho⟩
    have hb := after_rewrite hd (route_server hw hr x (by simp)) hk (route_next hr)
    obtain ⟨p1, p3, rfl, h1, h2⟩ := forall₂_split h
    cases h2 with
    | @cons x' _ _ _ hx h3 =>
    cases h3 with
    | @cons y' _ post' _ hy h4 =>
    exact ⟨p1, x', y', post', rfl, hx.1.trans e, (hx.2.1 _).mpr hk, (hy.2.2.1 hb).symm ▸ ho⟩

end Groot
