import Verif.Lemmas.Build2
import Verif.Lemmas.Paths
import Verif.Lemmas.Checks2

/-! # What a finished construction looks like -/

namespace Groot
open Spec

theorem at_self {g : IG} {v : Nat} (h : v < g.verts.length) : At g v (g.vtx v).ns (ask (g.vtx v).query) := ⟨h, rfl, rfl⟩

theorem vtx_ge {g : IG} {v : Nat} (h : g.verts.length ≤ v) : g.vtx v = default := by
  unfold IG.vtx
  simp [h]

theorem BInv.step {w : World} {a0 : Ask} {g : IG} (h : BInv w a0 g []) {v : Nat} {s : Str} {a : Ask} (hv : At g v s a)
    {s' : Str} {a' : Ask} {sd : Option Ask} (hs : Step w s a s' a' sd) : EdgeFor g v s' a' sd := by
  rcases h.complete v s a hv s' a' sd hs with h | ⟨x, hx, _⟩
  · exact h
  · simp at hx

theorem BInv.says {w : World} {a0 : Ask} {g : IG} (h : BInv w a0 g []) {v : Nat} {s : Str} {a : Ask} (hv : At g v s a)
    (hs : s ≠ []) : ∃ as, (g.vtx v).answer = some as ∧ Says w s a as := by
  rcases h.answered v s a hv hs with h | ⟨x, hx⟩
  · exact h
  · simp at hx

theorem BInv.node {w : World} {a0 : Ask} {g : IG} (h : BInv w a0 g []) {s : Str} {a : Ask} (hr : Reached w a0 s a) :
    ∃ v, At g v s a := by
  induction hr with
  | start => exact ⟨0, h.core.root⟩
  | step s a s' a' sd _ hs ih =>
    obtain ⟨v, hv⟩ := ih
    obtain ⟨e, _, _, he, _⟩ := h.step hv hs
    exact ⟨_, he⟩
  | side s a s' a' b _ hs ih =>
    obtain ⟨v, hv⟩ := ih
    obtain ⟨e, _, _, _, he⟩ := h.step hv hs
    rcases he with ⟨_, hn⟩ | ⟨n, b', _, hb, hn⟩
    · simp at hn
    · cases hb; exact ⟨n, hn⟩

/-- An answer of a server is not empty if types are requested. -/
theorem Spec.Says.ne_nil {w : World} {s : Str} {a : Ask} {as : List Answer} (h : Says w s a as) (ht : a.types ≠ 0) :
    as ≠ [] := by
  cases h with
  | tooLong => simp
  | zone id _ h1 h2 h3 => exact h3.ne_nil ht
  | refused => simp
  | unknown => simp

theorem Spec.Says.mem {w : World} {s : Str} {a : Ask} {as : List Answer} (h : Says w s a as) {x : Answer} (hx : x ∈ as)
    {r : RR} (hr : r ∈ x.rrs) : ∃ id, r ∈ w.log id := by
  cases h with
  | tooLong => simp at hx; subst hx; simp at hr
  | zone id _ h1 h2 h3 => exact ⟨id, h3.mem hx hr⟩
  | refused => simp at hx; subst hx; simp at hr
  | unknown => simp at hx; subst hx; simp at hr

theorem Spec.Step.target_ne {w : World} (hw : WellFormed w) {s : Str} {a : Ask} {s' : Str} {a' : Ask} {sd : Option Ask}
    (h : Step w s a s' a' sd) : s' ≠ [] := by
  cases h with
  | top _ _ h => exact hw.top _ h
  | rewriteHere _ _ as x r _ h => exact h
  | rewriteTop _ _ as x r _ _ _ _ _ _ _ _ _ _ h => exact hw.top _ h
  | referral _ _ as x r _ h1 h2 h3 h4 h5 h6 h7 =>
    obtain ⟨id, hid⟩ := h2.mem h3 h5
    exact (hw.ns id r hid h6).1

theorem BInv.sane {w : World} {a0 : Ask} {g : IG} (h : BInv w a0 g []) (hw : WellFormed w) (h0 : Short a0.name)
    (ht : a0.types ≠ 0) : Sane g := by
  have hE := h.core.edges
  have hAns : ∀ v, v < g.verts.length → ∀ as, (g.vtx v).answer = some as →
      (g.vtx v).ns ≠ [] ∧ Says w (g.vtx v).ns (ask (g.vtx v).query) as ∧ as ≠ [] := by
    intro v hv as ha
    have hat := at_self hv
    have hs : (g.vtx v).ns ≠ [] := by
      intro hs
      rw [hs] at hat
      have := h.core.dummy v _ hat
      rw [this] at ha; cases ha
    obtain ⟨as', e, hsay⟩ := h.says hat hs
    rw [e] at ha; cases ha
    exact ⟨hs, hsay, hsay.ne_nil ((h.core.reach _ _ _ hat).fine hw h0 |>.types ht)⟩
  refine ⟨?_, ?_, ?_, ?_, ?_⟩
  · intro e he; obtain ⟨_, _, _, _, _, h1, _⟩ := hE e he; exact h1.1
  · intro e he; obtain ⟨_, _, _, _, _, _, h1, _⟩ := hE e he; exact h1.1
  · intro e he s hs
    obtain ⟨_, _, _, _, _, _, _, h1, _⟩ := hE e he
    rcases h1 with ⟨h1, _⟩ | ⟨n, b, h1, _, h2⟩
    · rw [h1] at hs; cases hs
    · rw [h1] at hs; cases hs; exact h2.1
  · intro v hv
    rcases Nat.lt_or_ge v g.verts.length with hl | hl
    · exact (hAns v hl [] hv).2.2 rfl
    · rw [vtx_ge hl] at hv; exact absurd hv (by decide)
  · intro v hv
    rcases Nat.lt_or_ge v g.verts.length with hl | hl
    · unfold Answers firstAns at hv
      unfold ansRecords firstAns
      rcases ha : (g.vtx v).answer with _ | _ | ⟨x, as⟩
      · simp [ha] at hv
      · simp [ha] at hv
      · simp [ha] at hv
        obtain ⟨_, h1, _⟩ := hAns v hl _ ha
        obtain ⟨_, id, _, h3⟩ := h1.inner (x := x) (by simp) (Or.inl hv)
        obtain ⟨r, _, h4, _⟩ := h3.rewrite (x := x) (by simp) hv
        simp [h4]
    · unfold Answers firstAns at hv
      rw [vtx_ge hl] at hv
      exact absurd hv (by decide)

theorem BInv.edge_server {w : World} {a0 : Ask} {g : IG} (h : BInv w a0 g []) (hw : WellFormed w) {v u : Nat}
    (he : Edge g v u) : u < g.verts.length ∧ Server g u := by
  obtain ⟨e, he, rfl, rfl⟩ := he
  obtain ⟨_, _, s', _, _, _, h1, _, h2⟩ := h.core.edges e he
  refine ⟨h1.1, ?_⟩
  unfold Server
  rw [h1.2.1]
  exact h2.target_ne hw

theorem BInv.server_answer {w : World} {a0 : Ask} {g : IG} (h : BInv w a0 g []) (hg : Sane g) {v : Nat}
    (hl : v < g.verts.length) (hs : Server g v) : firstAns g v ≠ none := by
  obtain ⟨as, ha, _⟩ := h.says (at_self hl) hs
  have := hg.answers v
  unfold firstAns
  rcases as with _ | ⟨x, as⟩
  · exact absurd ha this
  · simp [ha]

theorem isChain_target {g : IG} {r : List Nat} : ∀ {v : Nat}, List.IsChain (Edge g) (v :: r) → ∀ u ∈ r, ∃ x, Edge g x u := by
  induction r with
  | nil => simp
  | cons y r ih =>
    intro v h u hu
    rw [List.isChain_cons_cons] at h
    rcases List.mem_cons.mp hu with rfl | hu
    · exact ⟨v, h.1⟩
    · exact ih h.2 u hu

theorem BInv.path {w : World} {a0 : Ask} {g : IG} (h : BInv w a0 g []) (hw : WellFormed w) (hg : Sane g) {p : List Nat}
    (hp : WalkFrom g 0 p) : ResolutionPath g p := by
  obtain ⟨hh, hc⟩ := hp
  cases p with
  | nil => simp at hh
  | cons v0 r =>
    simp at hh; subst hh
    refine ⟨0, r, rfl, h.core.root.2.1, h.core.dummy 0 _ h.core.root, ?_⟩
    intro v hv
    obtain ⟨x, hx⟩ := isChain_target hc v hv
    obtain ⟨h1, h2⟩ := h.edge_server hw hx
    exact ⟨h2, h.server_answer hg h1 h2⟩

theorem BInv.supported {w : World} {a0 : Ask} {g : IG} (h : BInv w a0 g []) (hw : WellFormed w) {v : Nat} {as : List Answer}
    (ha : (g.vtx v).answer = some as) {x : Answer} (hx : x ∈ as) {r : RR} (hr : r ∈ x.rrs) : r.type ≠ .N := by
  rcases Nat.lt_or_ge v g.verts.length with hl | hl
  · have hat := at_self hl
    have hs : (g.vtx v).ns ≠ [] := by
      intro hs
      rw [hs] at hat
      have := h.core.dummy v _ hat
      rw [this] at ha; cases ha
    obtain ⟨as', e, hsay⟩ := h.says hat hs
    rw [e] at ha; cases ha
    obtain ⟨id, hid⟩ := hsay.mem hx hr
    exact hw.supported id r hid
  · rw [vtx_ge hl] at ha; exact absurd ha (by simp [default, instInhabitedIVtx.default])

theorem BInv.supported_records {w : World} {a0 : Ask} {g : IG} (h : BInv w a0 g []) (hw : WellFormed w) {v : Nat} {r : RR}
    (hr : r ∈ ansRecords g v) : r.type ≠ .N := by
  unfold ansRecords firstAns at hr
  rcases ha : (g.vtx v).answer with _ | _ | ⟨x, as⟩
  · simp [ha] at hr
  · simp [ha] at hr
  · simp [ha] at hr
    exact h.supported hw ha (by simp) hr

theorem BInv.supported_uses {w : World} {a0 : Ask} {g : IG} (h : BInv w a0 g []) (hw : WellFormed w) {p : List Nat}
    {x : Nat × RR} (hx : x ∈ uses g p) : x.2.type ≠ .N := by
  unfold uses at hx
  rw [List.mem_flatMap] at hx
  obtain ⟨v, _, hx⟩ := hx
  rw [List.mem_map] at hx
  obtain ⟨r, hr, rfl⟩ := hx
  rw [List.mem_flatMap] at hr
  obtain ⟨y, hy, hr⟩ := hr
  rcases ha : (g.vtx v).answer with _ | as
  · simp [ha] at hy
  · simp [ha] at hy
    exact h.supported hw ha hy hr

end Groot
