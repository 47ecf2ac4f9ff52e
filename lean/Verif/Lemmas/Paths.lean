import Verif.Spec.Graph
import Verif.Lemmas.Checks
import Verif.Lemmas.Show
import Mathlib.Data.List.Nodup
import Mathlib.Data.Fintype.Card
import Mathlib.Data.Set.Card

/-! # Loop detection and path enumeration -/

namespace Groot
open Spec

theorem mem_outEdges {g : IG} {v : Nat} {e : IEdge} : e ∈ g.outEdges v ↔ e ∈ g.edges ∧ e.src = v := by
  simp [IG.outEdges]

/-- A repetition-free list of numbers below `n` has at most `n` elements. -/
theorem nodup_length_le {n : Nat} {p : List Nat} (h : p.Nodup) (hr : ∀ v ∈ p, v < n) : p.length ≤ n := by
  have h1 := (List.subperm_of_subset h (fun v hv => List.mem_range.mpr (hr v hv))).length_le
  simpa using h1

theorem foldlM_some {α : Type} (L : List IEdge) (F : Option α → IEdge → Res (Option α))
    (hF : ∀ x e, F (some x) e = .ok (some x)) (x : α) : L.foldlM F (some x) = .ok (some x) := by
  induction L with
  | nil => rfl
  | cons e L ih => rw [List.foldlM_cons, hF]; simpa using ih

theorem foldlM_first {α : Type} (L : List IEdge) (F : Option α → IEdge → Res (Option α))
    (hF : ∀ x e, F (some x) e = .ok (some x)) (hN : ∀ e ∈ L, ∃ r, F none e = .ok r) :
    ∃ r, L.foldlM F none = .ok r ∧ (r = none → ∀ e ∈ L, F none e = .ok none) ∧
      (∀ x, r = some x → ∃ e ∈ L, F none e = .ok (some x)) := by
  induction L with
  | nil => exact ⟨none, rfl, by simp, by simp⟩
  | cons e L ih =>
    rw [List.foldlM_cons]
    obtain ⟨r, hr⟩ := hN e (by simp)
    rw [hr]
    simp only [Res.ok_bind]
    cases r with
    | some x =>
      rw [foldlM_some L F hF x]
      exact ⟨some x, rfl, by simp, fun y hy => ⟨e, by simp, by rw [hr, hy]⟩⟩
    | none =>
      obtain ⟨r, h1, h2, h3⟩ := ih (fun e he => hN e (by simp [he]))
      refine ⟨r, h1, fun hn e' he' => ?_, fun x hx => ?_⟩
      · rcases List.mem_cons.mp he' with rfl | he'
        · exact hr
        · exact h2 hn e' he'
      · obtain ⟨e', he', h⟩ := h3 x hx
        exact ⟨e', by simp [he'], h⟩

theorem loopNode_eq {g : IG} (h : ∀ v, (g.vtx v).answer ≠ some []) (v : Nat) :
    g.loopNode v = .ok (shownNode g v) := by
  unfold IG.loopNode shownNode firstAns
  rw [← toStr_fun]
  rcases ha : (g.vtx v).answer with _ | _ | ⟨a, as⟩
  · rfl
  · exact absurd ha (h v)
  · rfl

theorem prettyLoop_eq {g : IG} (h : ∀ v, (g.vtx v).answer ≠ some []) (s : Nat) (p : List Nat) :
    g.prettyLoop s p = .ok (.loop ((p.dropWhile (fun v => v != s)).map (shownNode g))) := by
  unfold IG.prettyLoop
  have : ∀ (l : List Nat) (acc : List LoopNode), l.foldlM (fun acc v => do
      let n ← g.loopNode v
      Res.ok (acc ++ [n])) acc = .ok (acc ++ l.map (shownNode g)) := by
    intro l
    induction l with
    | nil => intro acc; simp
    | cons v l ih =>
      intro acc
      rw [List.foldlM_cons, loopNode_eq h]
      simp only [Res.ok_bind]
      rw [ih]; simp
  rw [this]
  rfl

theorem dropWhile_split {s : Nat} {a b : List Nat} (h : s ∉ a) :
    (a ++ s :: b).dropWhile (fun v => v != s) = s :: b := by
  induction a with
  | nil => simp
  | cons x a ih =>
    simp only [List.mem_cons, not_or] at h
    rw [List.cons_append, List.dropWhile_cons_of_pos (by simpa using fun e => h.1 e.symm), ih h.2]

theorem checkLoops_spec {g : IG} (hg : Sane g) (fuel : Nat) : ∀ (v : Nat) (p : List Nat),
    v < g.verts.length → p.Nodup → (∀ x ∈ p, x < g.verts.length) → List.IsChain (Dep g) (p ++ [v]) →
    g.verts.length < fuel + p.length →
    ∃ r, g.checkLoops fuel v p = .ok r ∧
      (r = none → ∀ q, List.IsChain (Dep g) (v :: q) → (p ++ v :: q).Nodup) ∧
      (∀ x, r = some x → ∃ c, IsCycle g c ∧ c.Nodup ∧ x = .loop (c.map (shownNode g)) ∧
        ∃ q, List.IsChain (Dep g) (p ++ v :: q) ∧ c ⊆ p ++ v :: q) := by
  induction fuel with
  | zero =>
    intro v p _ hnd hr _ hf
    have := nodup_length_le hnd hr
    omega
  | succ fuel ih =>
    intro v p hv hnd hr hch hf
    unfold IG.checkLoops
    by_cases hc : v ∈ p
    · rw [if_pos (by simpa using hc), prettyLoop_eq hg.answers]
      simp only [Res.ok_bind]
      refine ⟨_, rfl, by simp, ?_⟩
      rintro x hx
      cases hx
      obtain ⟨a, b, e⟩ := List.append_of_mem hc
      have hna : v ∉ a := by
        rw [e, List.nodup_append] at hnd
        exact fun hm => hnd.2.2 v hm v (by simp) rfl
      refine ⟨v :: b, ?_, ?_, ?_, [], by simpa using hch, ?_⟩
      · refine ⟨v, b, rfl, ?_⟩
        rw [e, List.append_assoc] at hch
        exact (List.isChain_append.mp hch).2.1
      · rw [e] at hnd; exact (List.nodup_append.mp hnd).2.1
      · rw [e, dropWhile_split hna]
      · rw [e]; intro y hy; simp [hy]
        rcases List.mem_cons.mp hy with h | h <;> simp [h]
    · rw [if_neg (by simpa using hc)]
      have hnd' : (p ++ [v]).Nodup := by
        rw [List.nodup_append]
        exact ⟨hnd, by simp, by rintro a ha b hb rfl; exact hc (List.mem_singleton.mp hb ▸ ha)⟩
      have hr' : ∀ x ∈ p ++ [v], x < g.verts.length := by
        intro x hx
        rcases List.mem_append.mp hx with hx | hx
        · exact hr x hx
        · rw [List.mem_singleton.mp hx]; exact hv
      have sub : ∀ w, Dep g v w → w < g.verts.length → ∃ r, g.checkLoops fuel w (p ++ [v]) = .ok r ∧
          (r = none → ∀ q, List.IsChain (Dep g) (w :: q) → ((p ++ [v]) ++ w :: q).Nodup) ∧
          (∀ x, r = some x → ∃ c, IsCycle g c ∧ c.Nodup ∧ x = .loop (c.map (shownNode g)) ∧
            ∃ q, List.IsChain (Dep g) ((p ++ [v]) ++ w :: q) ∧ c ⊆ (p ++ [v]) ++ w :: q) := by
        intro w hw hwr
        apply ih w (p ++ [v]) hwr hnd' hr'
        · rw [List.isChain_append]
          refine ⟨hch, by simp, ?_⟩
          intro x hx y hy
          simp at hx hy
          rw [← hx, ← hy]; exact hw
        · simp only [List.length_append, List.length_singleton]; omega
      have hF := foldlM_first (g.outEdges v) (fun (found : Option Violation) e =>
        match found with
        | some x => .ok (some x)
        | none => do
          let r ← match e.side with
            | some s => g.checkLoops fuel s (p ++ [v])
            | none => .ok none
          match r with
          | some x => .ok (some x)
          | none => g.checkLoops fuel e.dst (p ++ [v])) (fun _ _ => rfl)
      obtain ⟨r, h1, h2, h3⟩ := hF (by
        intro e he
        obtain ⟨he, hsrc⟩ := mem_outEdges.mp he
        obtain ⟨rd, hd, _⟩ := sub e.dst ⟨e, he, hsrc, Or.inl rfl⟩ (hg.dst e he)
        dsimp only
        cases hs : e.side with
        | none => exact ⟨rd, by simpa using hd⟩
        | some s =>
          obtain ⟨rs, hs', _⟩ := sub s ⟨e, he, hsrc, Or.inr hs⟩ (hg.side e he s hs)
          simp only [hs', Res.ok_bind]
          cases rs with
          | some x => exact ⟨_, rfl⟩
          | none => exact ⟨rd, hd⟩)
      refine ⟨r, h1, ?_, ?_⟩
      · intro hn q hq
        cases q with
        | nil => exact hnd'
        | cons w q =>
          rw [List.isChain_cons_cons] at hq
          obtain ⟨⟨e, he, hsrc, hor⟩, hq⟩ := hq
          have hno := h2 hn e (mem_outEdges.mpr ⟨he, hsrc⟩)
          dsimp only at hno
          obtain ⟨rd, hd, hd2, _⟩ := sub e.dst ⟨e, he, hsrc, Or.inl rfl⟩ (hg.dst e he)
          have key : ∀ w, (e.dst = w ∨ e.side = some w) → g.checkLoops fuel w (p ++ [v]) = .ok none := by
            intro w hor
            cases hs : e.side with
            | none =>
              simp only [hs, Res.ok_bind] at hno
              rcases hor with rfl | h
              · exact hno
              · rw [hs] at h; simp at h
            | some s =>
              obtain ⟨rs, hs', _⟩ := sub s ⟨e, he, hsrc, Or.inr hs⟩ (hg.side e he s hs)
              simp only [hs, hs', Res.ok_bind] at hno
              cases rs with
              | some x => simp at hno
              | none =>
                rcases hor with rfl | h
                · exact hno
                · rw [hs] at h; cases h; exact hs'
          have hwr : w < g.verts.length := by
            rcases hor with rfl | h
            · exact hg.dst e he
            · exact hg.side e he w h
          obtain ⟨rw', hw1, hw2, _⟩ := sub w ⟨e, he, hsrc, hor⟩ hwr
          have := key w hor
          rw [hw1] at this
          have := hw2 (by cases this; rfl) q hq
          simpa using this
      · intro x hx
        obtain ⟨e, he, hfe⟩ := h3 x hx
        obtain ⟨he, hsrc⟩ := mem_outEdges.mp he
        obtain ⟨rd, hd, _, hd3⟩ := sub e.dst ⟨e, he, hsrc, Or.inl rfl⟩ (hg.dst e he)
        have fin : ∀ w, (∃ c, IsCycle g c ∧ c.Nodup ∧ x = .loop (c.map (shownNode g)) ∧
            ∃ q, List.IsChain (Dep g) ((p ++ [v]) ++ w :: q) ∧ c ⊆ (p ++ [v]) ++ w :: q) →
            ∃ c, IsCycle g c ∧ c.Nodup ∧ x = .loop (c.map (shownNode g)) ∧
              ∃ q, List.IsChain (Dep g) (p ++ v :: q) ∧ c ⊆ p ++ v :: q := by
          rintro w ⟨c, a1, a2, a3, q, a4, a5⟩
          exact ⟨c, a1, a2, a3, w :: q, by simpa using a4, by simpa using a5⟩
        dsimp only at hfe
        cases hs : e.side with
        | none =>
          simp only [hs, Res.ok_bind] at hfe
          rw [hd] at hfe
          cases hfe
          exact fin _ (hd3 x rfl)
        | some s =>
          obtain ⟨rs, hs1, hs2, hs3⟩ := sub s ⟨e, he, hsrc, Or.inr hs⟩ (hg.side e he s hs)
          simp only [hs, hs1, Res.ok_bind] at hfe
          cases rs with
          | some y =>
            simp only [Res.ok.injEq, Option.some.injEq] at hfe
            subst hfe
            exact fin _ (hs3 _ rfl)
          | none =>
            simp only at hfe
            rw [hd] at hfe
            cases hfe
            exact fin _ (hd3 x rfl)

/-! ### Enumeration of paths -/

theorem cnameEnd_eq {g : IG} (hg : Sane g) (v : Nat) :
    ∃ b, g.cnameEnd v = .ok b ∧ (b = true ↔ CnameStop g v) := by
  unfold IG.cnameEnd
  by_cases hs : (g.vtx v).ns = []
  · rw [if_pos hs]
    exact ⟨false, rfl, by simp [CnameStop, Server, hs]⟩
  · rw [if_neg hs]
    rcases ha : (g.vtx v).answer with _ | _ | ⟨a, as⟩
    · exact ⟨false, rfl, by simp [CnameStop, Answers, firstAns, ha]⟩
    · exact absurd ha (hg.answers v)
    · have hf := firstAns_of ha
      have hrec : ansRecords g v = a.rrs := by simp [ansRecords, hf]
      dsimp only
      by_cases ht : a.tag = .REWRITE
      · have hr : Answers g v .REWRITE := by simp [Answers, hf, ht]
        have hne := hg.rewrites v hr
        rw [if_pos ht]
        cases hrr : a.rrs with
        | nil => exact absurd (hrec.trans hrr) hne
        | cons r rs =>
          refine ⟨_, rfl, ?_⟩
          rw [Bool.and_eq_true, has_iff, beq_iff_eq]
          unfold CnameStop
          rw [hrec, hrr]
          constructor
          · rintro ⟨h1, h2⟩
            exact ⟨hs, hr, ⟨r, rs, rfl, h1⟩, h2⟩
          · rintro ⟨_, _, ⟨r', rs', h1, h2⟩, h3⟩
            cases h1
            exact ⟨h2, h3⟩
      · rw [if_neg ht]
        exact ⟨false, rfl, by simp [CnameStop, Answers, hf, ht]⟩

theorem addEnd_paths (s : IG.Enum) (v : Nat) : (s.addEnd v).paths = s.paths := by
  unfold IG.Enum.addEnd; split <;> rfl

theorem addEnd_mem (s : IG.Enum) (v w : Nat) : w ∈ (s.addEnd v).ends ↔ w ∈ s.ends ∨ w = v := by
  unfold IG.Enum.addEnd
  split
  · rename_i h
    simp at h
    constructor
    · exact Or.inl
    · rintro (h' | rfl)
      · exact h'
      · exact h
  · simp

theorem addEnd_nodup (s : IG.Enum) (v : Nat) (h : s.ends.Nodup) : (s.addEnd v).ends.Nodup := by
  unfold IG.Enum.addEnd
  split
  · exact h
  · rename_i hn
    simp at hn
    rw [List.nodup_append]
    exact ⟨h, by simp, by rintro a ha b hb rfl; exact hn (List.mem_singleton.mp hb ▸ ha)⟩

/-- What one call of the enumeration adds. -/
structure EnumAdds (g : IG) (s s' : IG.Enum) (P : List Nat → Prop) : Prop where
  paths : ∃ L, s'.paths = s.paths ++ L ∧ ∀ q, q ∈ L ↔ P q
  ends : ∀ w, w ∈ s'.ends ↔ w ∈ s.ends ∨ ∃ q, P q ∧ q.getLast? = some w
  nodup : s.ends.Nodup → s'.ends.Nodup

theorem EnumAdds.refl (g : IG) (s : IG.Enum) : EnumAdds g s s (fun _ => False) :=
  ⟨⟨[], by simp⟩, by simp, id⟩

theorem EnumAdds.trans {g : IG} {s s' s'' : IG.Enum} {P Q : List Nat → Prop} (h : EnumAdds g s s' P)
    (h' : EnumAdds g s' s'' Q) : EnumAdds g s s'' (fun q => P q ∨ Q q) := by
  obtain ⟨L, h1, h2⟩ := h.paths
  obtain ⟨L', h1', h2'⟩ := h'.paths
  refine ⟨⟨L ++ L', by rw [h1', h1, List.append_assoc], fun q => by rw [List.mem_append, h2, h2']⟩, ?_,
    fun x => h'.nodup (h.nodup x)⟩
  intro w
  rw [h'.ends, h.ends, or_assoc]
  constructor
  · rintro (h | ⟨q, h⟩ | ⟨q, h⟩)
    · exact Or.inl h
    · exact Or.inr ⟨q, Or.inl h.1, h.2⟩
    · exact Or.inr ⟨q, Or.inr h.1, h.2⟩
  · rintro (h | ⟨q, h | h, h3⟩)
    · exact Or.inl h
    · exact Or.inr (Or.inl ⟨q, h, h3⟩)
    · exact Or.inr (Or.inr ⟨q, h, h3⟩)

theorem EnumAdds.congr {g : IG} {s s' : IG.Enum} {P Q : List Nat → Prop} (h : EnumAdds g s s' P) (e : ∀ q, P q ↔ Q q) :
    EnumAdds g s s' Q := by
  have : P = Q := funext fun q => propext (e q)
  rwa [← this]

theorem EnumAdds.one (g : IG) (s : IG.Enum) (v : Nat) (p : List Nat) :
    EnumAdds g s { s.addEnd v with paths := s.paths ++ [p ++ [v]] } (fun q => q = p ++ [v]) := by
  refine ⟨⟨[p ++ [v]], rfl, by simp⟩, ?_, addEnd_nodup s v⟩
  intro w
  show w ∈ (s.addEnd v).ends ↔ _
  rw [addEnd_mem]
  simp [eq_comm]

/-- The paths enumerated by a call at `v` with current path `p`. -/
def EnumSpec (g : IG) (p : List Nat) (v : Nat) (q : List Nat) : Prop :=
  ∃ r, q = p ++ v :: r ∧ List.IsChain (Edge g) (v :: r) ∧
    ((q.Nodup ∧ ∃ l, q.getLast? = some l ∧ ∀ w, ¬ Edge g l w) ∨
      (q.dropLast.Nodup ∧ ∃ l, q.getLast? = some l ∧ CnameStop g l))

theorem enumerate_spec {g : IG} (hg : Sane g) (fuel : Nat) : ∀ (v : Nat) (p : List Nat) (s : IG.Enum),
    v < g.verts.length → p.Nodup → (∀ x ∈ p, x < g.verts.length) → g.verts.length < fuel + p.length →
    ∃ s', g.enumerate fuel v p s = .ok s' ∧ EnumAdds g s s' (EnumSpec g p v) := by
  induction fuel with
  | zero =>
    intro v p s _ hnd hr hf
    have := nodup_length_le hnd hr
    omega
  | succ fuel ih =>
    intro v p s hv hnd hr hf
    obtain ⟨b, hb1, hb2⟩ := cnameEnd_eq hg v
    unfold IG.enumerate
    rw [hb1]
    simp only [Res.ok_bind]
    -- the CNAME stop
    have h0 : EnumAdds g s (if b = true then { s.addEnd v with paths := s.paths ++ [p ++ [v]] } else s)
        (fun q => q = p ++ [v] ∧ CnameStop g v) := by
      cases b with
      | true => exact (EnumAdds.one g s v p).congr (fun q => by simp [hb2.mp rfl])
      | false =>
        have : ¬ CnameStop g v := fun h => by have := hb2.mpr h; simp at this
        exact (EnumAdds.refl g s).congr (fun q => by simp [this])
    generalize (if b = true then { s.addEnd v with paths := s.paths ++ [p ++ [v]] } else s) = s0 at h0
    by_cases hc : v ∈ p
    · rw [if_pos (by simpa using hc)]
      refine ⟨s0, rfl, h0.congr fun q => ?_⟩
      constructor
      · rintro ⟨rfl, hs⟩
        exact ⟨[], rfl, by simp, Or.inr ⟨by simpa using hnd, v, by simp, hs⟩⟩
      · rintro ⟨r, rfl, _, ⟨h1, _⟩ | ⟨h1, l, h2, h3⟩⟩
        · exact absurd rfl ((List.nodup_append.mp h1).2.2 v hc v (by simp))
        · cases r with
          | nil =>
            simp at h2
            subst h2
            exact ⟨rfl, h3⟩
          | cons w r =>
            rw [List.dropLast_append_of_ne_nil (by simp), List.dropLast_cons_of_ne_nil (by simp)] at h1
            exact absurd rfl ((List.nodup_append.mp h1).2.2 v hc v (by simp))
    · rw [if_neg (by simpa using hc)]
      have hnd' : (p ++ [v]).Nodup := by
        rw [List.nodup_append]
        exact ⟨hnd, by simp, by rintro a ha b hb rfl; exact hc (List.mem_singleton.mp hb ▸ ha)⟩
      have hr' : ∀ x ∈ p ++ [v], x < g.verts.length := by
        intro x hx
        rcases List.mem_append.mp hx with hx | hx
        · exact hr x hx
        · rw [List.mem_singleton.mp hx]; exact hv
      have hfold : ∀ (L : List IEdge) (s1 : IG.Enum), (∀ e ∈ L, e ∈ g.edges) →
          ∃ s2, L.foldlM (fun s e => g.enumerate fuel e.dst (p ++ [v]) s) s1 = .ok s2 ∧
            EnumAdds g s1 s2 (fun q => ∃ e ∈ L, EnumSpec g (p ++ [v]) e.dst q) := by
        intro L
        induction L with
        | nil => intro s1 _; exact ⟨s1, rfl, (EnumAdds.refl g s1).congr (by simp)⟩
        | cons e L ihL =>
          intro s1 hL
          rw [List.foldlM_cons]
          obtain ⟨s2, h1, h2⟩ := ih e.dst (p ++ [v]) s1 (hg.dst e (hL e (by simp))) hnd' hr' (by
            simp only [List.length_append, List.length_singleton]; omega)
          rw [h1]
          simp only [Res.ok_bind]
          obtain ⟨s3, h3, h4⟩ := ihL s2 (fun e' he' => hL e' (by simp [he']))
          exact ⟨s3, h3, (h2.trans h4).congr (fun q => by simp)⟩
      obtain ⟨s2, h1, h2⟩ := hfold (g.outEdges v) s0 (fun e he => (mem_outEdges.mp he).1)
      rw [h1]
      simp only [Res.ok_bind]
      have hsub : ∀ q, (∃ e ∈ g.outEdges v, EnumSpec g (p ++ [v]) e.dst q) ↔ ∃ w, Edge g v w ∧ EnumSpec g (p ++ [v]) w q := by
        intro q
        constructor
        · rintro ⟨e, he, h⟩
          obtain ⟨he, hs⟩ := mem_outEdges.mp he
          exact ⟨e.dst, ⟨e, he, hs, rfl⟩, h⟩
        · rintro ⟨w, ⟨e, he, hs, rfl⟩, h⟩
          exact ⟨e, mem_outEdges.mpr ⟨he, hs⟩, h⟩
      have hout : (g.outEdges v).length = 0 ↔ ∀ w, ¬ Edge g v w := by
        rw [List.length_eq_zero_iff, List.eq_nil_iff_forall_not_mem]
        constructor
        · rintro h w ⟨e, he, hs, _⟩
          exact h e (mem_outEdges.mpr ⟨he, hs⟩)
        · rintro h e he
          obtain ⟨he, hs⟩ := mem_outEdges.mp he
          exact h e.dst ⟨e, he, hs, rfl⟩
      have hall := (h0.trans h2).congr (fun q => by rw [hsub q])
      -- decomposition of the specification
      have hspec : ∀ q, EnumSpec g p v q ↔ ((q = p ++ [v] ∧ CnameStop g v) ∨ ∃ w, Edge g v w ∧ EnumSpec g (p ++ [v]) w q) ∨
          (q = p ++ [v] ∧ ∀ w, ¬ Edge g v w) := by
        intro q
        constructor
        · rintro ⟨r, rfl, hch, hor⟩
          cases r with
          | nil =>
            rcases hor with ⟨_, l, hl, hno⟩ | ⟨_, l, hl, hcs⟩
            · simp at hl; subst hl; exact Or.inr ⟨rfl, hno⟩
            · simp at hl; subst hl; exact Or.inl (Or.inl ⟨rfl, hcs⟩)
          | cons w r =>
            rw [List.isChain_cons_cons] at hch
            exact Or.inl (Or.inr ⟨w, hch.1, r, by simp, hch.2, hor⟩)
        · rintro ((⟨rfl, hcs⟩ | ⟨w, hw, r, rfl, hch, hor⟩) | ⟨rfl, hno⟩)
          · exact ⟨[], rfl, by simp, Or.inr ⟨by simpa using hnd, v, by simp, hcs⟩⟩
          · exact ⟨w :: r, by simp, List.isChain_cons_cons.mpr ⟨hw, hch⟩, hor⟩
          · exact ⟨[], rfl, by simp, Or.inl ⟨hnd', v, by simp, hno⟩⟩
      by_cases hz : (g.outEdges v).length = 0
      · rw [if_pos hz]
        refine ⟨_, rfl, ((hall.trans (EnumAdds.one g s2 v p)).congr fun q => ?_)⟩
        rw [hspec]
        have := hout.mp hz
        constructor
        · rintro (h | h)
          · exact Or.inl h
          · exact Or.inr ⟨h, this⟩
        · rintro (h | h)
          · exact Or.inl h
          · exact Or.inr h.1
      · rw [if_neg hz]
        refine ⟨_, rfl, hall.congr fun q => ?_⟩
        rw [hspec]
        constructor
        · exact Or.inl
        · rintro (h | h)
          · exact h
          · exact absurd (hout.mpr h.2) hz

end Groot
