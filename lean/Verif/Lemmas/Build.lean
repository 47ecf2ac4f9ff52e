import Verif.Lemmas.Reached
import Verif.Lemmas.Paths

/-! # The construction of interpretation graphs: invariant -/

namespace Groot

open Spec

/-- Vertex `v` of the graph is the question `a` put to `s`. -/
def At (g : IG) (v : Nat) (s : Str) (a : Ask) : Prop :=
  v < g.verts.length ∧ (g.vtx v).ns = s ∧ ask (g.vtx v).query = a

/-- The recorded side query is the expected one. -/
def SideOk (g : IG) (o : Option Nat) (sd : Option Ask) : Prop :=
  (o = none ∧ sd = none) ∨ ∃ n b, o = some n ∧ sd = some b ∧ At g n [] b

/-- The step is recorded as an edge. -/
def EdgeFor (g : IG) (v : Nat) (s' : Str) (a' : Ask) (sd : Option Ask) : Prop :=
  ∃ e ∈ g.edges, e.src = v ∧ At g e.dst s' a' ∧ SideOk g e.side sd

structure Core (w : World) (a0 : Ask) (g : IG) : Prop where
  root : At g 0 [] a0
  idx : ∀ s v, (∃ vs, g.nsMap.lookup s = some vs ∧ v ∈ vs) ↔ (v < g.verts.length ∧ (g.vtx v).ns = s)
  uniq : ∀ u v s a, At g u s a → At g v s a → u = v
  reach : ∀ v s a, At g v s a → Reached w a0 s a
  dummy : ∀ v a, At g v [] a → (g.vtx v).answer = none
  edges : ∀ e ∈ g.edges, ∃ s a s' a' sd, At g e.src s a ∧ At g e.dst s' a' ∧ SideOk g e.side sd ∧ Step w s a s' a' sd

/-- The pending call makes sense. -/
def Valid (w : World) (g : IG) : Work → Prop
  | .top ns q f => ∃ s a, At g f s a ∧ ns ∈ w.top ∧ Short q.name ∧ Step w s a ns (ask q) none
  | .resolve zid v => ∃ s a, At g v s a ∧ s ≠ [] ∧ Short a.name ∧ Best w s a.name zid
  | .rewrite r v => ∃ s a as x, At g v s a ∧ s ≠ [] ∧ Says w s a as ∧ x ∈ as ∧ x.tag = .REWRITE ∧ r ∈ x.rrs
  | .refer v ns glue => ∃ s a as x r, At g v s a ∧ s ≠ [] ∧ Says w s a as ∧ x ∈ as ∧ x.tag = .REF ∧ r ∈ x.rrs ∧
      r.type = .NS ∧ r.rdata = ns ∧ (glue ≠ [] ↔ HasGlue x r)
  | .nsSub v ns side => ∃ s a sd, At g v s a ∧ Short a.name ∧ ns ≠ [] ∧ Step w s a ns a sd ∧ SideOk g side sd

/-- The pending call will record the step from `v`. -/
def Pending (w : World) (g : IG) (v : Nat) (s : Str) (a : Ask) (s' : Str) (a' : Ask) (sd : Option Ask) : Work → Prop
  | .top ns q f => f = v ∧ ns = s' ∧ ask q = a' ∧ sd = none
  | .resolve _ u => u = v
  | .rewrite r u => u = v ∧ Rewritten r a a' ∧ sd = none ∧
      (s' = s ∧ (¬ Short a'.name ∨ Encloses w s a'.name) ∨ Short a'.name ∧ ¬ Encloses w s a'.name ∧ s' ∈ w.top)
  | .refer u ns glue => u = v ∧ ns = s' ∧ a' = a ∧
      ((glue ≠ [] ∨ ns ∈ w.top) ∧ sd = none ∨ ¬ (glue ≠ [] ∨ ns ∈ w.top) ∧ sd = some (addressAsk ns))
  | .nsSub u ns side => u = v ∧ ns = s' ∧ a' = a ∧ SideOk g side sd

/-- The vertex has the answer its server gives. -/
def Done (w : World) (g : IG) (v : Nat) (s : Str) (a : Ask) : Prop := ∃ as, (g.vtx v).answer = some as ∧ Says w s a as

structure BInv (w : World) (a0 : Ask) (g : IG) (ws : List Work) : Prop where
  core : Core w a0 g
  valid : ∀ x ∈ ws, Valid w g x
  answered : ∀ v s a, At g v s a → s ≠ [] → Done w g v s a ∨ ∃ zid, Work.resolve zid v ∈ ws
  complete : ∀ v s a, At g v s a → ∀ s' a' sd, Step w s a s' a' sd →
    EdgeFor g v s' a' sd ∨ ∃ x ∈ ws, Pending w g v s a s' a' sd x

/-- Vertices are kept. -/
def Ext (g g' : IG) : Prop := ∀ v s a, At g v s a → At g' v s a

theorem SideOk.ext {g g' : IG} (h : Ext g g') {o : Option Nat} {sd : Option Ask} (hs : SideOk g o sd) :
    SideOk g' o sd := by
  rcases hs with hs | ⟨n, b, h1, h2, h3⟩
  · exact Or.inl hs
  · exact Or.inr ⟨n, b, h1, h2, h _ _ _ h3⟩

theorem EdgeFor.ext {g g' : IG} (h : Ext g g') (he : g.edges ⊆ g'.edges) {v : Nat} {s' : Str} {a' : Ask}
    {sd : Option Ask} (hs : EdgeFor g v s' a' sd) : EdgeFor g' v s' a' sd := by
  obtain ⟨e, h1, h2, h3, h4⟩ := hs
  exact ⟨e, he h1, h2, h _ _ _ h3, h4.ext h⟩

theorem Valid.ext {w : World} {g g' : IG} (h : Ext g g') {x : Work} (hv : Valid w g x) : Valid w g' x := by
  cases x with
  | top ns q f => obtain ⟨s, a, h1, h2⟩ := hv; exact ⟨s, a, h _ _ _ h1, h2⟩
  | resolve zid v => obtain ⟨s, a, h1, h2⟩ := hv; exact ⟨s, a, h _ _ _ h1, h2⟩
  | rewrite r v => obtain ⟨s, a, as, x, h1, h2⟩ := hv; exact ⟨s, a, as, x, h _ _ _ h1, h2⟩
  | refer v ns gl => obtain ⟨s, a, as, x, r, h1, h2⟩ := hv; exact ⟨s, a, as, x, r, h _ _ _ h1, h2⟩
  | nsSub v ns sd => obtain ⟨s, a, sd, h1, h2, h3, h4, h5⟩ := hv; exact ⟨s, a, sd, h _ _ _ h1, h2, h3, h4, h5.ext h⟩

theorem Pending.ext {w : World} {g g' : IG} (h : Ext g g') {v : Nat} {s : Str} {a : Ask} {s' : Str} {a' : Ask}
    {sd : Option Ask} {x : Work} (hv : Pending w g v s a s' a' sd x) : Pending w g' v s a s' a' sd x := by
  cases x with
  | nsSub v ns sd => obtain ⟨h1, h2, h3, h4⟩ := hv; exact ⟨h1, h2, h3, h4.ext h⟩
  | _ => exact hv

theorem At.unique {g : IG} {v : Nat} {s s' : Str} {a a' : Ask} (h : At g v s a) (h' : At g v s' a') : s = s' ∧ a = a' :=
  ⟨h.2.1.symm.trans h'.2.1, h.2.2.symm.trans h'.2.2⟩

/-- Gluing together what one call does. -/
theorem BInv.next {w : World} {a0 : Ask} {g g' : IG} {x : Work} {rest new : List Work} (h : BInv w a0 g (x :: rest))
    (hc : Core w a0 g') (hext : Ext g g') (hedges : g.edges ⊆ g'.edges)
    (hvalid : ∀ y ∈ new, Valid w g' y)
    (hkeep : ∀ v s a, At g v s a → s ≠ [] → Done w g v s a → Done w g' v s a)
    (hres : ∀ zid v, x = .resolve zid v → ∀ s a, At g v s a → Done w g' v s a)
    (hnew : ∀ v s a, At g' v s a → ¬ At g v s a → s ≠ [] → Done w g' v s a ∨ ∃ zid, Work.resolve zid v ∈ new)
    (hpend : ∀ v s a, At g v s a → ∀ s' a' sd, Step w s a s' a' sd → Pending w g v s a s' a' sd x →
      EdgeFor g' v s' a' sd ∨ ∃ y ∈ new, Pending w g' v s a s' a' sd y)
    (hsteps : ∀ v s a, At g' v s a → ¬ At g v s a → ∀ s' a' sd, Step w s a s' a' sd →
      EdgeFor g' v s' a' sd ∨ ∃ y ∈ new, Pending w g' v s a s' a' sd y) :
    BInv w a0 g' (new ++ rest) where
  core := hc
  valid := by
    intro y hy
    rcases List.mem_append.mp hy with hy | hy
    · exact hvalid y hy
    · exact (h.valid y (by simp [hy])).ext hext
  answered := by
    intro v s a hv hs
    by_cases hg : At g v s a
    · rcases h.answered v s a hg hs with hd | ⟨zid, hz⟩
      · exact Or.inl (hkeep v s a hg hs hd)
      · rcases List.mem_cons.mp hz with hz | hz
        · exact Or.inl (hres zid v hz.symm s a hg)
        · exact Or.inr ⟨zid, by simp [hz]⟩
    · rcases hnew v s a hv hg hs with hd | ⟨zid, hz⟩
      · exact Or.inl hd
      · exact Or.inr ⟨zid, by simp [hz]⟩
  complete := by
    intro v s a hv s' a' sd hst
    by_cases hg : At g v s a
    · rcases h.complete v s a hg s' a' sd hst with he | ⟨y, hy, hp⟩
      · exact Or.inl (he.ext hext hedges)
      · rcases List.mem_cons.mp hy with rfl | hy
        · rcases hpend v s a hg s' a' sd hst hp with he | ⟨z, hz, hp⟩
          · exact Or.inl he
          · exact Or.inr ⟨z, by simp [hz], hp⟩
        · exact Or.inr ⟨y, by simp [hy], hp.ext hext⟩
    · rcases hsteps v s a hv hg s' a' sd hst with he | ⟨z, hz, hp⟩
      · exact Or.inl he
      · exact Or.inr ⟨z, by simp [hz], hp⟩

/-! ### Elementary operations -/

theorem Core.findNode {w : World} {a0 : Ask} {g : IG} (h : Core w a0 g) (s : Str) (q : EC) :
    (∃ n, g.findNode s q = some n ∧ At g n s (ask q)) ∨ (g.findNode s q = none ∧ ∀ v, ¬ At g v s (ask q)) := by
  unfold IG.findNode
  rcases hl : g.nsMap.lookup s with _ | vs
  · refine Or.inr ⟨rfl, ?_⟩
    rintro v ⟨h1, h2, _⟩
    obtain ⟨vs, h3, _⟩ := (h.idx s v).mpr ⟨h1, h2⟩
    rw [hl] at h3; cases h3
  · simp only
    rcases hf : vs.find? (fun n => q.eqv (g.vtx n).query) with _ | n
    · refine Or.inr ⟨rfl, ?_⟩
      rintro v ⟨h1, h2, h3⟩
      obtain ⟨vs', h4, h5⟩ := (h.idx s v).mpr ⟨h1, h2⟩
      rw [hl] at h4; obtain rfl := Option.some.inj h4
      have := List.find?_eq_none.mp hf v h5
      exact this ((ecEqv_iff _ _).mpr h3.symm)
    · refine Or.inl ⟨n, rfl, ?_⟩
      have h1 := List.mem_of_find?_eq_some hf
      have h2 := List.find?_some hf
      obtain ⟨h3, h4⟩ := (h.idx s n).mp ⟨vs, hl, h1⟩
      exact ⟨h3, h4, ((ecEqv_iff _ _).mp h2).symm⟩

theorem vtx_append_lt {vs : List IVtx} {x : IVtx} {es : List IEdge} {m m'} {v : Nat} {es'} (h : v < vs.length) :
    IG.vtx ⟨vs ++ [x], es, m⟩ v = IG.vtx ⟨vs, es', m'⟩ v := by
  unfold IG.vtx
  simp [h, List.getD_eq_getElem?_getD, List.getElem?_append_left h]

theorem vtx_append_eq {vs : List IVtx} {x : IVtx} {es : List IEdge} {m} :
    IG.vtx ⟨vs ++ [x], es, m⟩ vs.length = x := by
  unfold IG.vtx
  simp [List.getD_eq_getElem?_getD]

theorem at_addVertex {g : IG} {ns : Str} {q : EC} {v : Nat} {s : Str} {a : Ask} :
    At (g.addVertex ns q) v s a ↔ At g v s a ∨ (v = g.verts.length ∧ s = ns ∧ a = ask q) := by
  unfold At IG.addVertex
  simp only [List.length_append, List.length_cons, List.length_nil, Nat.zero_add]
  constructor
  · rintro ⟨h1, h2, h3⟩
    by_cases hv : v < g.verts.length
    · left
      rw [vtx_append_lt (es' := g.edges) (m' := g.nsMap) hv] at h2 h3
      exact ⟨hv, h2, h3⟩
    · right
      have : v = g.verts.length := by omega
      subst this
      rw [vtx_append_eq] at h2 h3
      exact ⟨rfl, h2.symm, h3.symm⟩
  · rintro (⟨h1, h2, h3⟩ | ⟨rfl, rfl, rfl⟩)
    · rw [vtx_append_lt (es' := g.edges) (m' := g.nsMap) h1]
      exact ⟨by omega, h2, h3⟩
    · rw [vtx_append_eq]
      exact ⟨by omega, rfl, rfl⟩

theorem lookup_pushNs (ns s : Str) (v : Nat) (m : List (Str × List Nat)) (u : Nat) :
    (∃ vs, (IG.pushNs ns v m).lookup s = some vs ∧ u ∈ vs) ↔
      (∃ vs, m.lookup s = some vs ∧ u ∈ vs) ∨ (s = ns ∧ u = v) := by
  induction m with
  | nil =>
    unfold IG.pushNs
    rw [List.lookup_cons]
    by_cases h : s = ns
    · simp [h]
    · have : (s == ns) = false := by simpa using h
      simp [this, h]
  | cons p m ih =>
    obtain ⟨k, vs⟩ := p
    unfold IG.pushNs
    by_cases hk : k = ns
    · subst hk
      rw [if_pos rfl, List.lookup_cons, List.lookup_cons]
      by_cases h : s = k
      · simp [h]
      · have : (s == k) = false := by simpa using h
        simp [this, h]
    · rw [if_neg hk, List.lookup_cons, List.lookup_cons]
      by_cases h : s = k
      · subst h; simp [hk]
      · have : (s == k) = false := by simpa using h
        simp only [this]; exact ih

theorem Core.addVertex {w : World} {a0 : Ask} {g : IG} (h : Core w a0 g) {ns : Str} {q : EC}
    (hn : ∀ v, ¬ At g v ns (ask q)) (hr : Reached w a0 ns (ask q)) : Core w a0 (g.addVertex ns q) := by
  have hext : Ext g (g.addVertex ns q) := fun v s a hv => at_addVertex.mpr (Or.inl hv)
  refine ⟨hext _ _ _ h.root, ?_, ?_, ?_, ?_, ?_⟩
  · intro s v
    rw [show (g.addVertex ns q).nsMap = IG.pushNs ns g.verts.length g.nsMap from rfl, lookup_pushNs, h.idx]
    have := at_addVertex (g := g) (ns := ns) (q := q) (v := v) (s := s) (a := ask ((g.addVertex ns q).vtx v).query)
    constructor
    · rintro (⟨h1, h2⟩ | ⟨rfl, rfl⟩)
      · have := hext v s _ ⟨h1, h2, rfl⟩
        exact ⟨this.1, this.2.1⟩
      · have := (at_addVertex (g := g) (ns := s) (q := q)).mpr (Or.inr ⟨rfl, rfl, rfl⟩)
        exact ⟨this.1, this.2.1⟩
    · rintro ⟨h1, h2⟩
      rcases this.mp ⟨h1, h2, rfl⟩ with h3 | h3
      · exact Or.inl ⟨h3.1, h3.2.1⟩
      · exact Or.inr ⟨h3.2.1, h3.1⟩
  · intro u v s a hu hv
    rcases at_addVertex.mp hu with hu' | ⟨e1, e2, e3⟩ <;> rcases at_addVertex.mp hv with hv' | ⟨e4, e5, e6⟩
    · exact h.uniq u v s a hu' hv'
    · rw [e5, e6] at hu'; exact absurd hu' (hn u)
    · rw [e2, e3] at hv'; exact absurd hv' (hn v)
    · rw [e1, e4]
  · intro v s a hv
    rcases at_addVertex.mp hv with hv | ⟨rfl, rfl, rfl⟩
    · exact h.reach v s a hv
    · exact hr
  · intro v a hv
    rcases at_addVertex.mp hv with hv | ⟨rfl, h2, h3⟩
    · have := h.dummy v a hv
      rw [← this]
      unfold IG.addVertex
      rw [vtx_append_lt (es' := g.edges) (m' := g.nsMap) hv.1]
    · unfold IG.addVertex
      rw [vtx_append_eq]
  · intro e he
    obtain ⟨s, a, s', a', sd, h1, h2, h3, h4⟩ := h.edges e he
    exact ⟨s, a, s', a', sd, hext _ _ _ h1, hext _ _ _ h2, h3.ext hext, h4⟩

theorem Core.addEdge {w : World} {a0 : Ask} {g : IG} (h : Core w a0 g) {e : IEdge} {s : Str} {a : Ask} {s' : Str}
    {a' : Ask} {sd : Option Ask} (h1 : At g e.src s a) (h2 : At g e.dst s' a') (h3 : SideOk g e.side sd)
    (h4 : Step w s a s' a' sd) : Core w a0 { g with edges := g.edges ++ [e] } where
  root := h.root
  idx := h.idx
  uniq := h.uniq
  reach := h.reach
  dummy := h.dummy
  edges := by
    intro x hx
    rcases List.mem_append.mp hx with hx | hx
    · exact h.edges x hx
    · obtain rfl := List.mem_singleton.mp hx
      exact ⟨s, a, s', a', sd, h1, h2, h3, h4⟩

theorem vtx_setAnswer (g : IG) (v : Nat) (as : List Answer) (u : Nat) :
    (g.setAnswer v as).vtx u = if v = u ∧ u < g.verts.length then { g.vtx u with answer := some as } else g.vtx u := by
  unfold IG.setAnswer IG.vtx
  simp only [List.getD_eq_getElem?_getD, List.getElem?_modify]
  by_cases h : u < g.verts.length
  · by_cases hv : v = u <;> simp [h, hv]
  · have : g.verts[u]? = none := List.getElem?_eq_none (by omega)
    simp [this, h]

theorem at_setAnswer {g : IG} {u : Nat} {as : List Answer} {v : Nat} {s : Str} {a : Ask} :
    At (g.setAnswer u as) v s a ↔ At g v s a := by
  unfold At
  rw [vtx_setAnswer]
  have : (g.setAnswer u as).verts.length = g.verts.length := by simp [IG.setAnswer]
  rw [this]
  split <;> rfl

theorem sideOk_setAnswer {g : IG} {u : Nat} {as : List Answer} {o : Option Nat} {sd : Option Ask} :
    SideOk (g.setAnswer u as) o sd ↔ SideOk g o sd := by
  unfold SideOk; simp only [at_setAnswer]

theorem Core.setAnswer {w : World} {a0 : Ask} {g : IG} (h : Core w a0 g) {u : Nat} {as : List Answer}
    (hu : (g.vtx u).ns ≠ []) : Core w a0 (g.setAnswer u as) where
  root := at_setAnswer.mpr h.root
  idx := by
    intro s v
    rw [show (g.setAnswer u as).nsMap = g.nsMap from rfl, h.idx]
    have : (g.setAnswer u as).verts.length = g.verts.length := by simp [IG.setAnswer]
    rw [this, vtx_setAnswer]
    split <;> rfl
  uniq := by intro x y s a; rw [at_setAnswer, at_setAnswer]; exact h.uniq x y s a
  reach := by intro x s a; rw [at_setAnswer]; exact h.reach x s a
  dummy := by
    intro v a hv
    rw [at_setAnswer] at hv
    rw [vtx_setAnswer, if_neg]
    · exact h.dummy v a hv
    · rintro ⟨rfl, _⟩; exact hu hv.2.1
  edges := by
    intro e he
    obtain ⟨s, a, s', a', sd, h1, h2, h3, h4⟩ := h.edges e he
    exact ⟨s, a, s', a', sd, at_setAnswer.mpr h1, at_setAnswer.mpr h2, sideOk_setAnswer.mpr h3, h4⟩

/-- What `InsertNode` does. -/
theorem Core.insertNode {w : World} {a0 : Ask} {g : IG} (h : Core w a0 g) {ns : Str} {q : EC} {f : Nat}
    {side : Option Nat} {s : Str} {a : Ask} {sd : Option Ask} (hf : At g f s a) (hst : Step w s a ns (ask q) sd)
    (hsd : SideOk g side sd) :
    ∃ g' o, g.insertNode ns q f side = (g', o) ∧ Core w a0 g' ∧ Ext g g' ∧ g.edges ⊆ g'.edges ∧
      EdgeFor g' f ns (ask q) sd ∧ (∀ v, v < g.verts.length → g'.vtx v = g.vtx v) ∧
      ((o = none ∧ g'.verts.length = g.verts.length ∧ ∀ v s a, At g' v s a → At g v s a) ∨
       (o = some g.verts.length ∧ g'.verts.length = g.verts.length + 1 ∧ At g' g.verts.length ns (ask q) ∧
        (g'.vtx g.verts.length).query = q ∧
        ∀ v s a, At g' v s a → At g v s a ∨ v = g.verts.length)) := by
  have hr : Reached w a0 ns (ask q) := .step _ _ _ _ _ (h.reach f s a hf) hst
  unfold IG.insertNode
  rcases h.findNode ns q with ⟨n, h1, h2⟩ | ⟨h1, h2⟩
  · rw [h1]
    refine ⟨_, _, rfl, h.addEdge hf h2 hsd hst, fun _ _ _ h => h, by simp, ?_, fun _ _ => rfl,
      Or.inl ⟨rfl, rfl, fun _ _ _ h => h⟩⟩
    exact ⟨⟨f, n, side⟩, by simp, rfl, h2, hsd⟩
  · rw [h1]
    have hext : Ext g (g.addVertex ns q) := fun v s a hv => at_addVertex.mpr (Or.inl hv)
    have hnew : At (g.addVertex ns q) g.verts.length ns (ask q) := at_addVertex.mpr (Or.inr ⟨rfl, rfl, rfl⟩)
    refine ⟨_, _, rfl, (h.addVertex h2 hr).addEdge (hext _ _ _ hf) hnew (hsd.ext hext) hst, hext, ?_, ?_, ?_,
      Or.inr ⟨rfl, ?_, hnew, ?_, ?_⟩⟩
    · intro e he; exact List.mem_append.mpr (Or.inl he)
    · exact ⟨⟨f, g.verts.length, side⟩, by simp, rfl, hnew, hsd.ext hext⟩
    · intro v hv
      exact vtx_append_lt (es' := g.edges) (m' := g.nsMap) hv
    · simp [IG.addVertex]
    · show ((g.addVertex ns q).vtx g.verts.length).query = q
      unfold IG.addVertex; rw [vtx_append_eq]
    · intro v s a hv
      rcases (at_addVertex (g := g)).mp hv with hv | hv
      · exact Or.inl hv
      · exact Or.inr hv.1

theorem Done.ext {w : World} {g g' : IG} {v : Nat} {s : Str} {a : Ask} (h : Done w g v s a) (he : g'.vtx v = g.vtx v) :
    Done w g' v s a := by
  unfold Done at *; rw [he]; exact h

/-- A finished insertion: when the node exists already. -/
theorem BInv.insertOld {w : World} {a0 : Ask} {g g' : IG} {x : Work} {rest : List Work} (h : BInv w a0 g (x :: rest))
    (hc : Core w a0 g') (hext : Ext g g') (hedges : g.edges ⊆ g'.edges)
    (hvtx : ∀ v, v < g.verts.length → g'.vtx v = g.vtx v)
    (hold : ∀ v s a, At g' v s a → At g v s a)
    (hres : ∀ zid v, x ≠ .resolve zid v)
    (hpend : ∀ v s a, At g v s a → ∀ s' a' sd, Step w s a s' a' sd → Pending w g v s a s' a' sd x → EdgeFor g' v s' a' sd) :
    BInv w a0 g' rest := by
  refine h.next (new := []) hc hext hedges (by simp) ?_ ?_ ?_ ?_ ?_
  · intro v s a hv _ hd; exact hd.ext (hvtx v hv.1)
  · intro zid v hx; exact absurd hx (hres zid v)
  · intro v s a hv hn; exact absurd (hold v s a hv) hn
  · intro v s a hv s' a' sd hst hp; exact Or.inl (hpend v s a hv s' a' sd hst hp)
  · intro v s a hv hn; exact absurd (hold v s a hv) hn

/-- A finished insertion: a new node to be resolved. -/
theorem BInv.insertResolve {w : World} {a0 : Ask} {g g' : IG} {x : Work} {rest : List Work} (h : BInv w a0 g (x :: rest))
    (hc : Core w a0 g') (hext : Ext g g') (hedges : g.edges ⊆ g'.edges)
    (hvtx : ∀ v, v < g.verts.length → g'.vtx v = g.vtx v)
    (hold : ∀ v s a, At g' v s a → At g v s a ∨ v = g.verts.length)
    (hres : ∀ zid v, x ≠ .resolve zid v)
    (hpend : ∀ v s a, At g v s a → ∀ s' a' sd, Step w s a s' a' sd → Pending w g v s a s' a' sd x → EdgeFor g' v s' a' sd)
    {ns : Str} {b : Ask} {zid : Nat}
    (hat : At g' g.verts.length ns b) (hns : ns ≠ []) (hs : Short b.name) (hb : Best w ns b.name zid) :
    BInv w a0 g' (.resolve zid g.verts.length :: rest) := by
  refine h.next (new := [.resolve zid g.verts.length]) hc hext hedges ?_ ?_ ?_ ?_ ?_ ?_
  · intro y hy; obtain rfl := List.mem_singleton.mp hy; exact ⟨ns, b, hat, hns, hs, hb⟩
  · intro v s a hv _ hd; exact hd.ext (hvtx v hv.1)
  · intro zid v hx; exact absurd hx (hres zid v)
  · intro v s a hv hn _
    rcases hold v s a hv with hv | rfl
    · exact absurd hv hn
    · exact Or.inr ⟨zid, by simp⟩
  · intro v s a hv s' a' sd hst hp; exact Or.inl (hpend v s a hv s' a' sd hst hp)
  · intro v s a hv hn s' a' sd _
    rcases hold v s a hv with hv | rfl
    · exact absurd hv hn
    · exact Or.inr ⟨_, List.mem_singleton.mpr rfl, rfl⟩

/-- A finished insertion: a new node with an immediate answer that leads nowhere. -/
theorem BInv.insertAnswer {w : World} {a0 : Ask} {g g' : IG} {x : Work} {rest : List Work} (h : BInv w a0 g (x :: rest))
    (hc : Core w a0 g') (hext : Ext g g') (hedges : g.edges ⊆ g'.edges)
    (hvtx : ∀ v, v < g.verts.length → g'.vtx v = g.vtx v)
    (hold : ∀ v s a, At g' v s a → At g v s a ∨ v = g.verts.length)
    (hres : ∀ zid v, x ≠ .resolve zid v)
    (hpend : ∀ v s a, At g v s a → ∀ s' a' sd, Step w s a s' a' sd → Pending w g v s a s' a' sd x → EdgeFor g' v s' a' sd)
    {ns : Str} {b : Ask} {as : List Answer}
    (hat : At g' g.verts.length ns b) (hns : ns ≠ []) (hsay : Says w ns b as)
    (hend : ¬ Short b.name ∨ ¬ Encloses w ns b.name) :
    BInv w a0 (g'.setAnswer g.verts.length as) rest := by
  have hat' : At (g'.setAnswer g.verts.length as) g.verts.length ns b := at_setAnswer.mpr hat
  have hdone : Done w (g'.setAnswer g.verts.length as) g.verts.length ns b := by
    refine ⟨as, ?_, hsay⟩
    rw [vtx_setAnswer, if_pos ⟨rfl, hat.1⟩]
  have hext' : Ext g (g'.setAnswer g.verts.length as) := fun v s a hv => at_setAnswer.mpr (hext v s a hv)
  refine h.next (new := []) (hc.setAnswer (by rw [hat.2.1]; exact hns)) hext' hedges (by simp) ?_ ?_ ?_ ?_ ?_
  · intro v s a hv _ hd
    refine hd.ext ?_
    rw [vtx_setAnswer, if_neg (by rintro ⟨rfl, _⟩; exact absurd hv.1 (by omega)), hvtx v hv.1]
  · intro zid v hx; exact absurd hx (hres zid v)
  · intro v s a hv hn _
    rcases hold v s a (at_setAnswer.mp hv) with hv' | rfl
    · exact absurd hv' hn
    · obtain ⟨rfl, rfl⟩ := hv.unique hat'
      exact Or.inl hdone
  · intro v s a hv s' a' sd hst hp
    obtain ⟨e, h1, h2, h3, h4⟩ := hpend v s a hv s' a' sd hst hp
    exact Or.inl ⟨e, h1, h2, at_setAnswer.mpr h3, sideOk_setAnswer.mpr h4⟩
  · intro v s a hv hn s' a' sd hst
    rcases hold v s a (at_setAnswer.mp hv) with hv' | rfl
    · exact absurd hv' hn
    · obtain ⟨rfl, rfl⟩ := hv.unique hat'
      exfalso
      have bad : ∀ as x, Says w s a as → x ∈ as → (x.tag = .REWRITE ∨ x.tag = .REF) → False := by
        intro as x h1 h2 h3
        obtain ⟨h4, id, h5, _⟩ := h1.inner h2 h3
        rcases hend with h | h
        · exact h h4
        · exact h h5.encloses
      cases hst with
      | top _ _ ht => exact hns rfl
      | rewriteHere _ _ as x r _ hs hsay hx ht hr' hrw hsh => exact bad _ _ hsay hx (Or.inl ht)
      | rewriteTop _ _ as x r _ _ hs hsay hx ht hr' hrw hsh hne ht' => exact bad _ _ hsay hx (Or.inl ht)
      | referral _ _ as x r _ hs hsay hx ht hr' hty hsd => exact bad _ _ hsay hx (Or.inr ht)

end Groot
