import Verif.Lemmas.Lookup

namespace Groot
open Spec

/-! ### Graphs that differ only in their child maps -/

namespace Trie
variable {α : Type} [Inhabited α]

theorem vtx_congr {g g' : Trie α} (h : g.verts = g'.verts) (v : Nat) : g.vtx v = g'.vtx v := by
  unfold vtx; rw [h]

/-- The names of the vertices are determined by the graph. -/
theorem Inv.names_unique {g g' : Trie α} {names names' : List Name} (h : g.Inv names) (h' : g'.Inv names')
    (hv : g.verts = g'.verts) : names = names' := by
  have hlen : names.length = names'.length := by rw [h.len, h'.len, hv]
  apply List.ext_getElem?
  intro v
  induction v using Nat.strongRecOn with
  | ind v ih =>
    cases hn : names[v]? with
    | none =>
      rw [List.getElem?_eq_none_iff] at hn
      rw [List.getElem?_eq_none (by omega)]
    | some n =>
      rcases List.eq_nil_or_concat n with rfl | ⟨m, l, rfl⟩
      · have := name_inj h.nodup hn h.root
        subst this
        rw [h'.root]
      · obtain ⟨p, hp, he⟩ := h.parent v m l (by simpa using hn)
        have e1 := h.edge p v m hp he
        have hp' : names'[p]? = some m := (ih p e1.2) ▸ hp
        have e2 := h'.edge p v m hp' (by rw [← vtx_congr hv]; exact he)
        rw [e2.1, ← vtx_congr hv, ← e1.1]
        exact hn.symm

/-- Same vertices and edges, possibly different child maps. -/
structure Same (g g' : Trie α) : Prop where
  verts : g.verts = g'.verts
  inv : ∃ names, g.Inv names ∧ g'.Inv names

theorem Same.getAncestor {g g' : Trie α} (h : Same g g') (thr thr' : Nat) (n : Name) :
    (getAncestor thr g 0 n).1 = (getAncestor thr' g' 0 n).1 ∧
    (getAncestor thr g 0 n).2.1 = (getAncestor thr' g' 0 n).2.1 := by
  obtain ⟨names, i, i'⟩ := h.inv
  obtain ⟨a1, a2, a3⟩ := getAncestor_spec (thr := thr) i n 0 [] i.root
  obtain ⟨b1, b2, b3⟩ := getAncestor_spec (thr := thr') i' n 0 [] i'.root
  have hk : (Trie.getAncestor thr g 0 n).2.1 = (Trie.getAncestor thr' g' 0 n).2.1 := by
    rcases Nat.lt_trichotomy (Trie.getAncestor thr g 0 n).2.1 (Trie.getAncestor thr' g' 0 n).2.1 with h1 | h1 | h1
    · exact absurd (List.mem_of_getElem? b2) (a3 _ h1 b1)
    · exact h1
    · exact absurd (List.mem_of_getElem? a2) (b3 _ h1 a1)
  refine ⟨?_, hk⟩
  rw [hk] at a2
  exact name_inj i.nodup a2 b2

theorem addNodes_verts (ls : List Label) : ∀ (g g' : Trie α) (ce : Nat), g.verts = g'.verts →
    (g.addNodes ce ls).1.verts = (g'.addNodes ce ls).1.verts ∧ (g.addNodes ce ls).2 = (g'.addNodes ce ls).2 := by
  induction ls with
  | nil => intro g g' ce h; exact ⟨h, rfl⟩
  | cons l ls ih =>
    intro g g' ce h
    unfold addNodes
    rw [h]
    apply ih
    unfold addNode
    rw [h]

theorem Same.ensure {g g' : Trie α} (h : Same g g') (thr thr' : Nat) (n : Name) :
    Same (g.ensure thr n).1 (g'.ensure thr' n).1 ∧ (g.ensure thr n).2 = (g'.ensure thr' n).2 := by
  obtain ⟨names, i, i'⟩ := h.inv
  obtain ⟨new, a1, _⟩ := ensure_spec thr g names i n
  obtain ⟨new', b1, _⟩ := ensure_spec thr' g' names i' n
  have hverts : (g.ensure thr n).1.verts = (g'.ensure thr' n).1.verts ∧ (g.ensure thr n).2 = (g'.ensure thr' n).2 := by
    obtain ⟨e1, e2⟩ := h.getAncestor thr thr' n
    unfold Trie.ensure
    dsimp only
    rw [e1, e2]
    apply addNodes_verts
    have c1 := (i.constructMaps _ (getAncestor_maps (thr := thr) i n 0 [] i.root)).2
    have c2 := (i'.constructMaps _ (getAncestor_maps (thr := thr') i' n 0 [] i'.root)).2
    rw [c1, c2]; exact h.verts
  refine ⟨⟨hverts.1, names ++ new, a1, ?_⟩, hverts.2⟩
  rw [a1.names_unique b1 hverts.1]
  exact b1

theorem Same.setData {g g' : Trie α} (h : Same g g') (v : Nat) (d : α) : Same (g.setData v d) (g'.setData v d) := by
  obtain ⟨names, i, i'⟩ := h.inv
  exact ⟨by unfold Trie.setData; simp [h.verts], names, i.setData v d, i'.setData v d⟩

theorem Same.init (d : α) : Same (Trie.init d) (Trie.init d) := ⟨rfl, _, Inv.init d, Inv.init d⟩

end Trie

namespace Zone

/-- Zones that differ only in their child maps. -/
structure Same (z z' : Zone) : Prop where
  id : z.id = z'.id
  origin : z.origin = z'.origin
  g : Trie.Same z.g z'.g

theorem Same.rrsAt {z z' : Zone} (h : Same z z') (v : Nat) : z.rrsAt v = z'.rrsAt v := by
  unfold Zone.rrsAt; rw [Trie.vtx_congr h.g.verts]

theorem Same.ancestor {z z' : Zone} (h : Same z z') (thr thr' : Nat) (n : Name) :
    z.ancestor thr n = z'.ancestor thr' n := by
  unfold Zone.ancestor
  obtain ⟨e1, e2⟩ := h.g.getAncestor thr thr' n
  dsimp only
  rw [e1, e2]

theorem Same.addRecord {z z' : Zone} (h : Same z z') (thr thr' : Nat) (r : RR) :
    Same (z.addRecord thr r).1 (z'.addRecord thr' r).1 ∧
      (z.addRecord thr r).2 = (z'.addRecord thr' r).2 := by
  obtain ⟨e1, e2⟩ := h.g.ensure thr thr' r.name
  rw [Zone.addRecord_eq, Zone.addRecord_eq]
  dsimp only
  rw [← e2, ← Trie.vtx_congr e1.verts]
  split
  · exact ⟨⟨h.id, by dsimp only; rw [h.origin], e1.setData _ _⟩, rfl⟩
  · exact ⟨⟨h.id, h.origin, e1⟩, rfl⟩

theorem Same.addGlue {z z' : Zone} (h : Same z z') (thr thr' : Nat) (ns : List RR) :
    z.addGlue thr ns = z'.addGlue thr' ns := by
  unfold Zone.addGlue
  congr 1
  funext merged record
  dsimp only
  rw [h.ancestor thr thr', h.rrsAt]

theorem Same.child {z z' : Zone} (h : Same z z') {names : List Name} (i : z.g.Inv names) (i' : z'.g.Inv names)
    {v : Nat} {n : Name} (hv : names[v]? = some n) (l : Label) : z.child v l = z'.child v l := by
  apply Option.ext
  intro u
  exact (i.step_iff hv l u).trans (i'.step_iff hv l u).symm

theorem Same.closestEncloser {z z' : Zone} (h : Same z z') {names : List Name} (i : z.g.Inv names)
    (i' : z'.g.Inv names) (ls : List Label) : ∀ v n, names[v]? = some n →
    z.closestEncloser v ls = z'.closestEncloser v ls := by
  induction ls with
  | nil => intro v n _; rfl
  | cons l ls ih =>
    intro v n hv
    unfold Zone.closestEncloser
    rw [h.child i i' hv l]
    cases hc : z'.child v l with
    | none => rfl
    | some u =>
      dsimp only
      rw [h.rrsAt, ih u (n ++ [l]) ((i'.step_iff hv l u).mp hc)]

theorem Same.lookup {z z' : Zone} (h : Same z z') (thr thr' : Nat) (q : EC) :
    z.lookup thr q = z'.lookup thr' q := by
  obtain ⟨names, i, i'⟩ := h.g.inv
  have hg : z.addGlue thr = z'.addGlue thr' := funext (h.addGlue thr thr')
  have hw : z.wildcardMatch = z'.wildcardMatch := by
    funext v ts q
    unfold Zone.wildcardMatch
    have : ∀ w, z.g.vtx w = z'.g.vtx w := Trie.vtx_congr h.g.verts
    simp only [this, h.rrsAt]
  have hr : z.rrsAt = z'.rrsAt := funext h.rrsAt
  unfold Zone.lookup
  rw [h.closestEncloser i i' q.name 0 [] i.root, hr, hg, hw]

theorem same_afterAdds (thr thr' id : Nat) (rs : List RR) :
    Same (afterAdds thr id rs) (afterAdds thr' id rs) := by
  induction rs using List.reverseRecOn with
  | nil => exact ⟨rfl, rfl, Trie.Same.init _⟩
  | append_singleton rs r ih =>
    rw [afterAdds_append, afterAdds_append]
    exact (ih.addRecord thr thr' r).1

/-- A rejected record leaves the zone the same up to child maps. -/
theorem rejected_same {z : Zone} {names : List Name} {log : List RR} (h : z.Rep names log) (thr : Nat) (r : RR)
    (hr : (z.addRecord thr r).2.1 ≠ .SUCCESS) : Same (z.addRecord thr r).1 z := by
  obtain ⟨new, i1, i2, i3, i4, i5⟩ := Trie.ensure_spec thr z.g names h.inv r.name
  obtain ⟨names', v, a1, a2, _⟩ := h.add thr r
  rw [a2] at hr
  have hown : r.name ∈ names := by
    rw [h.mem]
    by_contra hno
    apply hr
    rw [recordsAt_of_not_exists hno]; rfl
  have hex : (z.ancestor thr r.name).2 = r.name.length :=
    (h.present_iff thr r.name).mpr ((h.mem _).mp hown)
  have hverts : (z.g.ensure thr r.name).1.verts = z.g.verts := by
    unfold Trie.ensure
    dsimp only
    unfold Zone.ancestor at hex
    dsimp only at hex
    rw [hex, List.drop_length]
    exact (h.inv.constructMaps _ (Trie.getAncestor_maps (thr := thr) h.inv r.name 0 [] h.inv.root)).2
  have hnew := i4 hown
  subst hnew
  rw [List.append_nil] at i1
  have hd : ((z.g.ensure thr r.name).1.vtx (z.g.ensure thr r.name).2).data = recordsAt log r.name := by
    rw [i5.data]; exact h.data_ext (new := []) (by simpa using h.inv.nodup) i2
  rw [Zone.addRecord_eq]
  dsimp only
  rw [hd, if_neg hr]
  exact ⟨rfl, rfl, hverts, names, i1, h.inv⟩

theorem Same.refl_of {z : Zone} {names : List Name} (h : z.g.Inv names) : Same z z := ⟨rfl, rfl, rfl, names, h, h⟩

theorem Same.addAll {z z' : Zone} (h : Same z z') (thr thr' : Nat) (rs : List RR) :
    Same (rs.foldl (fun z r => (z.addRecord thr r).1) z) (rs.foldl (fun z r => (z.addRecord thr' r).1) z') := by
  induction rs generalizing z z' with
  | nil => exact h
  | cons r rs ih => exact ih (h.addRecord thr thr' r).1

theorem afterAdds_append_list (thr id : Nat) (a b : List RR) :
    afterAdds thr id (a ++ b) = b.foldl (fun z r => (z.addRecord thr r).1) (afterAdds thr id a) := by
  simp [afterAdds]

end Zone
end Groot
