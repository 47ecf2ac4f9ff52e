import Verif.Lemmas.Trie

/-! # Depth-first traversal of the tree edges -/

namespace Groot
namespace Trie

variable {α : Type} [Inhabited α]

/-- The tree children of a vertex, in edge order. -/
def kids (g : Trie α) (v : Nat) : List Nat :=
  ((g.vtx v).edges.filter (fun e => decide (e.1 = EdgeType.normal))).map (·.2)

/-- Vertices in the order of a depth-first traversal. -/
def preorder (g : Trie α) : Nat → Nat → List Nat
  | 0, _ => []
  | k + 1, v => v :: (g.kids v).flatMap (preorder g k)

theorem mem_kids (g : Trie α) (v u : Nat) : u ∈ g.kids v ↔ (EdgeType.normal, u) ∈ (g.vtx v).edges := by
  unfold kids
  simp only [List.mem_map, List.mem_filter, decide_eq_true_eq]
  constructor
  · rintro ⟨⟨t, w⟩, ⟨h1, h2⟩, h3⟩
    simp only at h2 h3
    subst h2; subst h3; exact h1
  · intro h; exact ⟨(EdgeType.normal, u), ⟨h, rfl⟩, rfl⟩

theorem Inv.kids_nodup {g : Trie α} {names : List Name} (h : g.Inv names) (v : Nat) : (g.kids v).Nodup := by
  unfold kids
  refine List.Nodup.map_on ?_ (h.edgeNodup v)
  rintro ⟨a, x⟩ hx ⟨b, y⟩ hy he
  simp only [List.mem_filter, decide_eq_true_eq] at hx hy he
  rw [hx.2, hy.2, he]

theorem Inv.preorder_mem {g : Trie α} {names : List Name} (h : g.Inv names) (k : Nat) :
    ∀ v n, names[v]? = some n → g.verts.length ≤ k + v →
      ∀ u, u ∈ g.preorder k v ↔ ∃ m, names[u]? = some m ∧ n <+: m := by
  induction k with
  | zero =>
    intro v n hv hk
    have := name_lt hv
    rw [h.len] at this
    omega
  | succ k ih =>
    intro v n hv hk u
    unfold preorder
    rw [List.mem_cons, List.mem_flatMap]
    constructor
    · rintro (rfl | ⟨c, hc, hu⟩)
      · exact ⟨n, hv, List.prefix_refl _⟩
      · rw [mem_kids] at hc
        obtain ⟨hc1, hc2⟩ := h.edge v c n hv hc
        obtain ⟨m, hm, hp⟩ := (ih c _ hc1 (by omega) u).mp hu
        exact ⟨m, hm, (List.prefix_append _ _).trans hp⟩
    · rintro ⟨m, hm, r, rfl⟩
      cases r with
      | nil =>
        left
        rw [List.append_nil] at hm
        exact name_inj h.nodup hm hv
      | cons l r =>
        right
        have hp : n ++ [l] <+: n ++ l :: r := ⟨r, by simp⟩
        obtain ⟨c, hc⟩ := List.mem_iff_getElem?.mp (h.mem_of_prefix (List.mem_of_getElem? hm) hp)
        have hk' := (h.child_iff hv l c).mpr hc
        have hlt := (h.edge v c n hv hk'.1).2
        exact ⟨c, (mem_kids g v c).mpr hk'.1, (ih c _ hc (by omega) u).mpr ⟨_, hm, hp⟩⟩

theorem Inv.preorder_nodup {g : Trie α} {names : List Name} (h : g.Inv names) (k : Nat) :
    ∀ v n, names[v]? = some n → g.verts.length ≤ k + v → (g.preorder k v).Nodup := by
  induction k with
  | zero => intro v n _ _; exact List.nodup_nil
  | succ k ih =>
    intro v n hv hk
    unfold preorder
    rw [List.nodup_cons, List.nodup_flatMap]
    have child : ∀ c ∈ g.kids v, names[c]? = some (n ++ [(g.vtx c).label]) ∧ v < c := by
      intro c hc
      exact h.edge v c n hv ((mem_kids g v c).mp hc)
    refine ⟨?_, ?_, ?_⟩
    · rw [List.mem_flatMap]
      rintro ⟨c, hc, hu⟩
      obtain ⟨hc1, hc2⟩ := child c hc
      obtain ⟨m, hm, hp⟩ := (h.preorder_mem k c _ hc1 (by omega) v).mp hu
      rw [hv] at hm
      cases hm
      have := hp.length_le
      simp at this
      omega
    · intro c hc
      obtain ⟨hc1, hc2⟩ := child c hc
      exact ih c _ hc1 (by omega)
    · refine List.Pairwise.imp_of_mem ?_ (h.kids_nodup v)
      intro c d hc hd hne u hu hu'
      obtain ⟨hc1, hc2⟩ := child c hc
      obtain ⟨hd1, hd2⟩ := child d hd
      obtain ⟨m, hm, hp⟩ := (h.preorder_mem k c _ hc1 (by omega) u).mp hu
      obtain ⟨m', hm', hp'⟩ := (h.preorder_mem k d _ hd1 (by omega) u).mp hu'
      rw [hm] at hm'
      cases hm'
      have e := List.prefix_of_prefix_length_le hp hp' (by simp)
      have e2 : n ++ [(g.vtx c).label] = n ++ [(g.vtx d).label] := e.eq_of_length (by simp)
      rw [← e2] at hd1
      exact hne (name_inj h.nodup hc1 hd1)

/-- The traversal from the root lists every vertex exactly once. -/
theorem Inv.preorder_perm {g : Trie α} {names : List Name} (h : g.Inv names) :
    (g.preorder g.verts.length 0).Perm (List.range names.length) := by
  rw [List.perm_ext_iff_of_nodup (h.preorder_nodup _ 0 [] h.root (by omega)) List.nodup_range]
  intro u
  rw [h.preorder_mem _ 0 [] h.root (by omega), List.mem_range]
  constructor
  · rintro ⟨m, hm, _⟩; exact name_lt hm
  · intro hu; exact ⟨names[u], List.getElem?_eq_getElem hu, List.nil_prefix⟩

end Trie
end Groot
