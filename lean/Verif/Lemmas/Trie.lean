import Verif.Lemmas.Compare
import Verif.Model.Trie
import Mathlib.Data.List.Nodup
import Mathlib.Data.List.Infix

namespace Groot
namespace Trie

variable {α : Type} [Inhabited α]

/-- `names` lists, vertex by vertex, the domain names of the vertices of `g`. -/
structure Inv (g : Trie α) (names : List Name) : Prop where
  len : names.length = g.verts.length
  root : names[0]? = some []
  nodup : names.Nodup
  edge : ∀ v u n, names[v]? = some n → (EdgeType.normal, u) ∈ (g.vtx v).edges →
    names[u]? = some (n ++ [(g.vtx u).label]) ∧ v < u
  parent : ∀ u n l, names[u]? = some (n ++ [l]) →
    ∃ v, names[v]? = some n ∧ (EdgeType.normal, u) ∈ (g.vtx v).edges
  edgeNodup : ∀ v, ((g.vtx v).edges.filter (fun e => decide (e.1 = EdgeType.normal))).Nodup
  dedge : ∀ v u, (EdgeType.dname, u) ∈ (g.vtx v).edges → u < names.length
  maps : ∀ v m, g.maps.lookup v = some m → ∀ l u,
    m.lookup l = some u ↔ (EdgeType.normal, u) ∈ (g.vtx v).edges ∧ (g.vtx u).label = l

theorem vtx_of_ge (g : Trie α) {v : Nat} (h : g.verts.length ≤ v) : g.vtx v = ⟨[], [], default⟩ := by
  unfold vtx; rw [List.getD_eq_getElem?_getD, List.getElem?_eq_none h]; rfl

theorem name_inj {names : List Name} (h : names.Nodup) {u v : Nat} {n : Name}
    (hu : names[u]? = some n) (hv : names[v]? = some n) : u = v := by
  obtain ⟨hu', e1⟩ := List.getElem?_eq_some_iff.mp hu
  obtain ⟨hv', e2⟩ := List.getElem?_eq_some_iff.mp hv
  exact (List.Nodup.getElem_inj_iff h).mp (e1.trans e2.symm)

theorem name_lt {names : List Name} {u : Nat} {n : Name} (hu : names[u]? = some n) : u < names.length :=
  (List.getElem?_eq_some_iff.mp hu).1

namespace Inv

variable {g : Trie α} {names : List Name}

/-- The children of a vertex, by label. -/
theorem child_iff (h : g.Inv names) {v : Nat} {n : Name} (hv : names[v]? = some n) (l : Label) (u : Nat) :
    ((EdgeType.normal, u) ∈ (g.vtx v).edges ∧ (g.vtx u).label = l) ↔ names[u]? = some (n ++ [l]) := by
  constructor
  · rintro ⟨h1, rfl⟩; exact (h.edge v u n hv h1).1
  · intro hu
    obtain ⟨v', hv', he⟩ := h.parent u n l hu
    have : v' = v := name_inj h.nodup hv' hv
    subst this
    refine ⟨he, ?_⟩
    have h2 := (h.edge v' u n hv he).1
    rw [hu] at h2
    simp at h2
    exact h2.symm

theorem childByEdges_iff (h : g.Inv names) {v : Nat} {n : Name} (hv : names[v]? = some n) (l : Label) (u : Nat) :
    g.childByEdges v l = some u ↔ names[u]? = some (n ++ [l]) := by
  rw [← h.child_iff hv]
  unfold childByEdges
  constructor
  · intro hc
    rw [Option.map_eq_some_iff] at hc
    obtain ⟨⟨t, w⟩, h1, h2⟩ := hc
    subst h2
    have hm := List.mem_of_find?_eq_some h1
    have hp := List.find?_some h1
    simp only [Bool.and_eq_true, beq_iff_eq] at hp
    obtain ⟨rfl, h3⟩ := hp
    exact ⟨hm, h3⟩
  · rintro ⟨h1, h2⟩
    cases hf : (g.vtx v).edges.find? (fun e => e.1 == EdgeType.normal && (g.vtx e.2).label == l) with
    | none =>
      have := List.find?_eq_none.mp hf _ h1
      simp [h2] at this
    | some e =>
      obtain ⟨t, w⟩ := e
      have hm := List.mem_of_find?_eq_some hf
      have hp := List.find?_some hf
      simp only [Bool.and_eq_true, beq_iff_eq] at hp
      obtain ⟨rfl, h3⟩ := hp
      have e1 := (h.child_iff hv l w).mp ⟨hm, h3⟩
      have e2 := (h.child_iff hv l u).mp ⟨h1, h2⟩
      have := name_inj h.nodup e1 e2
      simp [this]

/-- Both ways of finding a child find the vertex with the extended name. -/
theorem step_iff (h : g.Inv names) {v : Nat} {n : Name} (hv : names[v]? = some n) (l : Label) (u : Nat) :
    (match g.maps.lookup v with
      | some m => m.lookup l
      | none => g.childByEdges v l) = some u ↔ names[u]? = some (n ++ [l]) := by
  split
  · rename_i m hm
    rw [h.maps v m hm l u, h.child_iff hv]
  · exact h.childByEdges_iff hv l u

theorem mem_of_prefix (h : g.Inv names) {n m : Name} (hm : m ∈ names) (hp : n <+: m) : n ∈ names := by
  obtain ⟨r, rfl⟩ := hp
  induction r using List.reverseRecOn with
  | nil => simpa using hm
  | append_singleton r l ih =>
    obtain ⟨u, hu⟩ := List.mem_iff_getElem?.mp hm
    rw [← List.append_assoc] at hu
    obtain ⟨v, hv, _⟩ := h.parent u _ l hu
    exact ih (List.mem_of_getElem? hv)

end Inv

/-! ### `getAncestor` -/

theorem getAncestor_spec {thr : Nat} {g : Trie α} {names : List Name} (h : g.Inv names) (ls : List Label) :
    ∀ v n, names[v]? = some n →
      (getAncestor thr g v ls).2.1 ≤ ls.length ∧
      names[(getAncestor thr g v ls).1]? = some (n ++ ls.take (getAncestor thr g v ls).2.1) ∧
      (∀ k, (getAncestor thr g v ls).2.1 < k → k ≤ ls.length → n ++ ls.take k ∉ names) := by
  induction ls with
  | nil => intro v n hv; simp [getAncestor, hv]; omega
  | cons l ls ih =>
    intro v n hv
    have stop : (∀ u : Nat, ¬ names[u]? = some (n ++ [l])) →
        ∀ k, 0 < k → k ≤ (l :: ls).length → n ++ (l :: ls).take k ∉ names := by
      intro hno k hk _ hmem
      obtain ⟨k', rfl⟩ : ∃ k', k = k' + 1 := ⟨k - 1, by omega⟩
      rw [List.take_succ_cons] at hmem
      have := h.mem_of_prefix (n := n ++ [l]) hmem ⟨ls.take k', by simp⟩
      obtain ⟨u, hu⟩ := List.mem_iff_getElem?.mp this
      exact hno u hu
    have go : ∀ u : Nat, names[u]? = some (n ++ [l]) →
        (getAncestor thr g u ls).2.1 + 1 ≤ (l :: ls).length ∧
        names[(getAncestor thr g u ls).1]? = some (n ++ (l :: ls).take ((getAncestor thr g u ls).2.1 + 1)) ∧
        (∀ k, (getAncestor thr g u ls).2.1 + 1 < k → k ≤ (l :: ls).length → n ++ (l :: ls).take k ∉ names) := by
      intro u hu
      obtain ⟨h1, h2, h3⟩ := ih u (n ++ [l]) hu
      refine ⟨by simpa using h1, ?_, ?_⟩
      · rw [h2]; simp
      · intro k hk hk'
        obtain ⟨k', rfl⟩ : ∃ k', k = k' + 1 := ⟨k - 1, by omega⟩
        have := h3 k' (by omega) (by simpa using hk')
        simpa using this
    have key := h.step_iff hv l
    unfold getAncestor
    cases hm : g.maps.lookup v with
    | some m =>
      simp only [hm] at key ⊢
      cases hl : m.lookup l with
      | some u => exact go u ((key u).mp hl)
      | none =>
        refine ⟨Nat.zero_le _, by simp [hv], stop ?_⟩
        intro u hu
        have := (key u).mpr hu
        rw [hl] at this; cases this
    | none =>
      simp only [hm] at key ⊢
      cases hl : g.childByEdges v l with
      | some u => exact go u ((key u).mp hl)
      | none =>
        refine ⟨Nat.zero_le _, by simp [hv], stop ?_⟩
        intro u hu
        have := (key u).mpr hu
        rw [hl] at this; cases this

/-- The vertices for which child maps are to be made are in range. -/
theorem getAncestor_maps {thr : Nat} {g : Trie α} {names : List Name} (h : g.Inv names) (ls : List Label) :
    ∀ v n, names[v]? = some n → ∀ w ∈ (getAncestor thr g v ls).2.2, ∃ n', names[w]? = some n' := by
  induction ls with
  | nil => intro v n hv; simp [getAncestor]
  | cons l ls ih =>
    intro v n hv w hw
    have key := h.step_iff hv l
    unfold getAncestor at hw
    cases hm : g.maps.lookup v with
    | some m =>
      simp only [hm] at key hw
      cases hl : m.lookup l with
      | some u => simp only [hl] at hw; exact ih u _ ((key u).mp hl) w hw
      | none => simp [hl] at hw
    | none =>
      simp only [hm] at key hw
      have hc : ∀ w ∈ (if (g.vtx v).edges.length > thr then [v] else []), w = v := by
        intro w hw; split at hw <;> simp at hw; exact hw
      cases hl : g.childByEdges v l with
      | some u =>
        simp only [hl, List.mem_append] at hw
        rcases hw with hw | hw
        · exact ⟨n, by rw [hc w hw]; exact hv⟩
        · exact ih u _ ((key u).mp hl) w hw
      | none =>
        simp only [hl] at hw
        exact ⟨n, by rw [hc w hw]; exact hv⟩

/-! ### `constructMap` -/

@[simp] theorem constructMap_verts (g : Trie α) (v : Nat) : (g.constructMap v).verts = g.verts := by
  unfold constructMap; dsimp only; split <;> rfl

@[simp] theorem constructMap_vtx (g : Trie α) (v w : Nat) : (g.constructMap v).vtx w = g.vtx w := by
  unfold vtx; rw [constructMap_verts]

theorem mem_mapFold (g : Trie α) (es : List (EdgeType × Nat)) (acc : List (Label × Nat)) (l : Label) (u : Nat) :
    (l, u) ∈ es.foldl (fun (m : List (Label × Nat)) e =>
        if e.1 = .normal then ((g.vtx e.2).label, e.2) :: m else m) acc ↔
      (l, u) ∈ acc ∨ ((EdgeType.normal, u) ∈ es ∧ (g.vtx u).label = l) := by
  induction es generalizing acc with
  | nil => simp
  | cons e es ih =>
    rw [List.foldl_cons, ih]
    obtain ⟨t, w⟩ := e
    cases t
    · simp only [if_true, List.mem_cons, Prod.mk.injEq, true_and]
      constructor
      · rintro ((⟨rfl, rfl⟩ | h) | ⟨h1, h2⟩)
        · exact Or.inr ⟨Or.inl rfl, rfl⟩
        · exact Or.inl h
        · exact Or.inr ⟨Or.inr h1, h2⟩
      · rintro (h | ⟨rfl | h1, h2⟩)
        · exact Or.inl (Or.inr h)
        · exact Or.inl (Or.inl ⟨h2.symm, rfl⟩)
        · exact Or.inr ⟨h1, h2⟩
    · simp

theorem lookup_iff_mem {β : Type} (m : List (Label × β)) (hf : ∀ l u u', (l, u) ∈ m → (l, u') ∈ m → u = u')
    (l : Label) (u : β) : m.lookup l = some u ↔ (l, u) ∈ m := by
  induction m with
  | nil => simp
  | cons p m ih =>
    obtain ⟨k, w⟩ := p
    rw [List.lookup_cons]
    by_cases hk : l = k
    · subst hk
      simp only [beq_self_eq_true, Option.some.injEq]
      constructor
      · rintro rfl; simp
      · intro hm; exact hf l w u (by simp) hm
    · have : (l == k) = false := by simpa using hk
      simp only [this, List.mem_cons, Prod.mk.injEq, hk, false_and, false_or]
      exact ih (fun l u u' h1 h2 => hf l u u' (by simp [h1]) (by simp [h2]))

theorem lookup_append {β γ : Type} [BEq β] (m m' : List (β × γ)) (k : β) :
    (m ++ m').lookup k = (m.lookup k).or (m'.lookup k) := by
  induction m with
  | nil => simp
  | cons p m ih =>
    obtain ⟨a, b⟩ := p
    rw [List.cons_append, List.lookup_cons, List.lookup_cons]
    split <;> simp [ih]

theorem Inv.constructMap {g : Trie α} {names : List Name} (h : g.Inv names) {v : Nat} {n : Name}
    (hv : names[v]? = some n) : (g.constructMap v).Inv names where
  len := by rw [constructMap_verts]; exact h.len
  root := h.root
  nodup := h.nodup
  edge := by simpa using h.edge
  parent := by simpa using h.parent
  edgeNodup := by simpa using h.edgeNodup
  dedge := by simpa using h.dedge
  maps := by
    intro w m hm l u
    simp only [constructMap_vtx]
    unfold Trie.constructMap at hm
    dsimp only at hm
    split at hm
    · exact h.maps w m hm l u
    · rename_i hnone
      dsimp only at hm
      rw [lookup_append] at hm
      cases hw : g.maps.lookup w with
      | some m' =>
        rw [hw] at hm
        simp only [Option.some_or, Option.some.injEq] at hm
        subst hm
        exact h.maps w m' hw l u
      | none =>
        rw [hw] at hm
        simp only [Option.none_or, List.lookup_cons, List.lookup_nil] at hm
        by_cases hwv : w = v
        · subst hwv
          simp only [beq_self_eq_true, Option.some.injEq] at hm
          subst hm
          rw [lookup_iff_mem, mem_mapFold]
          · simp
          · intro l u u' h1 h2
            rw [mem_mapFold] at h1 h2
            simp only [List.not_mem_nil, false_or] at h1 h2
            exact name_inj h.nodup ((h.child_iff hv l u).mp h1) ((h.child_iff hv l u').mp h2)
        · have : (w == v) = false := by simpa using hwv
          simp [this] at hm

theorem Inv.constructMaps {g : Trie α} {names : List Name} (h : g.Inv names) (vs : List Nat)
    (hvs : ∀ w ∈ vs, ∃ n, names[w]? = some n) :
    (vs.foldl Trie.constructMap g).Inv names ∧ (vs.foldl Trie.constructMap g).verts = g.verts := by
  induction vs generalizing g with
  | nil => exact ⟨h, rfl⟩
  | cons v vs ih =>
    obtain ⟨n, hn⟩ := hvs v (by simp)
    have := ih (h.constructMap hn) (fun w hw => hvs w (by simp [hw]))
    simpa using this

/-! ### `addNode` -/

theorem vtx_addNode (g : Trie α) {ce : Nat} (l : Label) (hce : ce < g.verts.length) (w : Nat) :
    (g.addNode ce l).vtx w =
      if w = ce then { g.vtx ce with edges := (g.vtx ce).edges ++ [(EdgeType.normal, g.verts.length)] }
      else if w = g.verts.length then ⟨l, [], default⟩ else g.vtx w := by
  unfold addNode vtx
  dsimp only
  rw [List.getD_eq_getElem?_getD, List.getElem?_modify]
  by_cases h1 : w = ce
  · subst h1
    simp only [if_true]
    rw [List.getElem?_append_left hce, List.getD_eq_getElem?_getD, List.getElem?_eq_getElem hce]
    rfl
  · rw [if_neg h1]
    have h1' : ¬ ce = w := fun h => h1 h.symm
    simp only [h1', if_false, id_map']
    by_cases h2 : w = g.verts.length
    · subst h2; simp
    · rw [if_neg h2]
      by_cases h3 : w < g.verts.length
      · rw [List.getElem?_append_left h3, List.getD_eq_getElem?_getD]
      · rw [List.getElem?_eq_none (by simp; omega), List.getD_eq_getElem?_getD,
          List.getElem?_eq_none (by omega)]

theorem addNode_length (g : Trie α) (ce : Nat) (l : Label) : (g.addNode ce l).verts.length = g.verts.length + 1 := by
  simp [addNode]

theorem lookup_map {β γ : Type} [BEq β] [LawfulBEq β] (m : List (β × γ)) (f : β → γ → γ) (k : β) :
    (m.map (fun p => (p.1, f p.1 p.2))).lookup k = (m.lookup k).map (f k) := by
  induction m with
  | nil => simp
  | cons p m ih =>
    obtain ⟨a, b⟩ := p
    simp only [List.map_cons, List.lookup_cons]
    split
    · rename_i h; simp at h; subst h; rfl
    · exact ih

theorem Inv.addNode {g : Trie α} {names : List Name} (h : g.Inv names) {ce : Nat} {n : Name} {l : Label}
    (hce : names[ce]? = some n) (hnew : n ++ [l] ∉ names) :
    (g.addNode ce l).Inv (names ++ [n ++ [l]]) := by
  have hce' : ce < g.verts.length := h.len ▸ name_lt hce
  have hV := vtx_addNode g l hce'
  have hlt : ∀ {u : Nat} {m : Name}, names[u]? = some m → u < g.verts.length := fun hu => h.len ▸ name_lt hu
  have hnames : ∀ u m, (names ++ [n ++ [l]])[u]? = some m ↔
      names[u]? = some m ∨ (u = g.verts.length ∧ m = n ++ [l]) := by
    intro u m
    rw [List.getElem?_append]
    split
    · rename_i hu; constructor
      · exact Or.inl
      · rintro (h1 | ⟨h1, _⟩)
        · exact h1
        · rw [h.len] at hu; omega
    · rename_i hu
      constructor
      · intro h1
        right
        rw [List.getElem?_singleton] at h1
        split at h1
        · simp only [Option.some.injEq] at h1
          exact ⟨by rw [← h.len]; omega, h1.symm⟩
        · simp at h1
      · rintro (h1 | ⟨h1, h2⟩)
        · exact absurd (name_lt h1) hu
        · subst h1 h2; simp [h.len]
  constructor
  · rw [List.length_append, addNode_length, h.len]; rfl
  · rw [hnames]; exact Or.inl h.root
  · rw [List.nodup_append]
    refine ⟨h.nodup, by simp, ?_⟩
    intro a ha b hb
    simp only [List.mem_singleton] at hb
    subst hb
    intro hab; exact hnew (hab ▸ ha)
  · intro v u m hv he
    rw [hnames] at hv
    rw [hnames]
    -- labels
    have lab : ∀ w, w < g.verts.length → ((g.addNode ce l).vtx w).label = (g.vtx w).label := by
      intro w hw
      rw [hV]
      split
      · rename_i h1; subst h1; rfl
      · rw [if_neg (by omega)]
    rw [hV] at he
    split at he
    · rename_i h1
      subst h1
      simp only [List.mem_append, List.mem_singleton, Prod.mk.injEq, true_and] at he
      rcases hv with hv | ⟨hv, _⟩
      · rcases he with he | he
        · have := h.edge v u m hv he
          rw [lab u (hlt this.1)]
          exact ⟨Or.inl this.1, this.2⟩
        · subst he
          have hm : m = n := by rw [hce] at hv; simpa using hv.symm
          subst hm
          refine ⟨Or.inr ⟨rfl, ?_⟩, hce'⟩
          rw [hV, if_neg (by omega), if_pos rfl]
      · omega
    · split at he
      · simp at he
      · rcases hv with hv | ⟨hv, _⟩
        · have := h.edge v u m hv he
          rw [lab u (hlt this.1)]
          exact ⟨Or.inl this.1, this.2⟩
        · omega
  · intro u m k hu
    rw [hnames] at hu
    rcases hu with hu | ⟨hu, hm⟩
    · obtain ⟨v, hv, he⟩ := h.parent u m k hu
      refine ⟨v, (hnames _ _).mpr (Or.inl hv), ?_⟩
      rw [hV]
      split
      · rename_i h1; subst h1; simp [he]
      · rw [if_neg (by have := hlt hv; omega)]; exact he
    · subst hu
      have hm' := List.append_inj' hm (by simp)
      obtain ⟨rfl, _⟩ := hm'
      refine ⟨ce, (hnames _ _).mpr (Or.inl hce), ?_⟩
      rw [hV, if_pos rfl]; simp
  · intro v
    rw [hV]
    split
    · simp only [List.filter_append]
      rw [List.nodup_append]
      refine ⟨h.edgeNodup ce, by simp, ?_⟩
      intro a ha b hb
      simp at hb
      subst hb
      rintro rfl
      have := (List.mem_filter.mp ha).1
      have := (h.edge ce _ n hce this).1
      have := hlt this
      omega
    · split
      · simp
      · exact h.edgeNodup v
  · intro v u he
    rw [List.length_append]
    rw [hV] at he
    split at he
    · simp at he
      have := h.dedge ce u he; omega
    · split at he
      · simp at he
      · have := h.dedge v u he; omega
  · intro v m hm k u
    have hml : (g.addNode ce l).maps = g.maps.map (fun p => (p.1, if p.1 = ce then (l, g.verts.length) :: p.2 else p.2)) := by
      unfold Trie.addNode
      dsimp only
      apply List.map_congr_left
      intro p _
      split <;> rfl
    rw [hml, lookup_map g.maps (fun k m => if k = ce then (l, g.verts.length) :: m else m)] at hm
    rw [Option.map_eq_some_iff] at hm
    obtain ⟨m0, hm0, hm1⟩ := hm
    have old := h.maps v m0 hm0
    by_cases hvc : v = ce
    · subst hvc
      rw [if_pos rfl] at hm1
      subst hm1
      rw [List.lookup_cons]
      have e1 : (g.addNode v l).vtx v = { g.vtx v with edges := (g.vtx v).edges ++ [(EdgeType.normal, g.verts.length)] } := by
        rw [hV, if_pos rfl]
      rw [e1]
      simp only [List.mem_append, List.mem_singleton, Prod.mk.injEq, true_and]
      by_cases hk : k = l
      · subst hk
        simp only [beq_self_eq_true, Option.some.injEq]
        constructor
        · rintro rfl
          refine ⟨Or.inr rfl, ?_⟩
          rw [hV, if_neg (by omega), if_pos rfl]
        · rintro ⟨h1 | h1, h2⟩
          · exfalso
            have h3 := (h.edge v u n hce h1).1
            have hu := hlt h3
            apply hnew
            have h4 : ((g.addNode v k).vtx u).label = (g.vtx u).label := by
              rw [hV]; split
              · rename_i h5; subst h5; rfl
              · rw [if_neg (by omega)]
            rw [h4] at h2
            rw [h2] at h3
            exact List.mem_of_getElem? h3
          · exact h1.symm
      · have hkl : (k == l) = false := by simpa using hk
        simp only [hkl]
        rw [old]
        constructor
        · rintro ⟨h1, h2⟩
          have hu := hlt (h.edge v u n hce h1).1
          refine ⟨Or.inl h1, ?_⟩
          rw [hV]; split
          · rename_i h5; subst h5; exact h2
          · rw [if_neg (by omega)]; exact h2
        · rintro ⟨h1 | h1, h2⟩
          · have hu := hlt (h.edge v u n hce h1).1
            refine ⟨h1, ?_⟩
            rw [hV] at h2; split at h2
            · rename_i h5; subst h5; exact h2
            · rw [if_neg (by omega)] at h2; exact h2
          · subst h1
            rw [hV, if_neg (by omega), if_pos rfl] at h2
            exact absurd h2.symm hk
    · rw [if_neg hvc] at hm1
      subst hm1
      rw [old]
      by_cases hvn : v < g.verts.length
      · have e1 : (g.addNode ce l).vtx v = g.vtx v := by
          rw [hV, if_neg hvc, if_neg (by omega)]
        rw [e1]
        obtain ⟨nv, hnv⟩ : ∃ nv, names[v]? = some nv :=
          ⟨_, List.getElem?_eq_getElem (h.len ▸ hvn)⟩
        constructor
        · rintro ⟨h1, h2⟩
          have hu := hlt (h.edge v u nv hnv h1).1
          refine ⟨h1, ?_⟩
          rw [hV]; split
          · rename_i h5; subst h5; exact h2
          · rw [if_neg (by omega)]; exact h2
        · rintro ⟨h1, h2⟩
          have hu := hlt (h.edge v u nv hnv h1).1
          refine ⟨h1, ?_⟩
          rw [hV] at h2; split at h2
          · rename_i h5; subst h5; exact h2
          · rw [if_neg (by omega)] at h2; exact h2
      · rw [vtx_of_ge g (by omega)]
        have e1 : ((g.addNode ce l).vtx v).edges = [] := by
          rw [hV, if_neg hvc]; split
          · rfl
          · rw [vtx_of_ge g (by omega)]
        rw [e1]; simp

/-! ### `addNodes`, `ensure`, `setData`, `init` -/

/-- `g'` extends `g`: old vertices keep label, data and outgoing DNAME edges; new ones are empty. -/
structure Ext (g g' : Trie α) : Prop where
  len : g.verts.length ≤ g'.verts.length
  data : ∀ v, (g'.vtx v).data = (g.vtx v).data
  label : ∀ v, v < g.verts.length → (g'.vtx v).label = (g.vtx v).label
  dname : ∀ v u, (EdgeType.dname, u) ∈ (g'.vtx v).edges ↔ (EdgeType.dname, u) ∈ (g.vtx v).edges

theorem Ext.refl (g : Trie α) : Ext g g := ⟨Nat.le_refl _, fun _ => rfl, fun _ _ => rfl, fun _ _ => Iff.rfl⟩

theorem Ext.trans {a b c : Trie α} (h : Ext a b) (h' : Ext b c) : Ext a c :=
  ⟨Nat.le_trans h.len h'.len, fun v => (h'.data v).trans (h.data v),
   fun v hv => (h'.label v (Nat.lt_of_lt_of_le hv h.len)).trans (h.label v hv),
   fun v u => (h'.dname v u).trans (h.dname v u)⟩

theorem Ext.of_verts {a b : Trie α} (h : b.verts = a.verts) : Ext a b := by
  have : ∀ v, b.vtx v = a.vtx v := fun v => by unfold vtx; rw [h]
  exact ⟨by rw [h], fun v => by rw [this], fun v _ => by rw [this], fun v u => by rw [this]⟩

theorem addNode_ext (g : Trie α) {ce : Nat} (l : Label) (hce : ce < g.verts.length) : Ext g (g.addNode ce l) := by
  have hV := vtx_addNode g l hce
  refine ⟨by rw [addNode_length]; omega, ?_, ?_, ?_⟩
  · intro v; rw [hV]; split
    · rename_i h; subst h; rfl
    · split
      · rename_i h; subst h; rw [vtx_of_ge g (Nat.le_refl _)]
      · rfl
  · intro v hv; rw [hV]; split
    · rename_i h; subst h; rfl
    · rw [if_neg (by omega)]
  · intro v u; rw [hV]; split
    · rename_i h; subst h; simp
    · split
      · rename_i h; subst h; rw [vtx_of_ge g (Nat.le_refl _)]
      · rfl

theorem addNodes_spec (ls : List Label) : ∀ (g : Trie α) (names : List Name) (ce : Nat) (n : Name),
    g.Inv names → names[ce]? = some n → (∀ k, 0 < k → k ≤ ls.length → n ++ ls.take k ∉ names) →
    ∃ new, (g.addNodes ce ls).1.Inv (names ++ new) ∧
      (names ++ new)[(g.addNodes ce ls).2]? = some (n ++ ls) ∧
      new = (List.range ls.length).map (fun k => n ++ ls.take (k + 1)) ∧
      Ext g (g.addNodes ce ls).1 := by
  induction ls with
  | nil =>
    intro g names ce n h hce _
    exact ⟨[], by simpa [addNodes] using h, by simpa [addNodes] using hce, by simp, Ext.refl g⟩
  | cons l ls ih =>
    intro g names ce n h hce hno
    have h1 : n ++ [l] ∉ names := by simpa using hno 1 (by omega) (by simp)
    have h2 := h.addNode hce h1
    have hlen : (names ++ [n ++ [l]])[g.verts.length]? = some (n ++ [l]) := by
      rw [← h.len]; simp
    obtain ⟨new, i1, i2, i3, i4⟩ := ih (g.addNode ce l) (names ++ [n ++ [l]]) g.verts.length (n ++ [l]) h2 hlen (by
      intro k hk hk' hmem
      rw [List.mem_append] at hmem
      rcases hmem with hmem | hmem
      · exact hno (k + 1) (by omega) (by simpa using hk') (by simpa using hmem)
      · have h0 := congrArg List.length (List.mem_singleton.mp hmem)
        simp only [List.length_append, List.length_take, List.length_singleton] at h0
        omega)
    refine ⟨(n ++ [l]) :: new, ?_, ?_, ?_, ?_⟩
    · simpa [addNodes] using i1
    · simpa [addNodes] using i2
    · rw [i3, List.length_cons, List.range_succ_eq_map]
      simp [Function.comp_def]
    · exact (addNode_ext g l (h.len ▸ name_lt hce)).trans i4

theorem ensure_spec (thr : Nat) (g : Trie α) (names : List Name) (h : g.Inv names) (n : Name) :
    ∃ new, (g.ensure thr n).1.Inv (names ++ new) ∧
      (names ++ new)[(g.ensure thr n).2]? = some n ∧
      (∀ m, m ∈ new ↔ m ∉ names ∧ m <+: n) ∧
      (n ∈ names → new = []) ∧
      Ext g (g.ensure thr n).1 := by
  have hroot := h.root
  obtain ⟨a1, a2, a3⟩ := getAncestor_spec (thr := thr) h n 0 [] hroot
  have a4 := getAncestor_maps (thr := thr) h n 0 [] hroot
  obtain ⟨c1, c2⟩ := h.constructMaps _ a4
  simp only [List.nil_append] at a2 a3
  unfold ensure
  dsimp only
  generalize getAncestor thr g 0 n = r at *
  obtain ⟨v, k, w⟩ := r
  dsimp only at *
  obtain ⟨new, i1, i2, i3, i4⟩ := addNodes_spec (n.drop k) (w.foldl constructMap g) names v (n.take k) c1 a2 (by
    intro j hj hj'
    rw [List.length_drop] at hj'
    have := a3 (k + j) (by omega) (by omega)
    rwa [List.take_add] at this)
  rw [List.take_append_drop] at i2
  have hnew : ∀ m, m ∈ new ↔ m ∉ names ∧ m <+: n := by
    intro m
    rw [i3, List.mem_map]
    constructor
    · rintro ⟨j, hj, rfl⟩
      rw [List.mem_range, List.length_drop] at hj
      rw [← List.take_add]
      exact ⟨a3 _ (by omega) (by omega), List.take_prefix _ _⟩
    · rintro ⟨hm, hp⟩
      have hml := hp.length_le
      have hmk : k < m.length := by
        by_contra hle
        apply hm
        have hpk : m <+: n.take k := by
          rw [List.prefix_take_iff]; exact ⟨hp, by omega⟩
        exact h.mem_of_prefix (List.mem_of_getElem? a2) hpk
      refine ⟨m.length - k - 1, by rw [List.mem_range, List.length_drop]; omega, ?_⟩
      rw [← List.take_add, show k + (m.length - k - 1 + 1) = m.length by omega]
      exact (List.prefix_iff_eq_take.mp hp).symm
  refine ⟨new, i1, i2, hnew, ?_, (Ext.of_verts c2).trans i4⟩
  intro hn
  rw [List.eq_nil_iff_forall_not_mem]
  intro m hm
  obtain ⟨h1, h2⟩ := (hnew m).mp hm
  exact h1 (h.mem_of_prefix hn h2)

theorem vtx_setData (g : Trie α) (v : Nat) (d : α) (w : Nat) :
    (g.setData v d).vtx w = if w = v ∧ v < g.verts.length then { g.vtx w with data := d } else g.vtx w := by
  unfold setData vtx
  dsimp only
  rw [List.getD_eq_getElem?_getD, List.getElem?_modify, List.getD_eq_getElem?_getD]
  by_cases h : v = w
  · subst h
    by_cases hv : v < g.verts.length
    · simp [hv]
    · simp [hv]
  · have h' : ¬ w = v := fun e => h e.symm
    simp [h, h']

theorem Inv.setData {g : Trie α} {names : List Name} (h : g.Inv names) (v : Nat) (d : α) :
    (g.setData v d).Inv names := by
  have hl : ∀ w, ((g.setData v d).vtx w).label = (g.vtx w).label := by
    intro w; rw [vtx_setData]; split <;> rfl
  have he : ∀ w, ((g.setData v d).vtx w).edges = (g.vtx w).edges := by
    intro w; rw [vtx_setData]; split <;> rfl
  constructor
  · simpa [Trie.setData] using h.len
  · exact h.root
  · exact h.nodup
  · intro v u n; rw [he, hl]; exact h.edge v u n
  · intro u n l hu
    obtain ⟨v, h1, h2⟩ := h.parent u n l hu
    exact ⟨v, h1, by rwa [he]⟩
  · intro v; rw [he]; exact h.edgeNodup v
  · intro v u; rw [he]; exact h.dedge v u
  · intro v m hm l u
    rw [he, hl]; exact h.maps v m hm l u

theorem Inv.init (d : α) : (Trie.init d).Inv [[]] := by
  have hv : ∀ v, ((Trie.init d).vtx v).edges = [] := by
    intro v
    unfold Trie.init vtx
    rcases v with _ | v
    · rfl
    · rw [List.getD_eq_getElem?_getD]; rfl
  constructor
  · rfl
  · rfl
  · simp
  · intro v u n _ he; rw [hv] at he; simp at he
  · intro u n l hu
    rcases u with _ | u <;> simp at hu
  · intro v; rw [hv]; simp
  · intro v u he; rw [hv] at he; simp at he
  · intro v m hm; simp [Trie.init] at hm

end Trie
end Groot
