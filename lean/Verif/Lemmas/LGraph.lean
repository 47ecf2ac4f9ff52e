import Verif.Spec.Labels
import Verif.Lemmas.Trie
import Verif.Lemmas.Types

/-! # The label graph represents the list of its records -/

namespace Groot
open Spec

structure LRep (g : LGraph) (names : List Name) (xs : List (RR × Nat × Nat)) : Prop where
  inv : g.Inv names
  known : ∀ n, n ∈ names ↔ Known (xs.map (·.1)) n
  rootLabel : (g.vtx 0).label = ['.']
  dn : ∀ v u n, names[v]? = some n → ((EdgeType.dname, u) ∈ (g.vtx v).edges ↔
    ∃ t, names[u]? = some t ∧ Alias (xs.map (·.1)) n t)
  len : ∀ v, (g.vtx v).data.len = -1
  types : ∀ v n, names[v]? = some n → ∀ t, Member (g.vtx v).data.types t ↔ t ≠ .N ∧ ∃ x ∈ xs, x.1.name = n ∧ x.1.type = t
  zv : ∀ v n, names[v]? = some n → (g.vtx v).data.zv = holders xs n

theorem known_append (rs : List RR) (r : RR) (n : Name) : Known (rs ++ [r]) n ↔ Known rs n ∨
    (r.type ≠ .N ∧ (AtOrBelow n r.name ∨ r.type = .DNAME ∧ AtOrBelow n (stringToLabels r.rdata))) := by
  unfold Known
  constructor
  · rintro (h | ⟨x, hx, h⟩)
    · exact Or.inl (Or.inl h)
    · rcases List.mem_append.mp hx with hx | hx
      · exact Or.inl (Or.inr ⟨x, hx, h⟩)
      · rw [List.mem_singleton.mp hx] at h; exact Or.inr h
  · rintro ((h | ⟨x, hx, h⟩) | h)
    · exact Or.inl h
    · exact Or.inr ⟨x, by simp [hx], h⟩
    · exact Or.inr ⟨r, by simp, h⟩

theorem alias_append (rs : List RR) (r : RR) (n t : Name) : Alias (rs ++ [r]) n t ↔ Alias rs n t ∨
    (r.type = .DNAME ∧ r.name = n ∧ stringToLabels r.rdata = t) := by
  unfold Alias
  constructor
  · rintro ⟨x, hx, h⟩
    rcases List.mem_append.mp hx with hx | hx
    · exact Or.inl ⟨x, hx, h⟩
    · rw [List.mem_singleton.mp hx] at h; exact Or.inr h
  · rintro (⟨x, hx, h⟩ | h)
    · exact ⟨x, by simp [hx], h⟩
    · exact ⟨r, by simp, h⟩

theorem holders_append (xs : List (RR × Nat × Nat)) (x : RR × Nat × Nat) (n : Name) :
    holders (xs ++ [x]) n = if x.1.type ≠ .N ∧ x.1.name = n then
      (if x.2 ∈ holders xs n then holders xs n else holders xs n ++ [x.2]) else holders xs n := by
  unfold holders
  rw [List.filter_append, List.map_append, List.foldl_append]
  by_cases h : x.1.type ≠ .N ∧ x.1.name = n
  · simp [h]
  · rw [if_neg h]
    have : [x].filter (fun x => decide (x.1.type ≠ .N ∧ x.1.name = n)) = [] := by
      rw [List.filter_cons]; simp only [h, decide_false]; rfl
    rw [this]; rfl

theorem prefix_iff (d s : Name) : d <+: s ↔ AtOrBelow d s :=
  ⟨fun ⟨r, h⟩ => ⟨r, h.symm⟩, fun ⟨r, h⟩ => ⟨r, h.symm⟩⟩

theorem LRep.init : LRep LGraph.init [[]] [] where
  inv := Trie.Inv.init _
  known := by intro n; simp [Known]
  rootLabel := rfl
  dn := by
    intro v u n hv
    have : v = 0 := by have := Trie.name_lt hv; simp at this; exact this
    subst this
    simp [LGraph.init, Trie.init, Trie.vtx, Alias]
  len := by
    intro v
    unfold LGraph.init Trie.init Trie.vtx
    rcases v with _ | v
    · rfl
    · rw [List.getD_eq_getElem?_getD]; rfl
  types := by
    intro v n hv t
    have : v = 0 := by have := Trie.name_lt hv; simp at this; exact this
    subst this
    simp [LGraph.init, Trie.init, Trie.vtx, Member]
  zv := by
    intro v n hv
    have : v = 0 := by have := Trie.name_lt hv; simp at this; exact this
    subst this
    rfl

theorem vtx_addDnameEdge (g : LGraph) (src dst w : Nat) (hs : src < g.verts.length) :
    (LGraph.addDnameEdge g src dst).vtx w =
      if w = src ∧ (EdgeType.dname, dst) ∉ (g.vtx src).edges then
        { g.vtx w with edges := (g.vtx w).edges ++ [(EdgeType.dname, dst)] } else g.vtx w := by
  unfold LGraph.addDnameEdge
  have hc : ((g.vtx src).edges.any (fun e => e.2 == dst && e.1 == .dname) = true) ↔
      (EdgeType.dname, dst) ∈ (g.vtx src).edges := by
    rw [List.any_eq_true]
    constructor
    · rintro ⟨⟨a, b⟩, h1, h2⟩
      simp at h2
      rw [← h2.1, ← h2.2]; exact h1
    · intro h; exact ⟨_, h, by simp⟩
  by_cases h : (EdgeType.dname, dst) ∈ (g.vtx src).edges
  · rw [if_pos (hc.mpr h), if_neg (by simp [h])]
  · rw [if_neg (fun x => h (hc.mp x))]
    unfold Trie.vtx
    dsimp only
    rw [List.getD_eq_getElem?_getD, List.getElem?_modify, List.getD_eq_getElem?_getD]
    by_cases hw : w = src
    · subst hw
      have h' := h
      unfold Trie.vtx at h'
      simp [hs] at h'
      simp [hs, h']
    · have hw' : ¬ src = w := fun e => hw e.symm
      simp [hw, hw']

theorem addDnameEdge_maps (g : LGraph) (src dst : Nat) : (LGraph.addDnameEdge g src dst).maps = g.maps := by
  unfold LGraph.addDnameEdge; split <;> rfl

theorem addDnameEdge_length (g : LGraph) (src dst : Nat) :
    (LGraph.addDnameEdge g src dst).verts.length = g.verts.length := by
  unfold LGraph.addDnameEdge; split <;> simp

theorem addDnameEdge_inv {g : LGraph} {names : List Name} (h : g.Inv names) {src dst : Nat} (hs : src < names.length)
    (hd : dst < names.length) : (LGraph.addDnameEdge g src dst).Inv names := by
  have hs' : src < g.verts.length := by rw [← h.len]; exact hs
  have hV := vtx_addDnameEdge g src dst
  have hl : ∀ w, ((LGraph.addDnameEdge g src dst).vtx w).label = (g.vtx w).label := by
    intro w; rw [hV w hs']; split <;> rfl
  have he : ∀ w u, (EdgeType.normal, u) ∈ ((LGraph.addDnameEdge g src dst).vtx w).edges ↔
      (EdgeType.normal, u) ∈ (g.vtx w).edges := by
    intro w u; rw [hV w hs']; split
    · simp
    · rfl
  constructor
  · rw [addDnameEdge_length]; exact h.len
  · exact h.root
  · exact h.nodup
  · intro v u n hv hu; rw [hl]; exact h.edge v u n hv ((he v u).mp hu)
  · intro u n l hu
    obtain ⟨v, h1, h2⟩ := h.parent u n l hu
    exact ⟨v, h1, (he v u).mpr h2⟩
  · intro v
    have : ((LGraph.addDnameEdge g src dst).vtx v).edges.filter (fun e => decide (e.1 = EdgeType.normal)) =
        (g.vtx v).edges.filter (fun e => decide (e.1 = EdgeType.normal)) := by
      rw [hV v hs']; split
      · simp
      · rfl
    rw [this]; exact h.edgeNodup v
  · intro v u hu
    rw [hV v hs'] at hu
    split at hu
    · simp only [List.mem_append, List.mem_singleton, Prod.mk.injEq, true_and] at hu
      rcases hu with hu | hu
      · exact h.dedge v u hu
      · rw [hu]; exact hd
    · exact h.dedge v u hu
  · intro v m hm l u
    rw [addDnameEdge_maps] at hm
    rw [he, hl]; exact h.maps v m hm l u

theorem getElem?_append_of {names new : List Name} {v : Nat} {n : Name} (h : names[v]? = some n) :
    (names ++ new)[v]? = some n := by
  rw [List.getElem?_append_left (Trie.name_lt h)]; exact h

theorem getElem?_append_inv {names new : List Name} {v : Nat} {n : Name} (h : (names ++ new)[v]? = some n) :
    names[v]? = some n ∨ n ∈ new := by
  rcases Nat.lt_or_ge v names.length with hv | hv
  · left; rwa [List.getElem?_append_left hv] at h
  · right
    rw [List.getElem?_append_right hv] at h
    exact List.mem_of_getElem? h

/-- The graph, except for the data and edges of the new record. -/
structure LMid (g : LGraph) (names : List Name) (xs : List (RR × Nat × Nat)) : Prop where
  inv : g.Inv names
  rootLabel : (g.vtx 0).label = ['.']
  dn : ∀ v u n, names[v]? = some n → ((EdgeType.dname, u) ∈ (g.vtx v).edges ↔
    ∃ t, names[u]? = some t ∧ Alias (xs.map (·.1)) n t)
  len : ∀ v, (g.vtx v).data.len = -1
  types : ∀ v n, names[v]? = some n → ∀ t, Member (g.vtx v).data.types t ↔ t ≠ .N ∧ ∃ x ∈ xs, x.1.name = n ∧ x.1.type = t
  zv : ∀ v n, names[v]? = some n → (g.vtx v).data.zv = holders xs n
  owners : ∀ x ∈ xs, x.1.type ≠ .N → x.1.name ∈ names ∧ (x.1.type = .DNAME → stringToLabels x.1.rdata ∈ names)

theorem holders_nil_of {xs : List (RR × Nat × Nat)} {n : Name} (h : ∀ x ∈ xs, x.1.type ≠ .N → x.1.name ≠ n) :
    holders xs n = [] := by
  unfold holders
  have : xs.filter (fun x => decide (x.1.type ≠ .N ∧ x.1.name = n)) = [] := by
    rw [List.filter_eq_nil_iff]
    intro x hx
    simp only [decide_eq_true_eq, not_and]
    exact h x hx
  rw [this]; rfl

theorem LMid.ensure {g : LGraph} {names : List Name} {xs : List (RR × Nat × Nat)} (h : LMid g names xs) (thr : Nat)
    (n : Name) : ∃ new, LMid (g.ensure thr n).1 (names ++ new) xs ∧ (names ++ new)[(g.ensure thr n).2]? = some n ∧
      (∀ m, m ∈ new ↔ m ∉ names ∧ m <+: n) := by
  obtain ⟨new, h1, h2, h3, _, h5⟩ := Trie.ensure_spec thr g names h.inv n
  have hdef : ∀ (v : Nat) m, (names ++ new)[v]? = some m → names[v]? = none → (g.vtx v).data = default ∧ (g.vtx v).edges = [] := by
    intro v m _ hn
    have : g.verts.length ≤ v := by
      rw [← h.inv.len]; exact List.getElem?_eq_none_iff.mp hn
    rw [Trie.vtx_of_ge g this]; exact ⟨rfl, rfl⟩
  have hold : ∀ (v : Nat) m, (names ++ new)[v]? = some m → names[v]? = some m ∨ (names[v]? = none ∧ m ∉ names) := by
    intro v m hm
    rcases hv : names[v]? with _ | m'
    · refine Or.inr ⟨rfl, ?_⟩
      rcases getElem?_append_inv hm with h | h
      · rw [hv] at h; cases h
      · exact ((h3 m).mp h).1
    · rw [getElem?_append_of hv] at hm; cases hm; exact Or.inl rfl
  refine ⟨new, ⟨h1, ?_, ?_, ?_, ?_, ?_, ?_⟩, h2, h3⟩
  · rw [h5.label 0 (by rw [← h.inv.len]; exact Trie.name_lt h.inv.root)]; exact h.rootLabel
  · intro v u m hm
    rw [h5.dname]
    rcases hold v m hm with hv | ⟨hv, hm'⟩
    · rw [h.dn v u m hv]
      constructor
      · rintro ⟨t, h6, h7⟩; exact ⟨t, getElem?_append_of h6, h7⟩
      · rintro ⟨t, h6, h7⟩
        refine ⟨t, ?_, h7⟩
        rcases getElem?_append_inv h6 with h8 | h8
        · exact h8
        · exfalso
          obtain ⟨r, hr, hd, _, ht⟩ := h7
          rw [List.mem_map] at hr
          obtain ⟨x, hx, rfl⟩ := hr
          have := (h.owners x hx (by rw [hd]; decide)).2 hd
          rw [ht] at this
          exact ((h3 t).mp h8).1 this
    · rw [(hdef v m hm hv).2]
      simp only [List.not_mem_nil, false_iff]
      rintro ⟨t, _, r, hr, hd, hn, _⟩
      rw [List.mem_map] at hr
      obtain ⟨x, hx, rfl⟩ := hr
      have := (h.owners x hx (by rw [hd]; decide)).1
      rw [hn] at this
      exact hm' this
  · intro v; rw [h5.data]; exact h.len v
  · intro v m hm t
    rw [h5.data]
    rcases hold v m hm with hv | ⟨hv, hm'⟩
    · exact h.types v m hv t
    · rw [(hdef v m hm hv).1]
      constructor
      · intro hx; exact absurd hx (by simp [Member, default, instInhabitedLData.default])
      · rintro ⟨ht, x, hx, hn, hxt⟩
        have := (h.owners x hx (by rw [hxt]; exact ht)).1
        rw [hn] at this
        exact absurd this hm'
  · intro v m hm
    rw [h5.data]
    rcases hold v m hm with hv | ⟨hv, hm'⟩
    · exact h.zv v m hv
    · rw [(hdef v m hm hv).1, holders_nil_of]
      · rfl
      · intro x hx ht hn
        have := (h.owners x hx ht).1
        rw [hn] at this
        exact hm' this
  · intro x hx ht
    obtain ⟨h6, h7⟩ := h.owners x hx ht
    exact ⟨List.mem_append_left _ h6, fun hd => List.mem_append_left _ (h7 hd)⟩

theorem LRep.mid {g : LGraph} {names : List Name} {xs : List (RR × Nat × Nat)} (h : LRep g names xs) : LMid g names xs where
  inv := h.inv
  rootLabel := h.rootLabel
  dn := h.dn
  len := h.len
  types := h.types
  zv := h.zv
  owners := by
    intro x hx ht
    have hx' : x.1 ∈ xs.map (·.1) := List.mem_map.mpr ⟨x, hx, rfl⟩
    refine ⟨(h.known _).mpr (Or.inr ⟨x.1, hx', ht, Or.inl ⟨[], by simp⟩⟩), ?_⟩
    intro hd
    exact (h.known _).mpr (Or.inr ⟨x.1, hx', ht, Or.inr ⟨hd, [], by simp⟩⟩)

/-- The last step of adding a record: its node's data. -/
theorem LMid.finish {g : LGraph} {names : List Name} {xs : List (RR × Nat × Nat)} (h : LMid g names xs)
    (x : RR × Nat × Nat) (ht : x.1.type ≠ .N) {main : Nat} (hmain : names[main]? = some x.1.name)
    {g' : LGraph} (hinv : g'.Inv names) (hlab : (g'.vtx 0).label = ['.'])
    (hdata : ∀ v, (g'.vtx v).data = (g.vtx v).data)
    (hal : ∀ v u n, names[v]? = some n → ((EdgeType.dname, u) ∈ (g'.vtx v).edges ↔
      ∃ t, names[u]? = some t ∧ Alias ((xs ++ [x]).map (·.1)) n t))
    (hknown : ∀ n, n ∈ names ↔ Known ((xs ++ [x]).map (·.1)) n)
    (zv : List (Nat × Nat)) (hzv : zv = if x.2 ∈ (g.vtx main).data.zv then (g.vtx main).data.zv
      else (g.vtx main).data.zv ++ [x.2]) :
    LRep (g'.setData main { (g'.vtx main).data with zv := zv, types := (g'.vtx main).data.types.add x.1.type })
      names (xs ++ [x]) := by
  have hV := Trie.vtx_setData g' main { (g'.vtx main).data with
    zv := zv, types := (g'.vtx main).data.types.add x.1.type }
  have hm : main < g'.verts.length := by rw [← hinv.len]; exact Trie.name_lt hmain
  have hother : ∀ v n, names[v]? = some n → v ≠ main → n ≠ x.1.name := by
    intro v n hv hne he
    rw [he] at hv
    exact hne (Trie.name_inj hinv.nodup hv hmain)
  refine ⟨hinv.setData _ _, hknown, ?_, ?_, ?_, ?_, ?_⟩
  · rw [hV]; split <;> exact hlab
  · intro v u n hv
    rw [← hal v u n hv, hV]; split <;> rfl
  · intro v
    rw [hV]; split
    · show (g'.vtx main).data.len = -1
      rw [hdata]; exact h.len main
    · rw [hdata]; exact h.len v
  · intro v n hv t
    rw [hV]
    by_cases hvm : v = main
    · subst hvm
      rw [hmain] at hv; cases hv
      rw [if_pos ⟨rfl, hm⟩]
      show Member ((g'.vtx v).data.types.add x.1.type) t ↔ _
      rw [hdata]
      have := h.types v _ hmain t
      have key : Member ((g.vtx v).data.types.add x.1.type) t ↔ Member (g.vtx v).data.types t ∨ (t ≠ .N ∧ x.1.type = t) := by
        unfold Member
        show t ≠ .N ∧ ((g.vtx v).data.types.add x.1.type).has t = true ↔ (t ≠ .N ∧ (g.vtx v).data.types.has t = true) ∨ _
        rw [has_add, Bool.or_eq_true, decide_eq_true_eq]
        constructor
        · rintro ⟨h1, h2 | h2⟩
          · exact Or.inl ⟨h1, h2⟩
          · exact Or.inr ⟨h1, h2.1⟩
        · rintro (⟨h1, h2⟩ | ⟨h1, h2⟩)
          · exact ⟨h1, Or.inl h2⟩
          · exact ⟨h1, Or.inr ⟨h2, fun c => h1 (h2 ▸ c)⟩⟩
      rw [key, this]
      constructor
      · rintro (⟨h1, y, hy, e⟩ | ⟨h1, h2⟩)
        · exact ⟨h1, y, by simp [hy], e⟩
        · exact ⟨h1, x, by simp, rfl, h2⟩
      · rintro ⟨h1, y, hy, e1, e2⟩
        rcases List.mem_append.mp hy with hy | hy
        · exact Or.inl ⟨h1, y, hy, e1, e2⟩
        · rw [List.mem_singleton.mp hy] at e2; exact Or.inr ⟨h1, e2⟩
    · rw [if_neg (fun c => hvm c.1), hdata, h.types v n hv t]
      have hne := hother v n hv hvm
      constructor
      · rintro ⟨h1, y, hy, e⟩; exact ⟨h1, y, by simp [hy], e⟩
      · rintro ⟨h1, y, hy, e1, e2⟩
        rcases List.mem_append.mp hy with hy | hy
        · exact ⟨h1, y, hy, e1, e2⟩
        · rw [List.mem_singleton.mp hy] at e1
          exact absurd e1.symm hne
  · intro v n hv
    rw [hV, holders_append]
    by_cases hvm : v = main
    · subst hvm
      rw [hmain] at hv; cases hv
      rw [if_pos ⟨rfl, hm⟩, if_pos ⟨ht, rfl⟩]
      show zv = _
      rw [hzv, h.zv v _ hmain]
    · rw [if_neg (fun c => hvm c.1), hdata, h.zv v n hv, if_neg (fun c => hother v n hv hvm c.2.symm)]

theorem any_pair (l : List (Nat × Nat)) (a b : Nat) :
    (if l.any (fun e => e.1 == a && e.2 == b) then l else l ++ [(a, b)]) = if (a, b) ∈ l then l else l ++ [(a, b)] := by
  have : (l.any (fun e => e.1 == a && e.2 == b) = true) ↔ (a, b) ∈ l := by
    rw [List.any_eq_true]
    constructor
    · rintro ⟨⟨c, d⟩, h1, h2⟩
      simp at h2
      rw [← h2.1, ← h2.2]; exact h1
    · intro h; exact ⟨_, h, by simp⟩
  by_cases h : (a, b) ∈ l
  · rw [if_pos (this.mpr h), if_pos h]
  · rw [if_neg (fun x => h (this.mp x)), if_neg h]

theorem LRep.addRecord {g : LGraph} {names : List Name} {xs : List (RR × Nat × Nat)} (h : LRep g names xs) (thr : Nat)
    (x : RR × Nat × Nat) : ∃ names', LRep (LGraph.addRecord thr g x.1 x.2.1 x.2.2) names' (xs ++ [x]) := by
  by_cases ht : x.1.type = .N
  · refine ⟨names, ?_⟩
    unfold LGraph.addRecord
    rw [if_pos ht]
    refine ⟨h.inv, ?_, h.rootLabel, ?_, h.len, ?_, ?_⟩
    · intro n
      rw [List.map_append, List.map_singleton, known_append, h.known]
      simp [ht]
    · intro v u n hv
      rw [h.dn v u n hv]
      simp only [List.map_append, List.map_singleton, alias_append, ht]
      simp
    · intro v n hv t
      rw [h.types v n hv t]
      constructor
      · rintro ⟨h1, y, hy, e⟩; exact ⟨h1, y, by simp [hy], e⟩
      · rintro ⟨h1, y, hy, e1, e2⟩
        rcases List.mem_append.mp hy with hy | hy
        · exact ⟨h1, y, hy, e1, e2⟩
        · rw [List.mem_singleton.mp hy] at e2; exact absurd (e2.symm.trans ht) h1
    · intro v n hv
      rw [h.zv v n hv, holders_append, if_neg (fun c => c.1 ht)]
  · obtain ⟨new, m1, hmain, hnew⟩ := h.mid.ensure thr x.1.name
    by_cases hd : x.1.type = .DNAME
    · obtain ⟨new2, m2, htgt, hnew2⟩ := m1.ensure thr (stringToLabels x.1.rdata)
      refine ⟨names ++ new ++ new2, ?_⟩
      have hmain2 : (names ++ new ++ new2)[(g.ensure thr x.1.name).2]? = some x.1.name := getElem?_append_of hmain
      have hsl : (g.ensure thr x.1.name).2 < (names ++ new ++ new2).length := Trie.name_lt hmain2
      have htl := Trie.name_lt htgt
      have hsl' : (g.ensure thr x.1.name).2 < ((g.ensure thr x.1.name).1.ensure thr (stringToLabels x.1.rdata)).1.verts.length := by
        rw [← m2.inv.len]; exact hsl
      have hV := fun w => vtx_addDnameEdge ((g.ensure thr x.1.name).1.ensure thr (stringToLabels x.1.rdata)).1
        (g.ensure thr x.1.name).2 ((g.ensure thr x.1.name).1.ensure thr (stringToLabels x.1.rdata)).2 w hsl'
      unfold LGraph.addRecord
      rw [if_neg ht]
      simp only [hd, if_true]
      have hdat : ∀ v, ((LGraph.addDnameEdge ((g.ensure thr x.1.name).1.ensure thr (stringToLabels x.1.rdata)).1
        (g.ensure thr x.1.name).2 ((g.ensure thr x.1.name).1.ensure thr (stringToLabels x.1.rdata)).2).vtx v).data =
          (((g.ensure thr x.1.name).1.ensure thr (stringToLabels x.1.rdata)).1.vtx v).data := by
        intro v; rw [hV]; split <;> rfl
      have := m2.finish x ht hmain2 (addDnameEdge_inv m2.inv hsl htl) (by
          rw [hV]; split <;> exact m2.rootLabel) hdat ?_ ?_ _ (by rw [← hdat])
      · rw [hd] at this; rw [any_pair]; exact this
      · intro v u n hv
        rw [List.map_append, List.map_singleton, hV]
        simp only [alias_append, hd, true_and]
        have ha := m2.dn v u n hv
        by_cases hc : v = (g.ensure thr x.1.name).2 ∧ (EdgeType.dname, ((g.ensure thr x.1.name).1.ensure thr (stringToLabels x.1.rdata)).2) ∉
            (((g.ensure thr x.1.name).1.ensure thr (stringToLabels x.1.rdata)).1.vtx (g.ensure thr x.1.name).2).edges
        · rw [if_pos hc]
          obtain ⟨hv1, _⟩ := hc
          rw [hv1] at hv
          rw [hmain2] at hv; cases hv
          simp only [List.mem_append, List.mem_singleton, Prod.mk.injEq, true_and, ha]
          constructor
          · rintro (⟨t, e1, e2⟩ | rfl)
            · exact ⟨t, e1, Or.inl e2⟩
            · exact ⟨_, htgt, Or.inr rfl⟩
          · rintro ⟨t, e1, e2 | e2⟩
            · exact Or.inl ⟨t, e1, e2⟩
            · right
              rw [← e2] at e1
              exact Trie.name_inj m2.inv.nodup e1 htgt
        · rw [if_neg hc, ha]
          constructor
          · rintro ⟨t, e1, e2⟩; exact ⟨t, e1, Or.inl e2⟩
          · rintro ⟨t, e1, e2 | ⟨e2, e3⟩⟩
            · exact ⟨t, e1, e2⟩
            · have hvm : v = (g.ensure thr x.1.name).2 := by
                rw [← e2] at hv
                exact Trie.name_inj m2.inv.nodup hv hmain2
              have hin : (EdgeType.dname, ((g.ensure thr x.1.name).1.ensure thr (stringToLabels x.1.rdata)).2) ∈
                  (((g.ensure thr x.1.name).1.ensure thr (stringToLabels x.1.rdata)).1.vtx (g.ensure thr x.1.name).2).edges := by
                by_contra hx; exact hc ⟨hvm, hx⟩
              have hu : u = ((g.ensure thr x.1.name).1.ensure thr (stringToLabels x.1.rdata)).2 := by
                rw [← e3] at e1
                exact Trie.name_inj m2.inv.nodup e1 htgt
              rw [← hvm, ← hu] at hin
              exact ha.mp hin
      · intro n
        rw [List.map_append, List.map_singleton, known_append, ← h.known, List.mem_append, List.mem_append, hnew, hnew2,
          List.mem_append, hnew, prefix_iff, prefix_iff]
        have hname : AtOrBelow n x.1.name ∨ ¬ AtOrBelow n x.1.name := em _
        constructor
        · rintro ((h1 | h1) | h1)
          · exact Or.inl h1
          · exact Or.inr ⟨ht, Or.inl h1.2⟩
          · exact Or.inr ⟨ht, Or.inr ⟨hd, h1.2⟩⟩
        · rintro (h1 | ⟨_, h1 | ⟨_, h1⟩⟩)
          · exact Or.inl (Or.inl h1)
          · by_cases hn : n ∈ names
            · exact Or.inl (Or.inl hn)
            · exact Or.inl (Or.inr ⟨hn, h1⟩)
          · by_cases hn : n ∈ names
            · exact Or.inl (Or.inl hn)
            · rcases hname with h2 | h2
              · exact Or.inl (Or.inr ⟨hn, h2⟩)
              · refine Or.inr ⟨?_, h1⟩
                rintro (h3 | ⟨_, h3⟩)
                · exact hn h3
                · exact h2 h3
    · refine ⟨names ++ new, ?_⟩
      unfold LGraph.addRecord
      rw [if_neg ht]
      simp only [hd, if_false]
      refine m1.finish x ht hmain m1.inv m1.rootLabel (fun _ => rfl) ?_ ?_ _ (any_pair _ _ _)
      · intro v u n hv
        rw [m1.dn v u n hv]
        simp only [List.map_append, List.map_singleton, alias_append, hd]
        simp
      · intro n
        rw [List.map_append, List.map_singleton, known_append, ← h.known, List.mem_append, hnew, prefix_iff]
        constructor
        · rintro (h1 | h1)
          · exact Or.inl h1
          · exact Or.inr ⟨ht, Or.inl h1.2⟩
        · rintro (h1 | ⟨_, h1 | ⟨h2, h1⟩⟩)
          · exact Or.inl h1
          · by_cases hn : n ∈ names
            · exact Or.inl hn
            · exact Or.inr ⟨hn, h1⟩
          · exact absurd h2 hd

theorem labelGraph_rep (thr : Nat) (xs : List (RR × Nat × Nat)) : ∃ names, LRep (labelGraph thr xs) names xs := by
  induction xs using List.reverseRecOn with
  | nil => exact ⟨[[]], LRep.init⟩
  | append_singleton xs x ih =>
    obtain ⟨names, h⟩ := ih
    obtain ⟨names', h'⟩ := h.addRecord thr x
    refine ⟨names', ?_⟩
    unfold labelGraph at h' ⊢
    rw [List.foldl_append]
    exact h'

end Groot
