import Verif.Lemmas.Search

/-! # Closest enclosers: from vertices to names -/

namespace Groot
open Spec

section
variable {g : LGraph} {names : List Name} {xs : List (RR × Nat × Nat)}

theorem nodeOf_iff (h : g.Inv names) (n : Name) (v : Nat) : nodeOf g n = some v ↔ names[v]? = some n := by
  induction n using List.reverseRecOn generalizing v with
  | nil =>
    show some 0 = some v ↔ _
    constructor
    · intro e; cases e; exact h.root
    · intro e; rw [Trie.name_inj h.nodup e h.root]
  | append_singleton n l ih =>
    unfold nodeOf at ih ⊢
    rw [List.foldl_append]
    show ((List.foldl _ (some 0) n).bind _) = some v ↔ _
    constructor
    · intro e
      obtain ⟨u, h1, h2⟩ := Option.bind_eq_some_iff.mp e
      exact (h.childByEdges_iff ((ih u).mp h1) l v).mp h2
    · intro e
      obtain ⟨u, hu, _⟩ := h.parent v n l e
      rw [(ih u).mpr hu]
      exact (h.childByEdges_iff hu l v).mpr e

theorem lchild_iff (h : g.Inv names) {v : Nat} {n : Name} (hv : names[v]? = some n) (l : Label) (u : Nat) :
    LGraph.child g v l = some u ↔ names[u]? = some (n ++ [l]) := h.step_iff hv l u

theorem inside (h : g.Inv names) : Inside g := by
  constructor
  · intro v u hu; rw [← h.len]; exact h.dedge v u hu
  · intro v l u hu
    rcases Nat.lt_or_ge v g.verts.length with hv | hv
    · obtain ⟨n, hn⟩ : ∃ n, names[v]? = some n := ⟨names[v]'(by rw [h.len]; exact hv), List.getElem?_eq_getElem _⟩
      rw [← h.len]
      exact Trie.name_lt ((lchild_iff h hn l u).mp hu)
    · exfalso
      unfold LGraph.child at hu
      rcases hm : g.maps.lookup v with _ | m
      · rw [hm] at hu
        simp [Trie.childByEdges, Trie.vtx_of_ge g hv] at hu
      · rw [hm] at hu
        have := (h.maps v m hm l u).mp hu
        rw [Trie.vtx_of_ge g hv] at this
        simp at this

theorem known_prefix {rs : List RR} {n m : Name} (h : Known rs m) (hp : AtOrBelow n m) : Known rs n := by
  obtain ⟨r, rfl⟩ := hp
  rcases h with h | ⟨x, hx, hN, h⟩
  · left; simp at h; exact h.1
  · right
    refine ⟨x, hx, hN, ?_⟩
    rcases h with ⟨r', h⟩ | ⟨h0, r', h⟩
    · exact Or.inl ⟨r ++ r', by rw [h]; simp⟩
    · exact Or.inr ⟨h0, r ++ r', by rw [h]; simp⟩

theorem alias_known {rs : List RR} {n t : Name} (h : Alias rs n t) : Known rs n ∧ Known rs t := by
  obtain ⟨r, h1, h2, h3, h4⟩ := h
  exact ⟨Or.inr ⟨r, h1, by rw [h2]; simp, Or.inl ⟨[], by simp [h3]⟩⟩,
    Or.inr ⟨r, h1, by rw [h2]; simp, Or.inr ⟨h2, [], by simp [h4]⟩⟩⟩

theorem LRep.node (h : LRep g names xs) {n : Name} (hn : Known (xs.map (·.1)) n) : ∃ v : Nat, names[v]? = some n :=
  List.mem_iff_getElem?.mp ((h.known n).mpr hn)

theorem free_minus (labels : Name) (v i : Nat) : Free labels (fun _ => -1) v i := Or.inr (by simp)

theorem swalk_snoc {labels : Name} {v i u j w k : Nat} (h : SWalk g labels (fun _ => -1) v i u j)
    (hs : SStep g labels u j w k) : SWalk g labels (fun _ => -1) v i w k := by
  induction h with
  | refl v i hf => exact .step v i w k w k hf hs (.refl w k (free_minus _ _ _))
  | step v i a b u j hf h1 _ ih => exact .step v i a b w k hf h1 (ih hs)

theorem LRep.walk_iff (h : LRep g names xs) (labels : Name) (w k : Nat) :
    SWalk g labels (fun _ => -1) 0 0 w k ↔ ∃ n, names[w]? = some n ∧ Matches (xs.map (·.1)) labels n k := by
  constructor
  · intro hw
    have key : ∀ (w k v i : Nat) n, names[v]? = some n → Matches (xs.map (·.1)) labels n i → SWalk g labels (fun _ => -1) v i w k →
        ∃ n, names[w]? = some n ∧ Matches (xs.map (·.1)) labels n k := by
      intro w k v i n hv hm hw
      generalize hL : (fun _ : Nat => (-1 : Int)) = L at hw
      induction hw generalizing n with
      | refl v i _ => exact ⟨n, hv, hm⟩
      | step v i u j w k _ hs _ ih =>
        obtain ⟨hi, hs⟩ := hs
        rcases hs with ⟨he, rfl⟩ | ⟨l, hl, hc, rfl⟩
        · obtain ⟨t, ht, ha⟩ := (h.dn v u n hv).mp he
          exact ih t ht (.redirect n _ t hm hi ha)
        · have hu := (lchild_iff h.inv hv l u).mp hc
          exact ih _ hu (.down n i l hm hl ((h.known _).mp (List.mem_of_getElem? hu)))
    exact key w k 0 0 [] h.inv.root .root hw
  · rintro ⟨n, hw, hm⟩
    induction hm generalizing w with
    | root => rw [Trie.name_inj h.inv.nodup hw h.inv.root]; exact .refl _ _ (free_minus _ _ _)
    | down n i l hm hl hk ih =>
      obtain ⟨v, hv, _⟩ := h.inv.parent w n l hw
      refine swalk_snoc (ih v hv) ⟨?_, Or.inr ⟨l, hl, (lchild_iff h.inv hv l w).mpr hw, rfl⟩⟩
      exact (List.getElem?_eq_some_iff.mp hl).1
    | redirect n i t hm hi ha ih =>
      obtain ⟨v, hv⟩ := h.node (alias_known ha).1
      exact swalk_snoc (ih v hv) ⟨hi, Or.inl ⟨(h.dn v w n hv).mpr ⟨t, hw, ha⟩, rfl⟩⟩

/-- A recursion budget that suffices for every search. -/
def searchBudget (g : LGraph) (labels : Name) : Nat := (labels.length + 1) * (g.verts.length + 1) + 1

theorem LRep.search (h : LRep g names xs) (labels : Name) {fuel : Nat} (hf : searchBudget g labels ≤ fuel) :
    ∃ es m, LGraph.closestEnclosers fuel g labels = .ok (g, es) ∧ es ≠ [] ∧
      (∀ x ∈ es, x.2 = ((m : Nat) : Int) ∧ ∃ n, names[x.1]? = some n ∧ Matches (xs.map (·.1)) labels n m) ∧
      (∀ (w : Nat) n, names[w]? = some n → Matches (xs.map (·.1)) labels n m → (w, (m : Int)) ∈ es) ∧
      (∀ n k, Matches (xs.map (·.1)) labels n k → k ≤ m) := by
  have hlens : lens g = fun _ => -1 := by funext v; exact h.len v
  have h0 : 0 < g.verts.length := by rw [← h.inv.len]; exact Trie.name_lt h.inv.root
  obtain ⟨es, h1, h2, h3⟩ := searchNode_spec (inside h.inv) labels fuel g 0 0 (Shape.refl g) (Nat.zero_le _) h0
    (by intro u; rw [hlens]; simp) (by
      unfold smeasure
      unfold searchBudget at hf
      have := unmarked_le g 0
      rw [Nat.sub_zero]
      rw [Nat.add_mul, Nat.one_mul] at hf
      omega)
  rw [hlens] at h2 h3
  obtain ⟨h4, m, h5⟩ := h3 (free_minus _ _ _)
  have hw : ∀ x ∈ es, ∃ w k : Nat, x = (w, (k : Int)) ∧ SWalk g labels (fun _ => -1) 0 0 w k := by
    intro x hx
    rcases h2.1 x hx with h | h
    · have := h5 x hx; omega
    · exact h
  refine ⟨es, m, h1, h4, ?_, ?_, ?_⟩
  · intro x hx
    refine ⟨h5 x hx, ?_⟩
    obtain ⟨w, k, rfl, hk⟩ := hw x hx
    have := h5 _ hx
    simp only at this
    have e : k = m := by omega
    subst e
    exact (h.walk_iff labels w k).mp hk
  · intro w n hn hm
    rcases h2.2 w m ((h.walk_iff labels w m).mpr ⟨n, hn, hm⟩) with h | ⟨w', k', h, h'⟩
    · exact h
    · have := h5 _ h; simp only at this; omega
  · intro n k hm
    have hkn : Known (xs.map (·.1)) n := by
      cases hm with
      | root => exact Or.inl rfl
      | down _ _ _ _ _ h => exact h
      | redirect _ _ _ _ _ h => exact (alias_known h).2
    obtain ⟨w, hw'⟩ := h.node hkn
    rcases h2.2 w k ((h.walk_iff labels w k).mpr ⟨n, hw', hm⟩) with h | ⟨w', k', h, h'⟩
    · have := h5 _ h; simp only at this; omega
    · have := h5 _ h; simp only at this; omega

/-- No DNAME record. -/
theorem matches_plain {rs : List RR} (hd : ∀ r ∈ rs, r.type ≠ .DNAME) {labels n : Name} {k : Nat} :
    Matches rs labels n k ↔ k = n.length ∧ AtOrBelow n labels ∧ Known rs n := by
  constructor
  · intro h
    induction h with
    | root => exact ⟨rfl, ⟨labels, rfl⟩, Or.inl rfl⟩
    | down n i l _ hl hk ih =>
      obtain ⟨rfl, ⟨r, hr⟩, _⟩ := ih
      refine ⟨by simp, ?_, hk⟩
      rw [hr] at hl
      rw [List.getElem?_append_right (Nat.le_refl _)] at hl
      simp at hl
      cases r with
      | nil => simp at hl
      | cons a r => simp at hl; subst hl; exact ⟨r, by rw [hr]; simp⟩
    | redirect n i t _ _ ha _ =>
      obtain ⟨r, h1, h2, _⟩ := ha
      exact absurd h2 (hd r h1)
  · rintro ⟨rfl, hp, hk⟩
    induction n using List.reverseRecOn with
    | nil => exact .root
    | append_singleton n l ih =>
      obtain ⟨r, hr⟩ := hp
      have hk' : Known rs n := known_prefix hk ⟨[l], rfl⟩
      have := ih ⟨l :: r, by rw [hr]; simp⟩ hk'
      rw [List.length_append]
      refine .down n _ l this ?_ hk
      rw [hr]; simp

theorem keepMax_two {i k : Nat} (v w : Nat) (h : i < k) :
    LGraph.keepMax ([(v, (i : Int))] ++ [(w, (k : Int))]) = [(w, (k : Int))] := by
  unfold LGraph.keepMax
  have h1 : (-1 : Int) < i := by omega
  have h2 : (i : Int) < k := by omega
  have h3 : ¬ ((k : Int) = -1) := by omega
  have h4 : ¬ ((i : Int) = k) := by omega
  simp [h1, h2, h3, h4]

theorem smeasure_child {g : LGraph} {labels : Name} {v i fuel : Nat} (hlt : i < labels.length) (hv : v < g.verts.length)
    (hl : lens g v ≠ i) (hm : smeasure g labels i < fuel + 1) : smeasure (LGraph.setLen g v i) labels (i + 1) < fuel := by
  unfold smeasure at hm ⊢
  rw [setLen_length]
  have h0 := unmarked_setLen g hv (i := i) hl
  have h1 := unmarked_le (LGraph.setLen g v i) (i + 1)
  rw [setLen_length] at h1
  have h2 : (labels.length - i) * (g.verts.length + 1) =
      (labels.length - (i + 1)) * (g.verts.length + 1) + (g.verts.length + 1) := by
    rw [← Nat.succ_mul]; congr 1; omega
  omega

/-- Without DNAME edges on the way the search returns a single node. -/
theorem search_single_on {g0 : LGraph} (hin : Inside g0) (labels : Name) (P : Nat → Nat → Prop)
    (hd : ∀ v i, P v i → i < labels.length → ∀ u, (EdgeType.dname, u) ∉ (g0.vtx v).edges)
    (hP : ∀ v i u (h : i < labels.length), P v i → LGraph.child g0 v labels[i] = some u → P u (i + 1)) :
    ∀ (fuel : Nat) (g : LGraph) (v i : Nat) (es : List (Nat × Int)), P v i → Shape g0 g → i ≤ labels.length → v < g0.verts.length →
    (∀ u, lens g u < i) → smeasure g labels i < fuel → LGraph.searchNode fuel g v (labels.drop i) i = .ok (g, es) →
    ∃ w, ∃ k : Nat, i ≤ k ∧ es = [(w, (k : Int))] := by
  intro fuel
  induction fuel with
  | zero => intro g v i es _ _ _ _ _ _ h; unfold LGraph.searchNode at h; cases h
  | succ fuel ih =>
    intro g v i es hp hsh hi hv hL hm h
    rcases Nat.lt_or_ge i labels.length with hlt | hge
    · rw [drop_eq_cons hlt] at h
      unfold LGraph.searchNode at h
      dsimp only at h
      have hne : ¬ (i : Int) = (g.vtx v).data.len := by
        have h0 := hL v
        unfold lens at h0
        omega
      rw [if_neg hne] at h
      have hv' : v < g.verts.length := by rw [hsh.len]; exact hv
      have hfold : ∀ (l : List (EdgeType × Nat)) (st : LGraph × List (Nat × Int)), (∀ u, (EdgeType.dname, u) ∉ l) →
          l.foldlM (fun (st : LGraph × List (Nat × Int)) e =>
            if e.1 = .dname then do
              let r ← LGraph.searchNode fuel st.1 e.2 (labels[i] :: labels.drop (i + 1)) i
              Res.ok (r.1, st.2 ++ r.2)
            else .ok st) st = .ok st := by
        intro l
        induction l with
        | nil => intro st _; rfl
        | cons e l ihl =>
          intro st hl
          obtain ⟨t, u⟩ := e
          cases t with
          | dname => exact absurd (by simp) (hl u)
          | normal =>
            rw [List.foldlM_cons]
            simp only [reduceCtorEq, if_false, Res.ok_bind]
            exact ihl st (fun u hu => hl u (by simp [hu]))
      rw [hfold _ _ (by intro u hu; rw [(hsh.setLen v i).edges] at hu; exact hd v i hp hlt u hu)] at h
      simp only [Res.ok_bind] at h
      rw [(hsh.setLen v i).child] at h
      cases hc : LGraph.child g0 v labels[i] with
      | none =>
        rw [hc] at h
        simp only [Res.ok.injEq, Prod.mk.injEq] at h
        obtain ⟨_, h⟩ := h
        refine ⟨v, i, Nat.le_refl _, ?_⟩
        rw [← h]
        unfold LGraph.keepMax
        have : ¬ ((i : Int) = -1) := by omega
        simp
        split <;> simp <;> omega
      | some u =>
        rw [hc] at h
        dsimp only at h
        obtain ⟨es', h1, _, _⟩ := searchNode_spec hin labels fuel (LGraph.setLen g v i) u (i + 1) (hsh.setLen v i) hlt (hin.2 _ _ _ hc)
          (by
            intro w
            rw [lens_setLen g _ hv']
            unfold upd
            split
            · push_cast; omega
            · have := hL w; push_cast; omega) (smeasure_child hlt hv' (fun c => hne c.symm) hm)
        rw [h1] at h
        simp only [Res.ok_bind, Res.ok.injEq, Prod.mk.injEq] at h
        obtain ⟨w, k, hk, rfl⟩ := ih (LGraph.setLen g v i) u (i + 1) es' (hP v i u hlt hp hc) (hsh.setLen v i) hlt (hin.2 _ _ _ hc)
          (by
            intro w
            rw [lens_setLen g _ hv']
            unfold upd
            split
            · push_cast; omega
            · have := hL w; push_cast; omega) (smeasure_child hlt hv' (fun c => hne c.symm) hm) h1
        refine ⟨w, k, by omega, ?_⟩
        rw [← h.2]
        exact keepMax_two _ _ (by omega)
    · have hi' : i = labels.length := by omega
      have hd : labels.drop i = [] := by rw [hi', List.drop_length]
      rw [hd] at h
      unfold LGraph.searchNode at h
      simp only [Res.ok.injEq, Prod.mk.injEq] at h
      exact ⟨v, i, Nat.le_refl _, h.2.symm⟩

/-- Without DNAME edges the search returns a single node. -/
theorem search_single {g0 : LGraph} (hin : Inside g0) (hd : ∀ v u, (EdgeType.dname, u) ∉ (g0.vtx v).edges) (labels : Name) :
    ∀ (fuel : Nat) (g : LGraph) (v i : Nat) (es : List (Nat × Int)), Shape g0 g → i ≤ labels.length → v < g0.verts.length →
    (∀ u, lens g u < i) → smeasure g labels i < fuel → LGraph.searchNode fuel g v (labels.drop i) i = .ok (g, es) →
    ∃ w, ∃ k : Nat, i ≤ k ∧ es = [(w, (k : Int))] :=
  fun fuel g v i es => search_single_on hin labels (fun _ _ => True) (fun v _ _ _ => hd v) (fun _ _ _ _ _ _ => trivial) fuel g v i es trivial

end
end Groot
