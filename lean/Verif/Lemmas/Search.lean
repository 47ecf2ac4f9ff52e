import Verif.Lemmas.LGraph

/-! # `searchNode`: termination, restoration, and what it finds -/

namespace Groot
open Spec

/-- Same vertices, labels, edges and child maps; only the data may differ. -/
structure Shape (g0 g : LGraph) : Prop where
  len : g.verts.length = g0.verts.length
  maps : g.maps = g0.maps
  label : ∀ v, (g.vtx v).label = (g0.vtx v).label
  edges : ∀ v, (g.vtx v).edges = (g0.vtx v).edges

theorem Shape.refl (g : LGraph) : Shape g g := ⟨rfl, rfl, fun _ => rfl, fun _ => rfl⟩

theorem vtx_setLen (g : LGraph) (v : Nat) (n : Int) (w : Nat) :
    (LGraph.setLen g v n).vtx w =
      if w = v ∧ v < g.verts.length then { g.vtx w with data := { (g.vtx w).data with len := n } } else g.vtx w := by
  unfold LGraph.setLen
  rw [Trie.vtx_setData]
  by_cases h : w = v ∧ v < g.verts.length
  · rw [if_pos h, if_pos h, h.1]
  · rw [if_neg h, if_neg h]

theorem len_setLen (g : LGraph) {v : Nat} (n : Int) (w : Nat) (hv : v < g.verts.length) :
    ((LGraph.setLen g v n).vtx w).data.len = if w = v then n else (g.vtx w).data.len := by
  rw [vtx_setLen]
  by_cases h : w = v
  · rw [if_pos ⟨h, hv⟩, if_pos h]
  · rw [if_neg (fun c => h c.1), if_neg h]

theorem Shape.setLen {g0 g : LGraph} (h : Shape g0 g) (v : Nat) (n : Int) : Shape g0 (LGraph.setLen g v n) where
  len := by rw [← h.len]; simp [LGraph.setLen, Trie.setData]
  maps := h.maps
  label := by intro w; rw [vtx_setLen]; split <;> exact h.label w
  edges := by intro w; rw [vtx_setLen]; split <;> exact h.edges w

theorem Shape.child {g0 g : LGraph} (h : Shape g0 g) (v : Nat) (l : Label) : LGraph.child g v l = LGraph.child g0 v l := by
  unfold LGraph.child Trie.childByEdges
  rw [h.maps, h.edges]
  simp only [h.label]

/-- Setting a field and setting it back leaves the graph unchanged. -/
theorem setLen_restore (g : LGraph) (v : Nat) (n : Int) :
    LGraph.setLen (LGraph.setLen g v n) v (g.vtx v).data.len = g := by
  obtain ⟨verts, maps⟩ := g
  show (⟨_, _⟩ : LGraph) = _
  congr 1
  apply List.ext_getElem?
  intro w
  simp only [LGraph.setLen, Trie.setData, Trie.vtx, List.getElem?_modify]
  by_cases h : v = w
  · subst h
    by_cases hv : v < verts.length
    · simp [hv]
    · simp [hv]
  · cases hw : verts[w]? <;> simp [h]

/-- One step of the search. -/
def SStep (g : LGraph) (labels : Name) (v i u j : Nat) : Prop :=
  i < labels.length ∧ ((EdgeType.dname, u) ∈ (g.vtx v).edges ∧ j = i ∨
    ∃ l, labels[i]? = some l ∧ LGraph.child g v l = some u ∧ j = i + 1)

def Free (labels : Name) (L : Nat → Int) (v i : Nat) : Prop := labels.length ≤ i ∨ L v ≠ i

/-- A walk of the search that avoids the states on the stack `L`. -/
inductive SWalk (g : LGraph) (labels : Name) (L : Nat → Int) : Nat → Nat → Nat → Nat → Prop where
  | refl (v i : Nat) : Free labels L v i → SWalk g labels L v i v i
  | step (v i u j w k : Nat) : Free labels L v i → SStep g labels v i u j → SWalk g labels L u j w k →
      SWalk g labels L v i w k

theorem SStep.le {g : LGraph} {labels : Name} {v i u j : Nat} (h : SStep g labels v i u j) : i ≤ j := by
  rcases h.2 with ⟨_, rfl⟩ | ⟨_, _, _, rfl⟩ <;> omega

theorem SWalk.le {g : LGraph} {labels : Name} {L : Nat → Int} {v i u j : Nat} (h : SWalk g labels L v i u j) : i ≤ j := by
  induction h with
  | refl => exact le_refl _
  | step v i u j w k _ hs _ ih => exact le_trans hs.le ih

theorem SWalk.free {g : LGraph} {labels : Name} {L : Nat → Int} {v i u j : Nat} (h : SWalk g labels L v i u j) :
    Free labels L v i := by
  cases h with
  | refl _ _ h => exact h
  | step _ _ _ _ _ _ h _ _ => exact h

def upd (L : Nat → Int) (v : Nat) (n : Int) : Nat → Int := fun u => if u = v then n else L u

theorem swalk_mono {g : LGraph} {labels : Name} {L : Nat → Int} {v i : Nat} (hL : ∀ u, L u ≤ i)
    {a b w k : Nat} (h : SWalk g labels (upd L v i) a b w k) (hb : i ≤ b) : SWalk g labels L a b w k := by
  have hf : ∀ a b, i ≤ b → Free labels (upd L v i) a b → Free labels L a b := by
    intro a b hb hf
    rcases hf with hf | hf
    · exact Or.inl hf
    · right
      unfold upd at hf
      split at hf
      · have := hL a; omega
      · exact hf
  induction h with
  | refl a b h => exact .refl a b (hf a b hb h)
  | step a b u j w k h hs _ ih => exact .step a b u j w k (hf a b hb h) hs (ih (le_trans hb hs.le))

theorem swalk_avoid {g : LGraph} {labels : Name} {L : Nat → Int} {v i : Nat}
    {a b w k : Nat} (h : SWalk g labels L a b w k) :
    SWalk g labels (upd L v i) a b w k ∨ (w = v ∧ k = i) ∨
      ∃ u j, SStep g labels v i u j ∧ SWalk g labels (upd L v i) u j w k := by
  have hf : ∀ a b, ¬ (a = v ∧ b = i) → Free labels L a b → Free labels (upd L v i) a b := by
    intro a b hne hf
    rcases hf with hf | hf
    · exact Or.inl hf
    · right
      unfold upd
      split
      · rename_i h
        intro hc
        exact hne ⟨h, by exact_mod_cast hc.symm⟩
      · exact hf
  induction h with
  | refl a b h =>
    by_cases hne : a = v ∧ b = i
    · exact Or.inr (Or.inl hne)
    · exact Or.inl (.refl a b (hf a b hne h))
  | step a b u j w k h hs _ ih =>
    rcases ih with ih | ih
    · by_cases hne : a = v ∧ b = i
      · obtain ⟨rfl, rfl⟩ := hne
        exact Or.inr (Or.inr ⟨u, j, hs, ih⟩)
      · exact Or.inl (.step a b u j w k (hf a b hne h) hs ih)
    · exact Or.inr ih

theorem swalk_iff {g : LGraph} {labels : Name} {L : Nat → Int} {v i : Nat} (hL : ∀ u, L u ≤ i) (hf : Free labels L v i)
    (hi : i < labels.length) {w k : Nat} : SWalk g labels L v i w k ↔ (w = v ∧ k = i) ∨
      ∃ u j, SStep g labels v i u j ∧ SWalk g labels (upd L v i) u j w k := by
  constructor
  · intro h
    rcases swalk_avoid (v := v) (i := i) h with h | h
    · exfalso
      rcases h.free with h | h
      · omega
      · exact h (by simp [upd])
    · exact h
  · rintro (⟨rfl, rfl⟩ | ⟨u, j, h1, h2⟩)
    · exact .refl _ _ hf
    · exact .step _ _ u j _ _ hf h1 (swalk_mono hL h2 h1.le)

/-! ### keepMax -/

theorem foldl_max (es : List (Nat × Int)) : ∀ m0 : Int,
    m0 ≤ es.foldl (fun (m : Int) r => if r.2 > m then r.2 else m) m0 ∧
    (∀ x ∈ es, x.2 ≤ es.foldl (fun (m : Int) r => if r.2 > m then r.2 else m) m0) ∧
    (es.foldl (fun (m : Int) r => if r.2 > m then r.2 else m) m0 = m0 ∨
      ∃ x ∈ es, x.2 = es.foldl (fun (m : Int) r => if r.2 > m then r.2 else m) m0) := by
  induction es with
  | nil => intro m0; simp
  | cons e es ih =>
    intro m0
    obtain ⟨h1, h2, h3⟩ := ih (if e.2 > m0 then e.2 else m0)
    rw [List.foldl_cons]
    have hle : m0 ≤ (if e.2 > m0 then e.2 else m0) ∧ e.2 ≤ (if e.2 > m0 then e.2 else m0) := by split <;> omega
    refine ⟨Int.le_trans hle.1 h1, ?_, ?_⟩
    · intro x hx
      rcases List.mem_cons.mp hx with rfl | hx
      · exact Int.le_trans hle.2 h1
      · exact h2 x hx
    · rcases h3 with h3 | ⟨x, hx, h3⟩
      · rw [h3]
        split
        · exact Or.inr ⟨e, by simp, rfl⟩
        · exact Or.inl rfl
      · exact Or.inr ⟨x, by simp [hx], h3⟩

theorem keepMax_spec (es : List (Nat × Int)) (v : Nat) (i : Nat) (h : (v, (i : Int)) ∈ es) :
    ∃ m : Int, (i : Int) ≤ m ∧ (∃ x ∈ es, x.2 = m) ∧ (∀ x ∈ es, x.2 ≤ m) ∧
      LGraph.keepMax es = es.filter (fun r => r.2 == m) := by
  obtain ⟨_, h2, h3⟩ := foldl_max es (-1)
  have h4 := h2 _ h
  refine ⟨_, h4, ?_, h2, ?_⟩
  · rcases h3 with h3 | h3
    · rw [h3] at h4; simp at h4; omega
    · exact h3
  · unfold LGraph.keepMax
    rw [if_pos]
    intro hc
    rw [hc] at h4
    simp at h4; omega

/-! ### The search -/

/-- The entries are states reached, and every state reached is an entry or beaten by one. -/
def Good (g : LGraph) (labels : Name) (L : Nat → Int) (v i : Nat) (es : List (Nat × Int)) : Prop :=
  (∀ x ∈ es, x.2 = -1 ∨ ∃ w k : Nat, x = (w, (k : Int)) ∧ SWalk g labels L v i w k) ∧
  (∀ w k, SWalk g labels L v i w k → (w, (k : Int)) ∈ es ∨ ∃ w' k' : Nat, (w', (k' : Int)) ∈ es ∧ k < k')

/-- All entries have the same non-negative length, and there is one. -/
def Uniform (es : List (Nat × Int)) : Prop := es ≠ [] ∧ ∃ m : Nat, ∀ x ∈ es, x.2 = (m : Int)

def lens (g : LGraph) : Nat → Int := fun v => (g.vtx v).data.len

def unmarked (g : LGraph) (i : Nat) : Nat := ((List.range g.verts.length).filter (fun u => decide (lens g u ≠ i))).length

theorem filter_length_lt {l : List Nat} (p q : Nat → Bool) (h : ∀ x ∈ l, q x = true → p x = true) {v : Nat} (hv : v ∈ l)
    (hp : p v = true) (hq : q v = false) : (l.filter q).length < (l.filter p).length := by
  induction l with
  | nil => simp at hv
  | cons a l ih =>
    have hle : ∀ l' : List Nat, (∀ x ∈ l', q x = true → p x = true) → (l'.filter q).length ≤ (l'.filter p).length := by
      intro l' h'
      induction l' with
      | nil => simp
      | cons b l' ih' =>
        have := ih' (fun x hx => h' x (by simp [hx]))
        rw [List.filter_cons, List.filter_cons]
        by_cases hb : q b = true
        · rw [if_pos hb, if_pos (h' b (by simp) hb)]; simpa using this
        · rw [if_neg hb]; split
          · simp; omega
          · exact this
    rw [List.filter_cons, List.filter_cons]
    rcases List.mem_cons.mp hv with rfl | hv
    · rw [if_pos hp, if_neg (by simp [hq])]
      have := hle l (fun x hx => h x (by simp [hx]))
      simp; omega
    · have := ih (fun x hx => h x (by simp [hx])) hv
      by_cases ha : q a = true
      · rw [if_pos ha, if_pos (h a (by simp) ha)]; simpa using this
      · rw [if_neg ha]; split
        · simp; omega
        · exact this

theorem lens_setLen (g : LGraph) {v : Nat} (n : Int) (hv : v < g.verts.length) :
    lens (LGraph.setLen g v n) = upd (lens g) v n := by
  funext u
  unfold lens upd
  exact len_setLen g n u hv

theorem setLen_length (g : LGraph) (v : Nat) (n : Int) : (LGraph.setLen g v n).verts.length = g.verts.length := by
  simp [LGraph.setLen, Trie.setData]

theorem unmarked_setLen (g : LGraph) {v i : Nat} (hv : v < g.verts.length) (hl : lens g v ≠ i) :
    unmarked (LGraph.setLen g v i) i < unmarked g i := by
  unfold unmarked
  rw [setLen_length, lens_setLen g _ hv]
  apply filter_length_lt (v := v)
  · intro x _ h
    simp only [decide_eq_true_eq] at h ⊢
    intro hc
    apply h
    unfold upd
    split
    · rfl
    · exact hc
  · simpa using hv
  · simpa using hl
  · simp [upd]

theorem unmarked_le (g : LGraph) (i : Nat) : unmarked g i ≤ g.verts.length := by
  unfold unmarked
  exact le_trans (List.length_filter_le _ _) (by simp)

def smeasure (g : LGraph) (labels : Name) (i : Nat) : Nat := (labels.length - i) * (g.verts.length + 1) + unmarked g i

/-- Every step stays inside the graph. -/
def Inside (g : LGraph) : Prop :=
  (∀ v u, (EdgeType.dname, u) ∈ (g.vtx v).edges → u < g.verts.length) ∧
  (∀ v l u, LGraph.child g v l = some u → u < g.verts.length)

theorem foldl_search {g0 : LGraph} {labels : Name} {L : Nat → Int} {i fuel : Nat} {g1 : LGraph} {rest : List Label}
    (hS : ∀ u, u < g0.verts.length → ∃ es, LGraph.searchNode fuel g1 u rest i = .ok (g1, es) ∧ Good g0 labels L u i es)
    (edges : List (EdgeType × Nat)) (hin : ∀ u, (EdgeType.dname, u) ∈ edges → u < g0.verts.length) :
    ∀ acc, ∃ new, edges.foldlM (fun (st : LGraph × List (Nat × Int)) e =>
            if e.1 = .dname then do
              let r ← LGraph.searchNode fuel st.1 e.2 rest i
              .ok (r.1, st.2 ++ r.2)
            else .ok st) (g1, acc) = .ok (g1, acc ++ new) ∧
      (∀ x ∈ new, x.2 = -1 ∨ ∃ u w k, (EdgeType.dname, u) ∈ edges ∧ x = (w, ((k : Nat) : Int)) ∧ SWalk g0 labels L u i w k) ∧
      (∀ u w k, (EdgeType.dname, u) ∈ edges → SWalk g0 labels L u i w k →
        (w, ((k : Nat) : Int)) ∈ new ∨ ∃ w' k' : Nat, (w', (k' : Int)) ∈ new ∧ k < k') := by
  induction edges with
  | nil => intro acc; exact ⟨[], by simp, by simp, by simp⟩
  | cons e edges ih =>
    intro acc
    obtain ⟨t, u⟩ := e
    have ih := ih (fun u hu => hin u (by simp [hu]))
    cases t with
    | normal =>
      obtain ⟨new, h1, h2, h3⟩ := ih acc
      refine ⟨new, ?_, ?_, ?_⟩
      · rw [List.foldlM_cons]
        simp only [reduceCtorEq, if_false, Res.ok_bind]
        exact h1
      · intro x hx
        rcases h2 x hx with h | ⟨u', w, k, h, h'⟩
        · exact Or.inl h
        · exact Or.inr ⟨u', w, k, by simp [h], h'⟩
      · intro u' w k hu
        exact h3 u' w k (by simpa using hu)
    | dname =>
      obtain ⟨es, he, hg⟩ := hS u (hin u (by simp))
      obtain ⟨new, h1, h2, h3⟩ := ih (acc ++ es)
      refine ⟨es ++ new, ?_, ?_, ?_⟩
      · rw [List.foldlM_cons]
        simp only [if_true, he, Res.ok_bind]
        rw [h1, List.append_assoc]
      · intro x hx
        rcases List.mem_append.mp hx with hx | hx
        · rcases hg.1 x hx with h | ⟨w, k, h, h'⟩
          · exact Or.inl h
          · exact Or.inr ⟨u, w, k, by simp, h, h'⟩
        · rcases h2 x hx with h | ⟨u', w, k, h, h'⟩
          · exact Or.inl h
          · exact Or.inr ⟨u', w, k, by simp [h], h'⟩
      · intro u' w k hu hw
        have key : ∀ l : List (Nat × Int), (∀ x ∈ l, x ∈ es ++ new) →
            ((w, ((k : Nat) : Int)) ∈ l ∨ ∃ w' k' : Nat, (w', (k' : Int)) ∈ l ∧ k < k') →
            ((w, ((k : Nat) : Int)) ∈ es ++ new ∨ ∃ w' k' : Nat, (w', (k' : Int)) ∈ es ++ new ∧ k < k') := by
          rintro l hl (h | ⟨w', k', h, h'⟩)
          · exact Or.inl (hl _ h)
          · exact Or.inr ⟨w', k', hl _ h, h'⟩
        rcases List.mem_cons.mp hu with hu | hu
        · cases hu
          exact key es (fun x hx => by simp [hx]) (hg.2 w k hw)
        · exact key new (fun x hx => by simp [hx]) (h3 u' w k hu hw)

theorem drop_eq_cons {labels : Name} {i : Nat} (hi : i < labels.length) :
    labels.drop i = labels[i] :: labels.drop (i + 1) := by
  rw [← List.getElem_cons_drop hi]

theorem searchNode_spec {g0 : LGraph} (hin : Inside g0) (labels : Name) : ∀ (fuel : Nat) (g : LGraph) (v i : Nat),
    Shape g0 g → i ≤ labels.length → v < g0.verts.length → (∀ u, lens g u ≤ i) →
    smeasure g labels i < fuel →
    ∃ es, LGraph.searchNode fuel g v (labels.drop i) i = .ok (g, es) ∧ Good g0 labels (lens g) v i es ∧
      (Free labels (lens g) v i → Uniform es) := by
  intro fuel
  induction fuel with
  | zero => intro g v i _ _ _ _ h; omega
  | succ fuel ih =>
    intro g v i hsh hi hv hL hm
    rcases Nat.lt_or_ge i labels.length with hlt | hge
    · rw [drop_eq_cons hlt]
      unfold LGraph.searchNode
      dsimp only
      by_cases hloop : (i : Int) = (g.vtx v).data.len
      · rw [if_pos hloop]
        refine ⟨[(v, -1)], rfl, ⟨?_, ?_⟩, ?_⟩
        · intro x hx; left; rw [List.mem_singleton.mp hx]
        · intro w k hw
          rcases hw.free with h | h
          · omega
          · exact absurd hloop.symm h
        · rintro (h | h)
          · omega
          · exact absurd hloop.symm h
      · rw [if_neg hloop]
        have hfree : Free labels (lens g) v i := Or.inr (fun c => hloop c.symm)
        have hv' : v < g.verts.length := by rw [hsh.len]; exact hv
        have hsh1 := hsh.setLen v i
        have hL1 : lens (LGraph.setLen g v i) = upd (lens g) v i := lens_setLen g _ hv'
        have hLle : ∀ u, lens (LGraph.setLen g v i) u ≤ i := by
          intro u; rw [hL1]; unfold upd; split
          · exact Int.le_refl _
          · exact hL u
        have hun := unmarked_setLen g hv' (i := i) (fun c => hloop c.symm)
        have hm1 : smeasure (LGraph.setLen g v i) labels i < fuel := by
          unfold smeasure at hm ⊢
          rw [setLen_length]; omega
        have hS : ∀ u, u < g0.verts.length → ∃ es, LGraph.searchNode fuel (LGraph.setLen g v i) u
            (labels[i] :: labels.drop (i + 1)) i = .ok (LGraph.setLen g v i, es) ∧
            Good g0 labels (upd (lens g) v i) u i es := by
          intro u hu
          obtain ⟨es, h1, h2, _⟩ := ih (LGraph.setLen g v i) u i hsh1 hi hu hLle hm1
          rw [drop_eq_cons hlt] at h1
          rw [hL1] at h2
          exact ⟨es, h1, h2⟩
        obtain ⟨new, f1, f2, f3⟩ := foldl_search hS ((LGraph.setLen g v i).vtx v).edges (by
          intro u hu; rw [hsh1.edges] at hu; exact hin.1 v u hu) [(v, (i : Int))]
        rw [f1]
        simp only [Res.ok_bind]
        have hes : ∃ ch : List (Nat × Int), (match LGraph.child (LGraph.setLen g v i) v labels[i] with
            | some u => do
              let r ← LGraph.searchNode fuel (LGraph.setLen g v i) u (labels.drop (i + 1)) (i + 1)
              Res.ok (LGraph.setLen r.1 v (g.vtx v).data.len, LGraph.keepMax ([(v, (i : Int))] ++ new ++ r.2))
            | none => Res.ok (LGraph.setLen (LGraph.setLen g v i) v (g.vtx v).data.len, LGraph.keepMax ([(v, (i : Int))] ++ new))) =
              Res.ok (g, LGraph.keepMax ([(v, (i : Int))] ++ new ++ ch)) ∧
            (∀ x ∈ ch, x.2 = -1 ∨ ∃ u w k, LGraph.child g0 v labels[i] = some u ∧ x = (w, ((k : Nat) : Int)) ∧
              SWalk g0 labels (upd (lens g) v i) u (i + 1) w k) ∧
            (∀ u w k, LGraph.child g0 v labels[i] = some u → SWalk g0 labels (upd (lens g) v i) u (i + 1) w k →
              (w, ((k : Nat) : Int)) ∈ ch ∨ ∃ w' k' : Nat, (w', (k' : Int)) ∈ ch ∧ k < k') := by
          rw [hsh1.child]
          cases hc : LGraph.child g0 v labels[i] with
          | none => exact ⟨[], by simp [setLen_restore], by simp, by simp⟩
          | some u =>
            obtain ⟨es, h1, h2, _⟩ := ih (LGraph.setLen g v i) u (i + 1) hsh1 hlt (hin.2 v _ u hc)
              (fun u => by have := hLle u; push_cast; omega) (by
                unfold smeasure at hm ⊢
                rw [setLen_length]
                have h1 := unmarked_le (LGraph.setLen g v i) (i + 1)
                rw [setLen_length] at h1
                have h2 : (labels.length - i) * (g.verts.length + 1) =
                    (labels.length - (i + 1)) * (g.verts.length + 1) + (g.verts.length + 1) := by
                  rw [← Nat.succ_mul]; congr 1; omega
                omega)
            rw [hL1] at h2
            refine ⟨es, ?_, ?_, ?_⟩
            · simp only [h1, Res.ok_bind, setLen_restore]
            · intro x hx
              rcases h2.1 x hx with h | ⟨w, k, h, h'⟩
              · exact Or.inl h
              · exact Or.inr ⟨u, w, k, rfl, h, h'⟩
            · intro u' w k hu hw
              cases hu
              exact h2.2 w k hw
        obtain ⟨ch, c1, c2, c3⟩ := hes
        have hE : ∀ E, E = [(v, (i : Int))] ++ new ++ ch → Good g0 labels (lens g) v i (LGraph.keepMax E) ∧
            Uniform (LGraph.keepMax E) := by
          intro E hE
          have hmem : (v, (i : Int)) ∈ E := by rw [hE]; simp
          obtain ⟨m, m1, ⟨x, m2, m2'⟩, m3, m4⟩ := keepMax_spec E v i hmem
          have hall : ∀ x ∈ E, x.2 = -1 ∨ ∃ w k : Nat, x = (w, (k : Int)) ∧ SWalk g0 labels (lens g) v i w k := by
            intro x hx
            rw [hE] at hx
            rcases List.mem_append.mp hx with hx | hx
            · rcases List.mem_append.mp hx with hx | hx
              · right; refine ⟨v, i, List.mem_singleton.mp hx, .refl v i hfree⟩
              · rcases f2 x hx with h | ⟨u, w, k, h, h', h''⟩
                · exact Or.inl h
                · rw [hsh1.edges] at h
                  exact Or.inr ⟨w, k, h', (swalk_iff hL hfree hlt).mpr (Or.inr ⟨u, i, ⟨hlt, Or.inl ⟨h, rfl⟩⟩, h''⟩)⟩
            · rcases c2 x hx with h | ⟨u, w, k, h, h', h''⟩
              · exact Or.inl h
              · exact Or.inr ⟨w, k, h', (swalk_iff hL hfree hlt).mpr (Or.inr ⟨u, i + 1, ⟨hlt, Or.inr ⟨_, List.getElem?_eq_getElem hlt, h, rfl⟩⟩, h''⟩)⟩
          have hcov : ∀ w k, SWalk g0 labels (lens g) v i w k →
              (w, ((k : Nat) : Int)) ∈ E ∨ ∃ w' k' : Nat, (w', (k' : Int)) ∈ E ∧ k < k' := by
            intro w k hw
            have key : ∀ l : List (Nat × Int), (∀ x ∈ l, x ∈ E) →
                ((w, ((k : Nat) : Int)) ∈ l ∨ ∃ w' k' : Nat, (w', (k' : Int)) ∈ l ∧ k < k') →
                ((w, ((k : Nat) : Int)) ∈ E ∨ ∃ w' k' : Nat, (w', (k' : Int)) ∈ E ∧ k < k') := by
              rintro l hl (h | ⟨w', k', h, h'⟩)
              · exact Or.inl (hl _ h)
              · exact Or.inr ⟨w', k', hl _ h, h'⟩
            rcases (swalk_iff hL hfree hlt).mp hw with ⟨rfl, rfl⟩ | ⟨u, j, ⟨_, h1⟩, h2⟩
            · exact Or.inl hmem
            · rcases h1 with ⟨h1, rfl⟩ | ⟨l, hl, h1, rfl⟩
              · exact key new (fun x hx => by rw [hE]; simp [hx]) (f3 u w k (by rw [hsh1.edges]; exact h1) h2)
              · rw [List.getElem?_eq_getElem hlt] at hl
                cases hl
                exact key ch (fun x hx => by rw [hE]; simp [hx]) (c3 u w k h1 h2)
          rw [m4]
          have hm0 : ∃ mn : Nat, m = (mn : Int) := ⟨m.toNat, by omega⟩
          obtain ⟨mn, rfl⟩ := hm0
          refine ⟨⟨?_, ?_⟩, ?_, mn, ?_⟩
          · intro x hx; exact hall x (List.mem_of_mem_filter hx)
          · intro w k hw
            have hxm : x.2 = -1 ∨ ∃ w k : Nat, x = (w, (k : Int)) ∧ SWalk g0 labels (lens g) v i w k := hall x m2
            have hx : ∃ w' : Nat, x = (w', (mn : Int)) := ⟨x.1, by rw [← m2']⟩
            obtain ⟨w', rfl⟩ := hx
            rcases hcov w k hw with h | ⟨w'', k', h, h'⟩
            · have := m3 _ h
              simp only at this
              by_cases hk : k = mn
              · left; rw [List.mem_filter]; exact ⟨h, by simp [hk]⟩
              · right; exact ⟨w', mn, by rw [List.mem_filter]; exact ⟨m2, by simp⟩, by omega⟩
            · have := m3 _ h
              simp only at this
              right; exact ⟨w', mn, by rw [List.mem_filter]; exact ⟨m2, by simp⟩, by omega⟩
          · intro hc
            rw [List.filter_eq_nil_iff] at hc
            exact hc x m2 (by simp [m2'])
          · intro y hy
            rw [List.mem_filter] at hy
            simpa using hy.2
        refine ⟨LGraph.keepMax ([(v, (i : Int))] ++ new ++ ch), ?_, (hE _ rfl).1, fun _ => (hE _ rfl).2⟩
        exact c1
    · have hi' : i = labels.length := by omega
      have hd : labels.drop i = [] := by rw [hi', List.drop_length]
      rw [hd]
      unfold LGraph.searchNode
      refine ⟨[(v, (i : Int))], rfl, ⟨?_, ?_⟩, fun _ => ⟨by simp, i, by simp⟩⟩
      · intro x hx
        right
        exact ⟨v, i, List.mem_singleton.mp hx, .refl v i (Or.inl hge)⟩
      · intro w k hw
        left
        cases hw with
        | refl _ _ _ => simp
        | step _ _ u j _ _ _ hs _ => have := hs.1; omega

end Groot
