import Verif.Lemmas.Generate

/-! # Generated classes do not overlap (no DNAMEs); legal names (always) -/

namespace Groot
open Spec

/-- The two classes have no member in common. -/
def Apart (rs : List RR) (q q' : EC) : Prop := ∀ m, ¬ (Stands rs q m ∧ Stands rs q' m)

theorem stands_prefix {rs : List RR} {q : EC} {m : Name} (h : Stands rs q m) : AtOrBelow q.name m := by
  unfold Stands at h
  split at h
  · exact ⟨[], by simp [h]⟩
  · obtain ⟨l, rest, h, _⟩ := h
    exact ⟨l :: rest, h⟩

theorem stands_exact (rs : List RR) (n : Name) (ts : TypeSet) (m : Name) : Stands rs (exactClass n ts) m ↔ m = n := Iff.rfl

theorem stands_below (rs : List RR) (P : Prop) [Decidable P] (n : Name) (ts : TypeSet) (m : Name) :
    Stands rs (belowClass P n ts) m ↔ ∃ l rest, m = n ++ l :: rest ∧ ¬ Known rs (n ++ [l]) := by
  unfold belowClass
  split <;> exact Iff.rfl

theorem belowClass_name (P : Prop) [Decidable P] (n : Name) (ts : TypeSet) : (belowClass P n ts).name = n := by
  unfold belowClass; split <;> rfl

theorem classes_append (a b : List Task) : classes (a ++ b) = classes a ++ classes b := by simp [classes]

theorem mem_classes (q : EC) (ts : List Task) : q ∈ classes ts ↔ Task.ec q ∈ ts := by
  unfold classes
  rw [List.mem_filterMap]
  constructor
  · rintro ⟨t, ht, h⟩
    cases t with
    | ec q' => simp at h; subst h; exact ht
    | structural => simp at h
  · intro h; exact ⟨_, h, rfl⟩

theorem classes_flatMap {α : Type} (l : List α) (f : α → List Task) : classes (l.flatMap f) = l.flatMap (fun x => classes (f x)) := by
  unfold classes; rw [List.filterMap_flatMap]

theorem octets_prefix {a b : Name} (h : AtOrBelow a b) : octets a ≤ octets b := by
  obtain ⟨r, rfl⟩ := h; rw [octets_append]; omega

theorem atOrBelow_trans {a b c : Name} (h : AtOrBelow a b) (h' : AtOrBelow b c) : AtOrBelow a c := by
  obtain ⟨r, rfl⟩ := h; obtain ⟨r', rfl⟩ := h'; exact ⟨r ++ r', by simp⟩

theorem atOrBelow_snoc_inj {n : Name} {l l' : Label} {m : Name} (h : AtOrBelow (n ++ [l]) m) (h' : AtOrBelow (n ++ [l']) m) : l = l' := by
  obtain ⟨r, rfl⟩ := h
  obtain ⟨r', h'⟩ := h'
  simp at h'
  exact h'.1

section
variable {g0 : LGraph} {names : List Name} {xs : List (RR × Nat × Nat)} {types : TypeSet}

theorem LRep.apart (h : LRep g0 names xs) (hd : ∀ v u, (EdgeType.dname, u) ∉ (g0.vtx v).edges) (hp : Plain g0) :
    ∀ (fuel : Nat) (g : LGraph) (v : Nat) (p n : Name) (s : Bool) (ts : List Task), Shape g0 g → names[v]? = some n →
    LGraph.ecName (g.vtx v).label p false = n →
    LGraph.subDomainECs types fuel g v p false s = .ok (g, ts) →
    (classes ts).Pairwise (Apart (xs.map (·.1))) ∧ ∀ q ∈ classes ts, AtOrBelow n q.name := by
  intro fuel
  induction fuel with
  | zero => intro g v p n s ts _ _ _ hx; rw [LGraph.subDomainECs] at hx; cases hx
  | succ fuel ih =>
    intro g v p n s ts hsh hv hn hx
    rcases subDomainECs_ok hx hn with ⟨_, rfl⟩ | ⟨_, _, out, h3, h4⟩
    · exact ⟨List.Pairwise.nil, by simp [classes]⟩
    · have hsh1 := hsh.setLen v (octets n)
      have hedge : ∀ e ∈ (g.vtx v).edges, e.1 = .normal ∧ names[e.2]? = some (n ++ [(g0.vtx e.2).label]) ∧
          (classes (out e)).Pairwise (Apart (xs.map (·.1))) ∧ ∀ q ∈ classes (out e), AtOrBelow (n ++ [(g0.vtx e.2).label]) q.name := by
        intro e he
        have hcall := h3 e he
        rw [hsh.edges] at he
        obtain ⟨t, u⟩ := e
        cases t with
        | dname => exact absurd he (hd v u)
        | normal =>
          unfold edgeCall at hcall
          rw [if_pos rfl] at hcall
          obtain ⟨hu, _⟩ := h.inv.edge v u n hv he
          refine ⟨rfl, hu, ih _ u n _ s _ hsh1 hu ?_ hcall⟩
          rw [hsh1.label]
          unfold LGraph.ecName
          rw [if_neg (hp.kid v u he)]
          split <;> simp
      have hcl : classes ts = (g.vtx v).edges.flatMap (fun e => classes (out e)) ++ [exactClass n types] ++
          [belowClass (Known (xs.map (·.1)) (n ++ [['*']])) n types] := by
        have hstar : (g.vtx v).edges.any (isStar g) = (g0.vtx v).edges.any (isStar g0) := by
          rw [hsh.edges]
          congr 1
          funext e
          unfold isStar
          rw [hsh.label]
        rw [h4, hstar, h.lastEC hv, classes_append, classes_append, classes_append, classes_flatMap]
        have : classes (if s = true then [Task.structural v (labelsToString n)] else []) = [] := by
          split <;> rfl
        rw [this]
        rfl
      have hflat : ∀ q ∈ (g.vtx v).edges.flatMap (fun e => classes (out e)), ∃ l, Known (xs.map (·.1)) (n ++ [l]) ∧ AtOrBelow (n ++ [l]) q.name := by
        intro q hq
        obtain ⟨e, he, hq⟩ := List.mem_flatMap.mp hq
        obtain ⟨_, h2, _, h4⟩ := hedge e he
        exact ⟨_, (h.known _).mp (List.mem_of_getElem? h2), h4 q hq⟩
      rw [hcl]
      refine ⟨?_, ?_⟩
      · rw [List.pairwise_append, List.pairwise_append]
        refine ⟨⟨?_, List.pairwise_singleton _ _, ?_⟩, List.pairwise_singleton _ _, ?_⟩
        · rw [List.pairwise_flatMap]
          refine ⟨fun e he => (hedge e he).2.2.1, ?_⟩
          have hnd : (g.vtx v).edges.Nodup := by
            have := h.inv.edgeNodup v
            rw [hsh.edges]
            have hall : (g0.vtx v).edges.filter (fun e => decide (e.1 = EdgeType.normal)) = (g0.vtx v).edges := by
              rw [List.filter_eq_self]
              intro e he
              rw [← hsh.edges] at he
              simpa using (hedge e he).1
            rw [hall] at this
            exact this
          refine List.Pairwise.imp_of_mem ?_ hnd
          intro e e' he he' hne q hq q' hq' m ⟨hm, hm'⟩
          obtain ⟨t1, n1, _, a1⟩ := hedge e he
          obtain ⟨t2, n2, _, a2⟩ := hedge e' he'
          have e1 := atOrBelow_trans (a1 q hq) (stands_prefix hm)
          have e2 := atOrBelow_trans (a2 q' hq') (stands_prefix hm')
          have := atOrBelow_snoc_inj e1 e2
          rw [← this] at n2
          have := Trie.name_inj h.inv.nodup n1 n2
          exact hne (Prod.ext (t1.trans t2.symm) this)
        · intro q hq q' hq' m ⟨hm, hm'⟩
          rw [List.mem_singleton.mp hq', stands_exact] at hm'
          obtain ⟨l, _, hl⟩ := hflat q hq
          obtain ⟨r, hr⟩ := atOrBelow_trans hl (stands_prefix hm)
          rw [hm'] at hr
          have := congrArg List.length hr
          simp at this
        · intro q hq q' hq' m ⟨hm, hm'⟩
          rw [List.mem_singleton.mp hq', stands_below] at hm'
          obtain ⟨l', rest, rfl, hnk⟩ := hm'
          rcases List.mem_append.mp hq with hq | hq
          · obtain ⟨l, hk, hl⟩ := hflat q hq
            have := atOrBelow_snoc_inj (atOrBelow_trans hl (stands_prefix hm)) (⟨rest, by simp⟩ : AtOrBelow (n ++ [l']) (n ++ l' :: rest))
            exact hnk (this ▸ hk)
          · rw [List.mem_singleton.mp hq, stands_exact] at hm
            simp at hm
      · intro q hq
        rcases List.mem_append.mp hq with hq | hq
        · rcases List.mem_append.mp hq with hq | hq
          · obtain ⟨l, _, hl⟩ := hflat q hq
            exact atOrBelow_trans ⟨[l], rfl⟩ hl
          · rw [List.mem_singleton.mp hq]; exact ⟨[], by simp [exactClass]⟩
        · rw [List.mem_singleton.mp hq, belowClass_name]; exact ⟨[], by simp⟩

theorem mem_le_sum {l : List Nat} {x : Nat} (h : x ∈ l) : x ≤ l.sum := by
  induction l with
  | nil => cases h
  | cons a l ih =>
    rw [List.sum_cons]
    rcases List.mem_cons.mp h with rfl | h
    · omega
    · have := ih h; omega

/-- Every class has a member. -/
theorem LRep.member (h : LRep g0 names xs) (q : EC) : ∃ m, Stands (xs.map (·.1)) q m := by
  unfold Stands
  cases q.excluded with
  | none => exact ⟨_, rfl⟩
  | some _ =>
    obtain ⟨B, hB⟩ : ∃ B, ∀ n ∈ names, ∀ l ∈ n, l.length ≤ B := by
      refine ⟨(names.map octets).sum, ?_⟩
      intro n hn l hl
      have h1 : octets n ≤ (names.map octets).sum := mem_le_sum (List.mem_map_of_mem hn)
      have h2 : l.length + 1 ≤ octets n := mem_le_sum (List.mem_map_of_mem (f := fun l : Label => l.length + 1) hl)
      omega
    refine ⟨q.name ++ List.replicate (B + 1) 'a' :: [], List.replicate (B + 1) 'a', [], rfl, ?_⟩
    intro hk
    have := hB _ ((h.known _).mpr hk) (List.replicate (B + 1) 'a') (by simp)
    simp at this
    omega

theorem apart_nodup (h : LRep g0 names xs) {qs : List EC} (ha : qs.Pairwise (Apart (xs.map (·.1)))) : qs.Nodup := by
  refine List.Pairwise.imp ?_ ha
  rintro q q' hq rfl
  obtain ⟨m, hm⟩ := h.member q
  exact hq m ⟨hm, hm⟩

/-! ### Legal names -/

theorem subDomainECs_names (hi : g0.Inv names) (P : Name → Prop) (hP : ∀ n u, P n → u < g0.verts.length → (g0.vtx u).label ≠ ['.'] → P (n ++ [(g0.vtx u).label])) :
    ∀ (fuel : Nat) (g : LGraph) (v : Nat) (p : Name) (skip s : Bool) (ts : List Task) (g' : LGraph), Shape g0 g → v < g0.verts.length → P p →
    LGraph.subDomainECs types fuel g v p skip s = .ok (g', ts) → ∀ q, Task.ec q ∈ ts → octets q.name < kMaxDomainLength ∧ P q.name := by
  intro fuel
  induction fuel with
  | zero => intro g v p skip s ts g' _ _ _ hx; rw [LGraph.subDomainECs] at hx; cases hx
  | succ fuel ih =>
    intro g v p skip s ts g' hsh hv hp hx q hq
    rcases subDomainECs_ok hx rfl with ⟨_, rfl⟩ | ⟨h1, _, out, h3, h4⟩
    · cases hq
    · have hname : P (LGraph.ecName (g.vtx v).label p skip) := by
        have : ∀ l, l = (g0.vtx v).label → P (LGraph.ecName l p skip) := by
          intro l hl
          unfold LGraph.ecName
          split
          · exact hp
          · rename_i hne
            rw [hl] at hne ⊢
            split
            · exact hP _ _ hp hv hne
            · split
              · exact hP _ _ hp hv hne
              · exact hp
        exact this _ (hsh.label v)
      rw [h4] at hq
      rcases List.mem_append.mp hq with hq | hq
      · rcases List.mem_append.mp hq with hq | hq
        · rcases List.mem_append.mp hq with hq | hq
          · split at hq
            · simp at hq
            · cases hq
          · obtain ⟨e, he, hq⟩ := List.mem_flatMap.mp hq
            have hcall := h3 e he
            have hu := (hsh.inside hi hv he).1
            unfold edgeCall at hcall
            split at hcall
            · exact ih _ _ _ _ _ _ _ (hsh.setLen v _) hu hname hcall q hq
            · exact ih _ _ _ _ _ _ _ (hsh.setLen v _) hu hname hcall q hq
        · split at hq
          · simp at hq; rw [hq]; exact ⟨h1, hname⟩
          · cases hq
      · simp at hq
        have : q.name = LGraph.ecName (g.vtx v).label p skip := by
          rw [hq]; unfold LGraph.lastEC; split <;> rfl
        rw [this]
        exact ⟨h1, hname⟩

end
end Groot
