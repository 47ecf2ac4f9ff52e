import Verif.Lemmas.Closest

/-! # `subDomainECs`: termination, restoration, and the tasks it emits -/

namespace Groot
open Spec

theorem nameLen_eq (n : Name) : LGraph.nameLen n = octets n := by
  unfold LGraph.nameLen octets
  have : ∀ s : Nat, n.foldl (fun s l => s + (l.length + 1)) s = s + (n.map (fun l => l.length + 1)).sum := by
    induction n with
    | nil => intro s; simp
    | cons a n ih => intro s; rw [List.foldl_cons, ih]; simp; omega
  rw [this]; simp

theorem octets_append (n m : Name) : octets (n ++ m) = octets n + octets m := by simp [octets]

theorem octets_snoc (n : Name) (l : Label) : octets (n ++ [l]) = octets n + l.length + 1 := by
  simp [octets]; omega

theorem ecName_cases (label : Label) (p : Name) (skip : Bool) :
    LGraph.ecName label p skip = p ∨ LGraph.ecName label p skip = p ++ [label] := by
  unfold LGraph.ecName
  split
  · exact Or.inl rfl
  · split
    · exact Or.inr rfl
    · split
      · exact Or.inr rfl
      · exact Or.inl rfl

theorem ecName_octets (label : Label) (p : Name) (skip : Bool) : octets p ≤ octets (LGraph.ecName label p skip) := by
  rcases ecName_cases label p skip with h | h <;> rw [h]
  rw [octets_snoc]; omega

/-- The recursive call for one out-edge. -/
def edgeCall (types : TypeSet) (fuel : Nat) (name : Name) (s : Bool) (g : LGraph) (e : EdgeType × Nat) : Res (LGraph × List Task) :=
  if e.1 = .normal then LGraph.subDomainECs types fuel g e.2 name false s
  else LGraph.subDomainECs types fuel g e.2 name true false

def isStar (g : LGraph) (e : EdgeType × Nat) : Bool := decide (e.1 = .normal) && (g.vtx e.2).label == ['*']

theorem subDomainECs_succ (types : TypeSet) (fuel : Nat) (g : LGraph) (v : Nat) (p : Name) (skip s : Bool) :
    LGraph.subDomainECs types (fuel + 1) g v p skip s =
      if octets p ≥ kMaxDomainLength ∨ ((octets p : Int) = lens g v ∧ skip) then .ok (g, [])
      else if octets (LGraph.ecName (g.vtx v).label p skip) ≥ kMaxDomainLength then .ok (g, [])
      else
        let name := LGraph.ecName (g.vtx v).label p skip
        ((g.vtx v).edges.foldlM (fun (st : LGraph × List Task × Bool) e =>
            edgeCall types fuel name s st.1 e >>= fun r => .ok (r.1, st.2.1 ++ r.2, st.2.2 || isStar st.1 e))
          (LGraph.setLen g v (octets name), if s then [Task.structural v (labelsToString name)] else [], false)) >>= fun r =>
        .ok (LGraph.setLen r.1 v (lens g v), r.2.1 ++ (if !skip then [Task.ec (exactClass name types)] else []) ++
          [Task.ec (LGraph.lastEC r.2.2 name types)]) := by
  rw [LGraph.subDomainECs]
  simp only [nameLen_eq]
  unfold lens
  have he : ((LGraph.setLen g v (octets (LGraph.ecName (g.vtx v).label p skip))).vtx v).edges = (g.vtx v).edges := by
    rw [vtx_setLen]; split <;> rfl
  split
  · rfl
  · split
    · rfl
    · rw [he]
      have hfun : (fun (st : LGraph × List Task × Bool) (e : EdgeType × Nat) =>
            if e.1 = .normal then do
              let r ← LGraph.subDomainECs types fuel st.1 e.2 (LGraph.ecName (g.vtx v).label p skip) false s
              Res.ok (r.1, st.2.1 ++ r.2, (st.2.2 || (st.1.vtx e.2).label == ['*']))
            else do
              let r ← LGraph.subDomainECs types fuel st.1 e.2 (LGraph.ecName (g.vtx v).label p skip) true false
              Res.ok (r.1, st.2.1 ++ r.2, st.2.2)) =
          (fun (st : LGraph × List Task × Bool) e =>
            edgeCall types fuel (LGraph.ecName (g.vtx v).label p skip) s st.1 e >>= fun r => .ok (r.1, st.2.1 ++ r.2, st.2.2 || isStar st.1 e)) := by
        funext st e
        unfold edgeCall isStar
        split
        · rename_i h; simp [h]
        · rename_i h; simp [h]
      rw [hfun]
      rfl

/-- The fold over the out-edges, when every call restores the graph. -/
theorem edge_fold {types : TypeSet} {fuel : Nat} {name : Name} {s : Bool} {g1 : LGraph} (edges : List (EdgeType × Nat))
    (hr : ∀ e ∈ edges, ∀ r, edgeCall types fuel name s g1 e = .ok r → r.1 = g1) :
    ∀ acc w r, edges.foldlM (fun (st : LGraph × List Task × Bool) e =>
            edgeCall types fuel name s st.1 e >>= fun r => .ok (r.1, st.2.1 ++ r.2, st.2.2 || isStar st.1 e)) (g1, acc, w) = .ok r →
      ∃ out : EdgeType × Nat → List Task, (∀ e ∈ edges, edgeCall types fuel name s g1 e = .ok (g1, out e)) ∧
        r = (g1, acc ++ edges.flatMap out, w || edges.any (isStar g1)) := by
  suffices H : ∀ acc w r, edges.foldlM (fun (st : LGraph × List Task × Bool) e =>
            edgeCall types fuel name s st.1 e >>= fun r => .ok (r.1, st.2.1 ++ r.2, st.2.2 || isStar st.1 e)) (g1, acc, w) = .ok r →
      (∀ e ∈ edges, ∃ o, edgeCall types fuel name s g1 e = .ok (g1, o)) ∧
        r = (g1, acc ++ edges.flatMap (fun e => match edgeCall types fuel name s g1 e with | .ok r => r.2 | _ => []),
          w || edges.any (isStar g1)) by
    intro acc w r h
    obtain ⟨h1, h2⟩ := H acc w r h
    refine ⟨_, ?_, h2⟩
    intro e he
    obtain ⟨o, ho⟩ := h1 e he
    rw [ho]
  induction edges with
  | nil => intro acc w r h; simp at h; simp [← h]
  | cons e edges ih =>
    intro acc w r h
    rw [List.foldlM_cons] at h
    rcases hc : edgeCall types fuel name s g1 e with ⟨g', o⟩ | _ | _ | _ | _ <;> simp only [hc, Res.ok_bind, Res.exit_bind, Res.throw_bind, Res.ub_bind, Res.oof_bind, reduceCtorEq] at h
    have := hr e (by simp) _ hc
    simp only at this
    subst this
    obtain ⟨h1, h2⟩ := ih (fun e he => hr e (by simp [he])) _ _ r h
    refine ⟨?_, ?_⟩
    · intro e' he'
      rcases List.mem_cons.mp he' with rfl | he'
      · exact ⟨o, hc⟩
      · exact h1 e' he'
    · rw [h2]
      simp [hc, Bool.or_assoc]

/-- Whatever the scratch fields hold, the graph is given back unchanged. -/
theorem subDomainECs_restore (types : TypeSet) : ∀ (fuel : Nat) (g : LGraph) (v : Nat) (p : Name) (skip s : Bool) r,
    LGraph.subDomainECs types fuel g v p skip s = .ok r → r.1 = g := by
  intro fuel
  induction fuel with
  | zero => intro g v p skip s r h; rw [LGraph.subDomainECs] at h; cases h
  | succ fuel ih =>
    intro g v p skip s r h
    rw [subDomainECs_succ] at h
    split at h
    · cases h; rfl
    · split at h
      · cases h; rfl
      · dsimp only at h
        rcases hf : (g.vtx v).edges.foldlM (fun (st : LGraph × List Task × Bool) e =>
            edgeCall types fuel (LGraph.ecName (g.vtx v).label p skip) s st.1 e >>= fun r => .ok (r.1, st.2.1 ++ r.2, st.2.2 || isStar st.1 e))
          (LGraph.setLen g v (octets (LGraph.ecName (g.vtx v).label p skip)), if s then [Task.structural v (labelsToString (LGraph.ecName (g.vtx v).label p skip))] else [], false) with x | _ | _ | _ | _ <;> simp only [hf, Res.ok_bind, Res.exit_bind, Res.throw_bind, Res.ub_bind, Res.oof_bind, reduceCtorEq] at h
        obtain ⟨out, _, rfl⟩ := edge_fold _ (by
          intro e _ r hr
          unfold edgeCall at hr
          split at hr <;> exact ih _ _ _ _ _ _ hr) _ _ _ hf
        cases h
        exact setLen_restore g v _

/-- One call that does not stop at once, in terms of the calls for the edges. -/
theorem subDomainECs_ok {types : TypeSet} {fuel : Nat} {g : LGraph} {v : Nat} {p : Name} {skip s : Bool} {ts : List Task} {g' : LGraph}
    (h : LGraph.subDomainECs types (fuel + 1) g v p skip s = .ok (g', ts)) {name : Name}
    (hn : LGraph.ecName (g.vtx v).label p skip = name) :
    ((octets p ≥ kMaxDomainLength ∨ ((octets p : Int) = lens g v ∧ skip = true) ∨ octets name ≥ kMaxDomainLength) ∧ ts = []) ∨
    (octets name < kMaxDomainLength ∧ ¬ ((octets p : Int) = lens g v ∧ skip = true) ∧ ∃ out : EdgeType × Nat → List Task,
      (∀ e ∈ (g.vtx v).edges, edgeCall types fuel name s (LGraph.setLen g v (octets name)) e = .ok (LGraph.setLen g v (octets name), out e)) ∧
      ts = (if s then [Task.structural v (labelsToString name)] else []) ++ (g.vtx v).edges.flatMap out ++
        (if !skip then [Task.ec (exactClass name types)] else []) ++
        [Task.ec (LGraph.lastEC ((g.vtx v).edges.any (isStar g)) name types)]) := by
  rw [subDomainECs_succ, hn] at h
  split at h
  · rename_i hc
    cases h
    refine Or.inl ⟨?_, rfl⟩
    rcases hc with hc | hc
    · exact Or.inl hc
    · exact Or.inr (Or.inl hc)
  · rename_i hc
    split at h
    · rename_i hc'
      cases h
      exact Or.inl ⟨Or.inr (Or.inr hc'), rfl⟩
    · rename_i hc'
      dsimp only at h
      rcases hf : (g.vtx v).edges.foldlM (fun (st : LGraph × List Task × Bool) e =>
          edgeCall types fuel name s st.1 e >>= fun r => .ok (r.1, st.2.1 ++ r.2, st.2.2 || isStar st.1 e))
        (LGraph.setLen g v (octets name), if s then [Task.structural v (labelsToString name)] else [], false) with x | _ | _ | _ | _ <;> simp only [hf, Res.ok_bind, Res.exit_bind, Res.throw_bind, Res.ub_bind, Res.oof_bind, reduceCtorEq] at h
      obtain ⟨out, ho, rfl⟩ := edge_fold _ (by
        intro e _ r hr
        unfold edgeCall at hr
        split at hr <;> exact subDomainECs_restore _ _ _ _ _ _ _ _ hr) _ _ _ hf
      right
      refine ⟨by omega, fun c => hc (Or.inr c), out, ho, ?_⟩
      simp only [Res.ok.injEq, Prod.mk.injEq] at h
      rw [← h.2]
      have : isStar (LGraph.setLen g v (octets name)) = isStar g := by
        funext e
        unfold isStar
        rw [vtx_setLen]
        split <;> rfl
      rw [this]
      simp

/-! ### Termination -/

def others (g : LGraph) (v n : Nat) : Nat :=
  ((List.range g.verts.length).filter (fun u => decide (u ≠ v ∧ lens g u ≠ n))).length

def cmeasure (g : LGraph) (v : Nat) (p : Name) : Nat :=
  ((kMaxDomainLength - octets p) * (g.verts.length + 1) + others g v (octets p)) * (g.verts.length + 1) + (g.verts.length - v)

theorem others_le (g : LGraph) (v n : Nat) : others g v n ≤ g.verts.length := by
  unfold others
  exact le_trans (List.length_filter_le _ _) (by simp)

theorem filter_length_le {l : List Nat} (p q : Nat → Bool) (h : ∀ x ∈ l, q x = true → p x = true) :
    (l.filter q).length ≤ (l.filter p).length := by
  induction l with
  | nil => simp
  | cons b l ih =>
    have := ih (fun x hx => h x (by simp [hx]))
    rw [List.filter_cons, List.filter_cons]
    by_cases hb : q b = true
    · rw [if_pos hb, if_pos (h b (by simp) hb)]; simpa using this
    · rw [if_neg hb]; split
      · simp; omega
      · exact this

theorem edge_fold_total {types : TypeSet} {fuel : Nat} {name : Name} {s : Bool} {g1 : LGraph} (edges : List (EdgeType × Nat))
    (hr : ∀ e ∈ edges, ∃ o, edgeCall types fuel name s g1 e = .ok (g1, o)) :
    ∀ acc w, ∃ ts w', edges.foldlM (fun (st : LGraph × List Task × Bool) e =>
            edgeCall types fuel name s st.1 e >>= fun r => .ok (r.1, st.2.1 ++ r.2, st.2.2 || isStar st.1 e)) (g1, acc, w) = .ok (g1, ts, w') := by
  induction edges with
  | nil => intro acc w; exact ⟨acc, w, rfl⟩
  | cons e edges ih =>
    intro acc w
    obtain ⟨o, ho⟩ := hr e (by simp)
    rw [List.foldlM_cons]
    simp only [ho, Res.ok_bind]
    exact ih (fun e he => hr e (by simp [he])) _ _

/-- The lexicographic measure, flattened. -/
theorem lex_lt {V a b c a' b' c' : Nat} (hb : b ≤ V) (hc : c ≤ V)
    (h : a < a' ∨ (a = a' ∧ (b < b' ∨ (b = b' ∧ c < c')))) :
    (a * (V + 1) + b) * (V + 1) + c < (a' * (V + 1) + b') * (V + 1) + c' := by
  rcases h with h | ⟨rfl, h | ⟨rfl, h⟩⟩
  · have h1 : a * (V + 1) + b < a' * (V + 1) + b' := by
      have : (a + 1) * (V + 1) ≤ a' * (V + 1) := Nat.mul_le_mul_right _ h
      rw [Nat.add_mul, Nat.one_mul] at this; omega
    have : (a * (V + 1) + b + 1) * (V + 1) ≤ (a' * (V + 1) + b') * (V + 1) := Nat.mul_le_mul_right _ h1
    rw [Nat.add_mul _ 1, Nat.one_mul] at this; omega
  · have : (a * (V + 1) + b + 1) * (V + 1) ≤ (a * (V + 1) + b') * (V + 1) := Nat.mul_le_mul_right _ (by omega)
    rw [Nat.add_mul _ 1, Nat.one_mul] at this; omega
  · omega

theorem Shape.inside {g0 g : LGraph} (h : Shape g0 g) {names : List Name} (hi : g0.Inv names) {v : Nat} (hv : v < g0.verts.length)
    {e : EdgeType × Nat} (he : e ∈ (g.vtx v).edges) : e.2 < g0.verts.length ∧ (e.1 = .normal → v < e.2) := by
  rw [h.edges] at he
  obtain ⟨t, u⟩ := e
  cases t with
  | dname => exact ⟨by rw [← hi.len]; exact hi.dedge v u he, by simp⟩
  | normal =>
    obtain ⟨n, hn⟩ : ∃ n, names[v]? = some n := ⟨names[v]'(by rw [hi.len]; exact hv), List.getElem?_eq_getElem _⟩
    obtain ⟨h1, h2⟩ := hi.edge v u n hn he
    exact ⟨by rw [← hi.len]; exact Trie.name_lt h1, fun _ => h2⟩

/-- Class generation terminates on every label graph, whatever the scratch fields hold. -/
theorem subDomainECs_total (types : TypeSet) {g0 : LGraph} {names : List Name} (hi : g0.Inv names) :
    ∀ (fuel : Nat) (g : LGraph) (v : Nat) (p : Name) (skip s : Bool), Shape g0 g → v < g0.verts.length →
      cmeasure g v p < fuel → ∃ ts, LGraph.subDomainECs types fuel g v p skip s = .ok (g, ts) := by
  intro fuel
  induction fuel with
  | zero => intro g v p skip s _ _ h; omega
  | succ fuel ih =>
    intro g v p skip s hsh hv hm
    rw [subDomainECs_succ]
    split
    · exact ⟨_, rfl⟩
    · rename_i hc1
      split
      · exact ⟨_, rfl⟩
      · rename_i hc2
        dsimp only
        generalize hname : LGraph.ecName (g.vtx v).label p skip = name at hc2
        have hle : octets p ≤ octets name := by rw [← hname]; exact ecName_octets _ _ _
        have hv' : v < g.verts.length := by rw [hsh.len]; exact hv
        have hsh1 := hsh.setLen v (octets name)
        have hlen1 := setLen_length g v (octets name)
        have hlens := lens_setLen g (octets name) hv'
        have hcall : ∀ e ∈ (g.vtx v).edges, ∃ o, edgeCall types fuel name s (LGraph.setLen g v (octets name)) e =
            .ok (LGraph.setLen g v (octets name), o) := by
          intro e he
          obtain ⟨hu, hlt⟩ := hsh.inside hi hv he
          have hb := others_le (LGraph.setLen g v (octets name)) e.2 (octets name)
          rw [hlen1] at hb
          -- the measure of the call for `e`
          have hrec : ∀ skip' s', (skip' = true → lens (LGraph.setLen g v (octets name)) e.2 ≠ octets name) →
              (skip' = false → v < e.2) →
              ∃ o, LGraph.subDomainECs types fuel (LGraph.setLen g v (octets name)) e.2 name skip' s' =
                .ok (LGraph.setLen g v (octets name), o) := by
            intro skip' s' h1 h2
            apply ih _ _ _ _ _ hsh1 hu
            have : cmeasure (LGraph.setLen g v (octets name)) e.2 name < cmeasure g v p := by
              unfold cmeasure
              rw [hlen1]
              apply lex_lt hb (Nat.sub_le _ _)
              rcases Nat.lt_or_ge (octets p) (octets name) with hlt' | hge
              · left; omega
              · have hpe : octets p = octets name := by omega
                right
                rw [hpe]
                refine ⟨rfl, ?_⟩
                have hothers : others (LGraph.setLen g v (octets name)) e.2 (octets name) ≤ others g v (octets name) := by
                  unfold others
                  rw [hlen1, hlens]
                  apply filter_length_le
                  intro x _ hx
                  simp only [decide_eq_true_eq] at hx ⊢
                  have hxv : x ≠ v := by
                    intro c
                    exact hx.2 (by simp [upd, c])
                  refine ⟨hxv, ?_⟩
                  have := hx.2
                  simp only [upd, if_neg hxv] at this
                  exact this
                cases skip' with
                | false =>
                  have := h2 rfl
                  rw [hsh.len]
                  omega
                | true =>
                  left
                  have h1 := h1 rfl
                  unfold others
                  rw [hlen1, hlens]
                  rw [hlens] at h1
                  have hev : e.2 ≠ v := by
                    intro c
                    exact h1 (by simp [upd, c])
                  apply filter_length_lt (v := e.2)
                  · intro x _ hx
                    simp only [decide_eq_true_eq] at hx ⊢
                    have hxv : x ≠ v := by
                      intro c
                      exact hx.2 (by simp [upd, c])
                    refine ⟨hxv, ?_⟩
                    have := hx.2
                    simp only [upd, if_neg hxv] at this
                    exact this
                  · rw [List.mem_range, hsh.len]; exact hu
                  · simp only [decide_eq_true_eq]
                    refine ⟨hev, ?_⟩
                    simp only [upd, if_neg hev] at h1
                    exact h1
                  · simp
            omega
          have hfuel : 0 < fuel := by
            have : 0 < cmeasure g v p := by unfold cmeasure; omega
            omega
          unfold edgeCall
          split
          · rename_i hn
            exact hrec false s (by simp) (fun _ => hlt hn)
          · by_cases hbl : lens (LGraph.setLen g v (octets name)) e.2 = octets name
            · obtain ⟨f, rfl⟩ : ∃ f, fuel = f + 1 := ⟨fuel - 1, by omega⟩
              rw [subDomainECs_succ, if_pos (Or.inr ⟨hbl.symm, rfl⟩)]
              exact ⟨_, rfl⟩
            · exact hrec true false (fun _ => hbl) (by simp)
        obtain ⟨ts, w', hf⟩ := edge_fold_total _ hcall (if s then [Task.structural v (labelsToString name)] else []) false
        rw [hf]
        simp only [Res.ok_bind]
        rw [show lens g v = (g.vtx v).data.len from rfl, setLen_restore]
        exact ⟨_, rfl⟩

end Groot
