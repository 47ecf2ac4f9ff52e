import Verif.Lemmas.Producers2

/-! # Under any schedule, the producers enqueue only classes of the job -/

namespace Groot
open Spec

namespace Prod

variable {g0 : LGraph} {names : List Name} {xs : List (RR × Nat × Nat)} {types : TypeSet} {s0 : Bool} {labels : Name}

/-- The call is for a known name visited from one that stands for the domain. -/
def CallOk (g0 : LGraph) (names : List Name) (rs : List RR) (s0 : Bool) (labels : Name) (c : Call) : Prop :=
  ∃ k0 k, Matches rs labels k0 labels.length ∧ names[c.start]? = some k ∧ Visits rs labels k0 (c.name g0) k c.skip ∧
    (c.name g0 = [] → c.start = 0) ∧ (c.structural = true → s0 = true ∧ ∃ rest, k = k0 ++ rest ∧ c.name g0 = labels ++ rest)

/-- The frame belongs to such a call, and its variables have the right values. -/
def FrameOk (g0 : LGraph) (names : List Name) (rs : List RR) (s0 : Bool) (labels : Name) : Frame → Prop
  | .entry c | .save c => CallOk g0 names rs s0 labels c
  | .write c _ | .announce c _ => CallOk g0 names rs s0 labels c ∧ octets (c.name g0) < kMaxDomainLength
  | .loop c _ rest w => CallOk g0 names rs s0 labels c ∧ octets (c.name g0) < kMaxDomainLength ∧
      ∃ past, (g0.vtx c.start).edges = past ++ rest ∧ w = past.any (isStar g0)
  | .node c w | .last c w => CallOk g0 names rs s0 labels c ∧ octets (c.name g0) < kMaxDomainLength ∧ w = (g0.vtx c.start).edges.any (isStar g0)

theorem CallOk.callee (h : LRep g0 names xs) (hr : Regular (xs.map (·.1))) {c : Call} (hc : CallOk g0 names (xs.map (·.1)) s0 labels c)
    {e : EdgeType × Nat} (he : e ∈ (g0.vtx c.start).edges) : CallOk g0 names (xs.map (·.1)) s0 labels (Prod.callee g0 c e) := by
  obtain ⟨k0, k, h1, h2, h3, h4, h5⟩ := hc
  have hp := h.plain hr
  obtain ⟨t, u⟩ := e
  cases t with
  | normal =>
    obtain ⟨hu, _⟩ := h.inv.edge _ u k h2 he
    have hlab := hp.kid _ u he
    have hname : (Prod.callee g0 c (.normal, u)).name g0 = c.name g0 ++ [(g0.vtx u).label] := by
      show LGraph.ecName (g0.vtx u).label (c.name g0) false = _
      unfold LGraph.ecName
      rw [if_neg hlab]
      split <;> simp
    refine ⟨k0, k ++ [(g0.vtx u).label], h1, hu, ?_, ?_, ?_⟩
    · rw [hname]
      exact .down _ _ _ _ h3 ((h.known _).mp (List.mem_of_getElem? hu))
    · rw [hname]; simp
    · intro hs
      obtain ⟨h6, rest, e1, e2⟩ := h5 hs
      exact ⟨h6, rest ++ [(g0.vtx u).label], by rw [e1]; simp, by rw [hname, e2]; simp⟩
  | dname =>
    obtain ⟨t, ht, ha⟩ := (h.dn _ u k h2).mp he
    have hne : c.name g0 ≠ [] := by
      intro hn
      rw [h4 hn] at he
      exact hp.root u he
    have hname : (Prod.callee g0 c (.dname, u)).name g0 = c.name g0 := by
      show LGraph.ecName (g0.vtx u).label (c.name g0) true = _
      unfold LGraph.ecName
      split
      · rfl
      · rw [if_neg (by simpa using hne)]; simp
    refine ⟨k0, t, h1, ht, ?_, ?_, ?_⟩
    · rw [hname]; exact .redirect _ _ _ _ h3 ha
    · rw [hname]; exact fun hn => absurd hn hne
    · intro hs; cases hs

/-- One step of one thread. -/
theorem step_ok (h : LRep g0 names xs) (hr : Regular (xs.map (·.1))) {g g' : LGraph} (hn : Near (fun _ => False) g g0) {st st' : List Frame} {o : Option Task}
    (hst : ∀ f ∈ st, FrameOk g0 names (xs.map (·.1)) s0 labels f) (hs : step types g st = some (g', st', o)) :
    Near (fun _ => False) g' g0 ∧ (∀ f ∈ st', FrameOk g0 names (xs.map (·.1)) s0 labels f) ∧
      ∀ t ∈ o, ∃ k0, Matches (xs.map (·.1)) labels k0 labels.length ∧ TaskOf (xs.map (·.1)) g0 types s0 labels k0 t := by
  have hset : ∀ v n, Near (fun _ => False) (LGraph.setLen g v n) g0 := by
    intro v n
    refine Near.trans (Near.symm ?_) hn
    exact (near_setLen (R := fun _ => True) g n trivial).mono (fun _ h => h.elim)
  match st, hst, hs with
  | .entry c :: k, hst, hs =>
    have tail : ∀ x ∈ k, FrameOk g0 names (xs.map (·.1)) s0 labels x := fun x hx => hst x (List.mem_cons_of_mem _ hx)
    have head := hst _ (List.mem_cons_self)
    have hc := head
    unfold step at hs
    dsimp only at hs
    split at hs
    · cases hs; exact ⟨hn, tail, fun t ht => nomatch ht⟩
    · cases hs; exact ⟨hn, List.forall_mem_cons.mpr ⟨hc, tail⟩, fun t ht => nomatch ht⟩
  | .save c :: k, hst, hs =>
    have tail : ∀ x ∈ k, FrameOk g0 names (xs.map (·.1)) s0 labels x := fun x hx => hst x (List.mem_cons_of_mem _ hx)
    have head := hst _ (List.mem_cons_self)
    have hc := head
    unfold step at hs
    dsimp only at hs
    rw [hn.name, nameLen_eq] at hs
    split at hs
    · cases hs; exact ⟨hn, tail, fun t ht => nomatch ht⟩
    · rename_i hlt
      cases hs; exact ⟨hn, List.forall_mem_cons.mpr ⟨⟨hc, by omega⟩, tail⟩, fun t ht => nomatch ht⟩
  | .write c b :: k, hst, hs =>
    have tail : ∀ x ∈ k, FrameOk g0 names (xs.map (·.1)) s0 labels x := fun x hx => hst x (List.mem_cons_of_mem _ hx)
    have head := hst _ (List.mem_cons_self)
    have hc := head
    unfold step at hs
    dsimp only at hs
    cases hs
    exact ⟨hset _ _, List.forall_mem_cons.mpr ⟨hc, tail⟩, fun t ht => nomatch ht⟩
  | .announce c b :: k, hst, hs =>
    have tail : ∀ x ∈ k, FrameOk g0 names (xs.map (·.1)) s0 labels x := fun x hx => hst x (List.mem_cons_of_mem _ hx)
    have head := hst _ (List.mem_cons_self)
    have hc := head
    unfold step at hs
    dsimp only at hs
    rw [hn.name, hn.edges] at hs
    simp only [Option.some.injEq, _root_.Prod.mk.injEq] at hs
    obtain ⟨e1, e2, e3⟩ := hs
    subst e1 e2 e3
    refine ⟨hn, List.forall_mem_cons.mpr ⟨⟨hc.1, hc.2, [], rfl, rfl⟩, tail⟩, ?_⟩
    intro t ht
    split at ht
    · rename_i hs
      simp only [Option.mem_def, Option.some.injEq] at ht
      subst ht
      obtain ⟨⟨k0, k, h1, h2, h3, h4, h5⟩, h6⟩ := hc
      obtain ⟨h7, rest, rfl, h8⟩ := h5 hs
      exact ⟨k0, h1, Or.inr ⟨h7, rest, c.start, (h.known _).mp (List.mem_of_getElem? h2), by rw [← h8]; exact h6, (nodeOf_iff h.inv _ _).mpr h2, by rw [← h8]⟩⟩
    · cases ht
  | .loop c b (e :: rest) w :: k, hst, hs =>
    have tail : ∀ x ∈ k, FrameOk g0 names (xs.map (·.1)) s0 labels x := fun x hx => hst x (List.mem_cons_of_mem _ hx)
    have head := hst _ (List.mem_cons_self)
    obtain ⟨hc, hl, past, hp1, hp2⟩ := head
    unfold step at hs
    dsimp only at hs
    rw [hn.callee, hn.label] at hs
    cases hs
    refine ⟨hn, ?_, fun t ht => nomatch ht⟩
    rw [List.forall_mem_cons, List.forall_mem_cons]
    refine ⟨hc.callee h hr (by rw [hp1]; simp), ⟨hc, hl, past ++ [e], by rw [hp1]; simp, ?_⟩, tail⟩
    rw [hp2, List.any_append]
    simp [isStar]
  | .loop c b [] w :: k, hst, hs =>
    have tail : ∀ x ∈ k, FrameOk g0 names (xs.map (·.1)) s0 labels x := fun x hx => hst x (List.mem_cons_of_mem _ hx)
    have head := hst _ (List.mem_cons_self)
    obtain ⟨hc, hl, past, hp1, hp2⟩ := head
    unfold step at hs
    dsimp only at hs
    cases hs
    refine ⟨hset _ _, List.forall_mem_cons.mpr ⟨⟨hc, hl, ?_⟩, tail⟩, fun t ht => nomatch ht⟩
    rw [hp2, hp1, List.append_nil]
  | .node c w :: k, hst, hs =>
    have tail : ∀ x ∈ k, FrameOk g0 names (xs.map (·.1)) s0 labels x := fun x hx => hst x (List.mem_cons_of_mem _ hx)
    have head := hst _ (List.mem_cons_self)
    have hc := head
    unfold step at hs
    dsimp only at hs
    rw [hn.name] at hs
    simp only [Option.some.injEq, _root_.Prod.mk.injEq] at hs
    obtain ⟨e1, e2, e3⟩ := hs
    subst e1 e2 e3
    refine ⟨hn, List.forall_mem_cons.mpr ⟨hc, tail⟩, ?_⟩
    intro t ht
    split at ht
    · rename_i hs
      simp only [Option.mem_def, Option.some.injEq] at ht
      subst ht
      obtain ⟨⟨k0, k, h1, h2, h3, _⟩, h6, _⟩ := hc
      exact ⟨k0, h1, Or.inl ⟨c.name g0, k, c.skip, h3, h6, Or.inl ⟨by simpa using hs, rfl⟩⟩⟩
    · cases ht
  | .last c w :: k, hst, hs =>
    have tail : ∀ x ∈ k, FrameOk g0 names (xs.map (·.1)) s0 labels x := fun x hx => hst x (List.mem_cons_of_mem _ hx)
    have head := hst _ (List.mem_cons_self)
    obtain ⟨⟨k0, k', h1, h2, h3, _⟩, h6, h7⟩ := head
    unfold step at hs
    dsimp only at hs
    rw [hn.name] at hs
    simp only [Option.some.injEq, _root_.Prod.mk.injEq] at hs
    obtain ⟨e1, e2, e3⟩ := hs
    subst e1 e2 e3
    refine ⟨hn, tail, ?_⟩
    intro t ht
    simp only [Option.mem_def, Option.some.injEq] at ht
    subst ht
    exact ⟨k0, h1, Or.inl ⟨c.name g0, k', c.skip, h3, h6, Or.inr (by rw [h7, h.lastEC h2])⟩⟩

theorem first_ok (h : LRep g0 names xs) (hr : Regular (xs.map (·.1))) {v : Nat} {k : Name} (hv : names[v]? = some k)
    (hm : Matches (xs.map (·.1)) labels k labels.length) : CallOk g0 names (xs.map (·.1)) s0 labels ⟨v, labels.dropLast, false, s0⟩ := by
  have hname : Call.name ⟨v, labels.dropLast, false, s0⟩ g0 = labels := by
    show LGraph.ecName (g0.vtx v).label labels.dropLast false = labels
    rcases matches_full hm rfl with ⟨rfl, rfl⟩ | ⟨k', l, rfl, hl⟩
    · rw [Trie.name_inj h.inv.nodup hv h.inv.root, h.rootLabel]; rfl
    · obtain ⟨w, hw, _⟩ := h.inv.parent v k' l hv
      have hlab := ((h.inv.child_iff hw l v).mpr hv).2
      rw [hlab]
      have hne : l ≠ ['.'] := by
        rintro rfl
        exact hr.1 _ ((h.known _).mp (List.mem_of_getElem? hv)) (by simp)
      unfold LGraph.ecName
      rw [if_neg hne]
      conv_rhs => rw [hl]
      split <;> simp
  refine ⟨k, k, hm, hv, ?_, ?_, ?_⟩
  · rw [hname]; exact .start
  · rw [hname]
    rintro rfl
    show v = 0
    cases hm with
    | root => exact Trie.name_inj h.inv.nodup hv h.inv.root
    | redirect _ _ _ _ hi => simp at hi
  · intro hs
    exact ⟨hs, [], by simp, by rw [hname]; simp⟩

/-- Under any schedule. -/
theorem produces_ok (h : LRep g0 names xs) (hr : Regular (xs.map (·.1))) (vs : List Nat)
    (hm : ∀ w ∈ vs, ∃ n, names[w]? = some n ∧ Matches (xs.map (·.1)) labels n labels.length) {n : Nat} {ts : List Task} {q : Pool}
    (hp : Produces types (start g0 labels.dropLast s0 vs) n ts q) :
    Near (fun _ => False) q.graph g0 ∧ (∀ st ∈ q.threads, ∀ f ∈ st, FrameOk g0 names (xs.map (·.1)) s0 labels f) ∧
      ∀ t ∈ ts, ∃ k0, Matches (xs.map (·.1)) labels k0 labels.length ∧ TaskOf (xs.map (·.1)) g0 types s0 labels k0 t := by
  induction hp with
  | refl =>
    refine ⟨.refl _ _, ?_, by simp⟩
    intro st hst f hf
    obtain ⟨v, hv, rfl⟩ := List.mem_map.mp hst
    rw [List.mem_singleton] at hf
    subst hf
    obtain ⟨k, h1, h2⟩ := hm v hv
    exact first_ok h hr h1 h2
  | step _ hs ih =>
    obtain ⟨h1, h2, h3⟩ := ih
    obtain ⟨a, b, st, st', o, hp, _, hstep⟩ := hs
    obtain ⟨h4, h5, h6⟩ := step_ok (types := types) h hr h1 (h2 st (by rw [hp]; simp)) hstep
    refine ⟨h4, ?_, ?_⟩
    · intro x hx
      rcases List.mem_append.mp hx with hx | hx
      · exact h2 x (by rw [hp]; simp [hx])
      · rcases List.mem_cons.mp hx with rfl | hx
        · exact h5
        · exact h2 x (by rw [hp]; simp [hx])
    · intro t ht
      rcases List.mem_append.mp ht with ht | ht
      · exact h3 t ht
      · exact h6 t (by simpa using ht)

end Prod
end Groot
