import Verif.Spec.Structural
import Verif.Lemmas.Closest
import Verif.Lemmas.Resolve
import Verif.Lemmas.Glue
import Verif.Lemmas.Compare
import Verif.Lemmas.Show

/-! # The structural delegation check -/

namespace Groot
open Spec

theorem firsts_append {α : Type} [DecidableEq α] (l : List α) (x : α) :
    firsts (l ++ [x]) = if x ∈ firsts l then firsts l else firsts l ++ [x] := by
  unfold firsts; rw [List.foldl_append]; rfl

theorem mem_firsts {α : Type} [DecidableEq α] (l : List α) (x : α) : x ∈ firsts l ↔ x ∈ l := by
  induction l using List.reverseRecOn with
  | nil => simp [firsts]
  | append_singleton l y ih =>
    rw [firsts_append]
    split
    · rename_i h
      simp only [List.mem_append, List.mem_singleton]
      constructor
      · intro hx; exact Or.inl (ih.mp hx)
      · rintro (h1 | rfl)
        · exact ih.mpr h1
        · exact h
    · simp [ih]

theorem firsts_map_fst (l : List (Nat × Nat)) (h : ∀ p ∈ l, ∀ q ∈ l, p.1 = q.1 → p = q) :
    (firsts l).map (·.1) = firsts (l.map (·.1)) := by
  induction l using List.reverseRecOn with
  | nil => rfl
  | append_singleton l x ih =>
    have ih := ih (fun p hp q hq => h p (by simp [hp]) q (by simp [hq]))
    rw [List.map_append, List.map_singleton, firsts_append, firsts_append]
    have hiff : x ∈ firsts l ↔ x.1 ∈ firsts (l.map (·.1)) := by
      rw [mem_firsts, mem_firsts, List.mem_map]
      constructor
      · intro hx; exact ⟨x, hx, rfl⟩
      · rintro ⟨y, hy, he⟩
        rw [← h y (by simp [hy]) x (by simp) he]; exact hy
    by_cases hx : x ∈ firsts l
    · rw [if_pos hx, if_pos (hiff.mp hx), ih]
    · rw [if_neg hx, if_neg (fun c => hx (hiff.mpr c)), List.map_append, ih]; rfl

theorem pairsOf_eq {α : Type} (l : List α) : LGraph.allPairs l = pairsOf l := by
  induction l with
  | nil => rfl
  | cons x l ih => unfold LGraph.allPairs pairsOf; rw [ih]

theorem pairsOf_map {α β : Type} (f : α → β) (l : List α) : pairsOf (l.map f) = (pairsOf l).map (fun x => (f x.1, f x.2)) := by
  induction l with
  | nil => rfl
  | cons x l ih => simp only [List.map_cons, pairsOf, List.map_append, List.map_map, ih]; rfl

theorem mem_pairsOf {α : Type} {l : List α} {x : α × α} (h : x ∈ pairsOf l) : x.1 ∈ l ∧ x.2 ∈ l := by
  induction l with
  | nil => cases h
  | cons y l ih =>
    unfold pairsOf at h
    rcases List.mem_append.mp h with h | h
    · obtain ⟨z, hz, rfl⟩ := List.mem_map.mp h
      exact ⟨by simp, by simp [hz]⟩
    · exact ⟨by simp [(ih h).1], by simp [(ih h).2]⟩

/-- The zone `id` holds records of `n` at vertex `v`. -/
def Located (ctx : Context) (w : World) (n : Name) (id v : Nat) : Prop :=
  ∃ z names, ctx.zones.lookup id = some z ∧ z.Rep names (w.log id) ∧ names[v]? = some n

theorem Spec.Registered.located {ctx : Context} {w : World} {xs : List (RR × Nat × Nat)} (hr : Represents ctx w) (hx : Registered ctx w xs)
    {x : RR × Nat × Nat} (hm : x ∈ xs) : Located ctx w x.1.name x.2.1 x.2.2 := by
  obtain ⟨z, h1, thr, h2⟩ := hx.vertex x hm
  have hne : w.zones.lookup x.2.1 ≠ none := by
    intro hc
    have := hx.stored x hm
    unfold World.log at this
    rw [hc] at this
    cases this
  obtain ⟨z', names, h3, h4⟩ := hr.zone hne
  rw [h3] at h1
  cases h1
  refine ⟨_, names, h3, h4, ?_⟩
  have := (h4.ancestor thr x.1.name).2.1
  rw [h2] at this
  simpa using this

theorem Located.inj {ctx : Context} {w : World} {n : Name} {id v v' : Nat} (h : Located ctx w n id v) (h' : Located ctx w n id v') : v = v' := by
  obtain ⟨z, names, h1, h2, h3⟩ := h
  obtain ⟨z', names', h1', h2', h3'⟩ := h'
  rw [h1] at h1'; cases h1'
  obtain ⟨a1, a2, _⟩ := h2.ancestor 0 n
  have e : ∀ (nm : List Name), z.Rep nm (w.log id) → ∀ u, nm[u]? = some n → u = (z.ancestor 0 n).1 := by
    intro nm hnm u hu
    have hp := (hnm.present_iff 0 n).mpr ((hnm.mem n).mp (List.mem_of_getElem? hu))
    have := (hnm.ancestor 0 n).2.1
    rw [hp, List.take_length] at this
    exact Trie.name_inj hnm.inv.nodup hu this
  rw [e names h2 v h3, e names' h2' v' h3']

theorem holders_eq_firsts (xs : List (RR × Nat × Nat)) (n : Name) :
    holders xs n = firsts ((xs.filter (fun x => decide (x.1.type ≠ .N ∧ x.1.name = n))).map (·.2)) := by
  unfold holders firsts
  congr 1
  funext acc p
  by_cases h : p ∈ acc
  · rw [if_pos h, if_pos h]
  · rw [if_neg h, if_neg h]

theorem holders_spec {ctx : Context} {w : World} {xs : List (RR × Nat × Nat)} (hr : Represents ctx w) (hx : Registered ctx w xs) (n : Name) :
    (holders xs n).map (·.1) = zonesWith xs n ∧ (∀ p ∈ holders xs n, Located ctx w n p.1 p.2 ∧ ctx.zoneNs.lookup p.1 ≠ none) := by
  have hmem : ∀ p, p ∈ holders xs n → ∃ x ∈ xs, x.1.name = n ∧ x.2 = p := by
    intro p hp
    rw [holders_eq_firsts, mem_firsts, List.mem_map] at hp
    obtain ⟨x, hx, rfl⟩ := hp
    rw [List.mem_filter] at hx
    have := of_decide_eq_true hx.2
    exact ⟨x, hx.1, this.2, rfl⟩
  have hloc : ∀ p ∈ holders xs n, Located ctx w n p.1 p.2 := by
    intro p hp
    obtain ⟨x, h1, h2, rfl⟩ := hmem p hp
    rw [← h2]; exact hx.located hr h1
  refine ⟨?_, ?_⟩
  · rw [holders_eq_firsts, firsts_map_fst]
    · unfold zonesWith; rw [List.map_map]; rfl
    · intro p hp q hq he
      have hp' := hloc p (by rw [holders_eq_firsts, mem_firsts]; exact hp)
      have hq' := hloc q (by rw [holders_eq_firsts, mem_firsts]; exact hq)
      rw [he] at hp'
      exact Prod.ext he (hp'.inj hq')
  · intro p hp
    refine ⟨hloc p hp, ?_⟩
    obtain ⟨x, h1, h2, rfl⟩ := hmem p hp
    exact hx.server x h1

theorem requireGlue_any (z : Zone) (ns : List RR) : z.requireGlue ns = ns.any (fun r => z.requireGlue [r]) := by
  unfold Zone.requireGlue; simp

section
variable {ctx : Context} {w : World} {n : Name}

/-- What the loop records for a child. -/
def childEntry (w : World) (n : Name) (id : Nat) : LGraph.ZGN :=
  (id, if NeedsGlue w n id then some (addressesFor w n id) else none, nsAt (w.log id) n)

/-- What the loop records for a parent. -/
def outerEntry (w : World) (n : Name) (id : Nat) : LGraph.ZGN := (id, some (addressesFor w n id), nsAt (w.log id) n)

theorem structStep_eq (thr : Nat) (st : LGraph.SState) {id v : Nat} (h : Located ctx w n id v) :
    LGraph.structStep thr ctx st (id, v) = .ok (
      if HasType (w.log id) n .SOA then { st with childZone := w.origin id, children := st.children ++ [childEntry w n id] }
      else if st.longestParent.length ≠ 0 then
        if st.longestParent = w.origin id then { st with parents := st.parents ++ [outerEntry w n id] }
        else if AtOrBelow st.longestParent (w.origin id) then { st with parents := [outerEntry w n id], longestParent := w.origin id }
        else st
      else { st with longestParent := w.origin id, parents := st.parents ++ [outerEntry w n id] }) := by
  obtain ⟨z, names, h1, h2, h3⟩ := h
  have hns : (z.rrsAt v).filter (fun r => r.type == .NS) = nsAt (w.log id) n := by
    rw [h2.data v n h3]; unfold nsAt; exact filter_beq_decide _ _
  have hsoa : (z.rrsAt v).any (fun r => r.type == .SOA) = decide (HasType (w.log id) n .SOA) := by
    rw [h2.data v n h3, Bool.eq_iff_iff]
    simp only [List.any_eq_true, decide_eq_true_eq, beq_iff_eq]
    unfold recordsAt HasType
    simp only [List.mem_filter, decide_eq_true_eq]
    constructor
    · rintro ⟨x, ⟨hx, hn⟩, ht⟩; exact ⟨x, hx, hn, ht⟩
    · rintro ⟨x, hx, hn, ht⟩; exact ⟨x, ⟨hx, hn⟩, ht⟩
  have hor : z.origin = w.origin id := h2.origin
  have hreq : z.requireGlue (nsAt (w.log id) n) = decide (NeedsGlue w n id) := by
    rw [requireGlue_any, Bool.eq_iff_iff]
    simp only [List.any_eq_true, requireGlue_iff, decide_eq_true_eq, hor]
    rfl
  have hlg : z.lookUpGlue thr (nsAt (w.log id) n) = addressesFor w n id := h2.lookUpGlue thr _
  unfold LGraph.structStep
  simp only [h1, hns, hsoa, hreq, hlg, hor, decide_eq_true_eq]
  split
  · unfold childEntry; rfl
  · unfold outerEntry
    have : subDomainCheck st.longestParent (w.origin id) = true ↔ AtOrBelow st.longestParent (w.origin id) := by
      exact subDomainCheck_iff _ _
    simp only [this]
    split
    · split
      · rfl
      · split <;> rfl
    · rfl

/-- The state after the zones `ids`. -/
structure SInv (w : World) (n : Name) (ids : List Nat) (st : LGraph.SState) : Prop where
  children : st.children = (childZones w n ids).map (childEntry w n)
  childZone : st.childZone = if childZones w n ids = [] then [] else n
  parents : st.parents = (parentZones w n ids).map (outerEntry w n)
  none_ : outerZones w n ids = [] → st.longestParent = []
  some_ : outerZones w n ids ≠ [] → ∃ id ∈ outerZones w n ids, w.origin id = st.longestParent
  max : ∀ j ∈ outerZones w n ids, (w.origin j).length ≤ st.longestParent.length

theorem parentZones_eq {ids : List Nat} {M : Nat} (h1 : ∃ id ∈ outerZones w n ids, (w.origin id).length = M)
    (h2 : ∀ j ∈ outerZones w n ids, (w.origin j).length ≤ M) :
    parentZones w n ids = (outerZones w n ids).filter (fun id => decide ((w.origin id).length = M)) := by
  unfold parentZones
  apply List.filter_congr
  intro id hid
  rw [decide_eq_decide]
  obtain ⟨k, hk, rfl⟩ := h1
  constructor
  · intro h; exact Nat.le_antisymm (h2 id hid) (h k hk)
  · intro h j hj; rw [h]; exact h2 j hj

theorem same_length_eq {a b n : Name} (ha : AtOrBelow a n) (hb : AtOrBelow b n) (h : a.length = b.length) : a = b := by
  obtain ⟨x, hx⟩ := ha
  obtain ⟨y, hy⟩ := hb
  rw [hx] at hy
  exact (List.append_inj hy h).1

theorem shorter_prefix {a b n : Name} (ha : AtOrBelow a n) (hb : AtOrBelow b n) (h : a.length ≤ b.length) : AtOrBelow a b := by
  obtain ⟨x, hx⟩ := ha
  obtain ⟨y, hy⟩ := hb
  obtain ⟨z, hz⟩ := List.prefix_of_prefix_length_le ⟨x, hx.symm⟩ ⟨y, hy.symm⟩ h
  exact ⟨z, hz.symm⟩

theorem SInv.step {ids : List Nat} {st : LGraph.SState} (h : SInv w n ids st) (thr : Nat) {id v : Nat} (hl : Located ctx w n id v)
    (hz : InZones w n (ids ++ [id])) : ∃ st', LGraph.structStep thr ctx st (id, v) = .ok st' ∧ SInv w n (ids ++ [id]) st' := by
  refine ⟨_, structStep_eq thr st hl, ?_⟩
  obtain ⟨hz1, hz2⟩ := hz id (by simp)
  have hpre : ∀ j ∈ outerZones w n ids, w.origin j ≠ [] ∧ AtOrBelow (w.origin j) n := by
    intro j hj
    unfold outerZones at hj
    rw [List.mem_filter] at hj
    exact (hz j (by simp [hj.1])).2 (of_decide_eq_true hj.2)
  by_cases hs : HasType (w.log id) n .SOA
  · rw [if_pos hs]
    have ec : childZones w n (ids ++ [id]) = childZones w n ids ++ [id] := by unfold childZones; simp [hs]
    have eo : outerZones w n (ids ++ [id]) = outerZones w n ids := by unfold outerZones; simp [hs]
    have ep : parentZones w n (ids ++ [id]) = parentZones w n ids := by unfold parentZones; rw [eo]
    refine ⟨?_, ?_, ?_, ?_, ?_, ?_⟩
    · rw [ec, List.map_append, ← h.children]; rfl
    · rw [ec, if_neg (by simp)]; exact hz1 hs
    · rw [ep]; exact h.parents
    · rw [eo]; exact h.none_
    · rw [eo]; exact h.some_
    · rw [eo]; exact h.max
  · rw [if_neg hs]
    obtain ⟨hne, hab⟩ := hz2 hs
    have ec : childZones w n (ids ++ [id]) = childZones w n ids := by unfold childZones; simp [hs]
    have eo : outerZones w n (ids ++ [id]) = outerZones w n ids ++ [id] := by unfold outerZones; simp [hs]
    by_cases he : outerZones w n ids = []
    · rw [if_neg (by rw [h.none_ he]; simp)]
      have hp0 : parentZones w n ids = [] := by unfold parentZones; rw [he]; rfl
      have ep : parentZones w n (ids ++ [id]) = [id] := by unfold parentZones; rw [eo, he]; simp
      refine ⟨by rw [ec]; exact h.children, by rw [ec]; exact h.childZone, ?_, ?_, ?_, ?_⟩
      · rw [ep]; show st.parents ++ _ = _; rw [h.parents, hp0]; rfl
      · rw [eo, he]; intro c; simp at c
      · intro _; exact ⟨id, by rw [eo]; simp, rfl⟩
      · rw [eo, he]; intro j hj; simp at hj; rw [hj]
    · obtain ⟨k, hk, hko⟩ := h.some_ he
      obtain ⟨hkne, hkab⟩ := hpre k hk
      rw [hko] at hkne hkab
      rw [if_pos (by simpa using hkne)]
      have eold := parentZones_eq ⟨k, hk, by rw [hko]⟩ h.max
      by_cases heq : st.longestParent = w.origin id
      · rw [if_pos heq]
        have ep : parentZones w n (ids ++ [id]) = parentZones w n ids ++ [id] := by
          rw [eold, parentZones_eq (M := st.longestParent.length), eo, List.filter_append]
          · simp [heq]
          · exact ⟨id, by rw [eo]; simp, by rw [heq]⟩
          · rw [eo]; intro j hj
            rcases List.mem_append.mp hj with hj | hj
            · exact h.max j hj
            · rw [List.mem_singleton.mp hj, heq]
        refine ⟨by rw [ec]; exact h.children, by rw [ec]; exact h.childZone, ?_, ?_, ?_, ?_⟩
        · rw [ep, List.map_append, ← h.parents]; rfl
        · rw [eo]; intro c; simp at c
        · intro _; exact ⟨id, by rw [eo]; simp, heq.symm⟩
        · rw [eo]; intro j hj
          rcases List.mem_append.mp hj with hj | hj
          · exact h.max j hj
          · rw [List.mem_singleton.mp hj]; show _ ≤ st.longestParent.length; exact heq ▸ Nat.le_refl _
      · rw [if_neg heq]
        by_cases hsub : AtOrBelow st.longestParent (w.origin id)
        · rw [if_pos hsub]
          have hlt : st.longestParent.length < (w.origin id).length := by
            obtain ⟨r, hr⟩ := hsub
            rw [hr, List.length_append]
            rcases r with _ | ⟨a, r⟩
            · rw [List.append_nil] at hr; exact absurd hr.symm heq
            · simp
          have hmax : ∀ j ∈ outerZones w n (ids ++ [id]), (w.origin j).length ≤ (w.origin id).length := by
            rw [eo]; intro j hj
            rcases List.mem_append.mp hj with hj | hj
            · have := h.max j hj; omega
            · rw [List.mem_singleton.mp hj]
          have ep : parentZones w n (ids ++ [id]) = [id] := by
            rw [parentZones_eq (M := (w.origin id).length) ⟨id, by rw [eo]; simp, rfl⟩ hmax, eo, List.filter_append]
            have : (outerZones w n ids).filter (fun j => decide ((w.origin j).length = (w.origin id).length)) = [] := by
              rw [List.filter_eq_nil_iff]
              intro j hj hc
              have := h.max j hj
              have := of_decide_eq_true hc
              omega
            rw [this]; simp
          refine ⟨by rw [ec]; exact h.children, by rw [ec]; exact h.childZone, ?_, ?_, ?_, hmax⟩
          · rw [ep]; rfl
          · rw [eo]; intro c; simp at c
          · intro _; exact ⟨id, by rw [eo]; simp, rfl⟩
        · rw [if_neg hsub]
          have hlt : (w.origin id).length < st.longestParent.length := by
            by_contra hc
            exact hsub (shorter_prefix hkab hab (by omega))
          have hmax : ∀ j ∈ outerZones w n (ids ++ [id]), (w.origin j).length ≤ st.longestParent.length := by
            rw [eo]; intro j hj
            rcases List.mem_append.mp hj with hj | hj
            · exact h.max j hj
            · rw [List.mem_singleton.mp hj]; omega
          have ep : parentZones w n (ids ++ [id]) = parentZones w n ids := by
            rw [eold, parentZones_eq (M := st.longestParent.length) ⟨k, by rw [eo]; simp [hk], by rw [hko]⟩ hmax, eo, List.filter_append]
            simp; omega
          refine ⟨by rw [ec]; exact h.children, by rw [ec]; exact h.childZone, ?_, ?_, ?_, hmax⟩
          · rw [ep]; exact h.parents
          · rw [eo]; intro c; simp at c
          · intro _; exact ⟨k, by rw [eo]; simp [hk], hko⟩

theorem SInv.foldFrom (thr : Nat) (ps : List (Nat × Nat)) (hl : ∀ p ∈ ps, Located ctx w n p.1 p.2) : ∀ (pre : List Nat) (st : LGraph.SState),
    SInv w n pre st → InZones w n (pre ++ ps.map (·.1)) →
    ∃ st', ps.foldlM (LGraph.structStep thr ctx) st = .ok st' ∧ SInv w n (pre ++ ps.map (·.1)) st' := by
  induction ps with
  | nil => intro pre st h _; exact ⟨st, rfl, by simpa using h⟩
  | cons p ps ih =>
    intro pre st h hz
    have hz' : InZones w n (pre ++ [p.1]) := fun id hid => hz id (by simp at hid ⊢; rcases hid with h | h <;> simp [h])
    obtain ⟨st1, h1, h2⟩ := h.step thr (hl p (by simp)) hz'
    obtain ⟨st2, h3, h4⟩ := ih (fun q hq => hl q (by simp [hq])) (pre ++ [p.1]) st1 h2 (by simpa using hz)
    refine ⟨st2, ?_, by simpa using h4⟩
    rw [List.foldlM_cons, h1, Res.ok_bind]
    exact h3

theorem SInv.fold (thr : Nat) (ps : List (Nat × Nat)) (hl : ∀ p ∈ ps, Located ctx w n p.1 p.2) (hz : InZones w n (ps.map (·.1))) :
    ∃ st, ps.foldlM (LGraph.structStep thr ctx) {} = .ok st ∧ SInv w n (ps.map (·.1)) st :=
  SInv.foldFrom thr ps hl [] {} ⟨rfl, rfl, rfl, fun _ => rfl, fun h => absurd rfl h, fun j hj => by cases hj⟩ hz

/-- The comparison the code makes for a pair. -/
def kindOf (c : Comparison) : Nat := if c.roleA = "parent" then 0 else if c.roleA = "parent-a" then 1 else 2

theorem outputNS_eq (c : Comparison) (server : Nat → Str) :
    LGraph.outputNS (compareRRs c.ns.1 c.ns.2) (c.glue.map (fun g => compareRRs g.1 g.2)) (server c.a) (server c.b) c.roleA.toList c.roleB.toList =
      if c.Agrees then none else some (c.report server) := by
  unfold LGraph.outputNS
  dsimp only
  simp only [compareRRs_show]
  have hag : ∀ a b : List RR, ((compareRRs a b).2.1.isEmpty && (compareRRs a b).2.2.isEmpty) = decide (SameRecords a b) := by
    intro a b
    rw [Bool.eq_iff_iff]
    simp only [Bool.and_eq_true, List.isEmpty_iff, decide_eq_true_eq]
    exact compareRRs_diff_nil a b
  obtain ⟨ra, rb, a, b, ns, glue⟩ := c
  cases glue with
  | none =>
    simp only [hag, Option.map_none, Bool.and_true, Comparison.Agrees, Option.mem_def, reduceCtorEq, false_imp_iff, implies_true, and_true, decide_eq_true_eq]
    split <;> rfl
  | some g =>
    simp only [Option.map_some, compareRRs_show, hag, Comparison.Agrees, Option.mem_def, Option.some.injEq, forall_eq', Bool.and_eq_true, decide_eq_true_eq]
    split <;> rfl

theorem trimGlue_outer {ids : List Nat} {st : LGraph.SState} (h : SInv w n ids st) (id : Nat) :
    LGraph.trimGlue st.childZone (outerEntry w n id) = (id, some (parentGlue w n ids id), nsAt (w.log id) n) := by
  unfold LGraph.trimGlue outerEntry
  rw [h.childZone]
  unfold parentGlue
  by_cases hc : childZones w n ids = []
  · simp [hc]
  · simp only [if_neg hc]
    have hsub : ∀ r : RR, subDomainCheck n r.name = decide (AtOrBelow n r.name) := by
      intro r
      rw [Bool.eq_iff_iff, decide_eq_true_eq]
      exact subDomainCheck_iff _ _
    by_cases hn : n.length ≠ 0
    · rw [if_pos hn]
      simp [hsub, hc]
    · rw [if_neg hn]
      have : n = [] := by
        cases n with
        | nil => rfl
        | cons a n => simp at hn
      subst this
      simp [hc, AtOrBelow]

/-- All comparisons, as the code runs them. -/
theorem structural_pairs {ids : List Nat} {st : LGraph.SState} (h : SInv w n ids st) (hs : ∀ id ∈ ids, ctx.zoneNs.lookup id ≠ none) :
    let parents := st.parents.map (LGraph.trimGlue st.childZone)
    let children := st.children
    let jobs : List (Nat × LGraph.ZGN × LGraph.ZGN) :=
      (parents.flatMap (fun p => children.map (fun c => (0, p, c)))) ++
      (LGraph.allPairs parents).map (fun x => (1, x.1, x.2)) ++
      (LGraph.allPairs children).map (fun x => (2, x.1, x.2))
    jobs.foldlM (fun (acc : List PairDiff) j => do
      let r ← LGraph.comparePair ctx j.1 j.2.1 j.2.2
      .ok (acc ++ r.toList)) [] =
    .ok (((comparisons w n ids).filter (fun c => decide (¬ c.Agrees))).map (Comparison.report (fun id => (ctx.zoneNs.lookup id).getD []))) := by
  intro parents children jobs
  have hp : parents = (parentZones w n ids).map (fun id => (id, some (parentGlue w n ids id), nsAt (w.log id) n)) := by
    show st.parents.map _ = _
    rw [h.parents, List.map_map]
    apply List.map_congr_left
    intro id _
    exact trimGlue_outer h id
  have hc : children = (childZones w n ids).map (childEntry w n) := h.children
  have hpm : ∀ id ∈ parentZones w n ids, id ∈ ids := by
    intro id hid
    unfold parentZones outerZones at hid
    exact (List.mem_filter.mp (List.mem_filter.mp hid).1).1
  have hcm : ∀ id ∈ childZones w n ids, id ∈ ids := by
    intro id hid
    unfold childZones at hid
    exact (List.mem_filter.mp hid).1
  let F : Comparison → Nat × LGraph.ZGN × LGraph.ZGN := fun c =>
    if c.roleA = "parent" then (0, (c.a, some (parentGlue w n ids c.a), nsAt (w.log c.a) n), childEntry w n c.b)
    else if c.roleA = "parent-a" then (1, (c.a, some (parentGlue w n ids c.a), nsAt (w.log c.a) n), (c.b, some (parentGlue w n ids c.b), nsAt (w.log c.b) n))
    else (2, childEntry w n c.a, childEntry w n c.b)
  have hjobs : jobs = (comparisons w n ids).map F := by
    show parents.flatMap _ ++ _ ++ _ = _
    unfold comparisons
    rw [List.map_append, List.map_append, List.map_flatMap, hp, hc, pairsOf_eq, pairsOf_eq, pairsOf_map, pairsOf_map, List.flatMap_map]
    simp only [List.map_map]
    rfl
  have hrun : ∀ c ∈ comparisons w n ids, LGraph.comparePair ctx (F c).1 (F c).2.1 (F c).2.2 =
      .ok (if c.Agrees then none else some (c.report (fun id => (ctx.zoneNs.lookup id).getD []))) := by
    intro c hcm'
    unfold comparisons at hcm'
    rcases List.mem_append.mp hcm' with hcm' | hcm'
    · rcases List.mem_append.mp hcm' with hcm' | hcm'
      · obtain ⟨p, hp, hcm'⟩ := List.mem_flatMap.mp hcm'
        obtain ⟨d, hd, rfl⟩ := List.mem_map.mp hcm'
        obtain ⟨sa, hsa⟩ := Option.ne_none_iff_exists'.mp (hs p (hpm p hp))
        obtain ⟨sb, hsb⟩ := Option.ne_none_iff_exists'.mp (hs d (hcm d hd))
        rw [← outputNS_eq]
        simp only [F, if_true, LGraph.comparePair, childEntry]
        by_cases hn : NeedsGlue w n d
        · simp [hn, hsa, hsb]
        · simp [hn, hsa, hsb]
      · obtain ⟨x, hx, rfl⟩ := List.mem_map.mp hcm'
        obtain ⟨hx1, hx2⟩ := mem_pairsOf hx
        obtain ⟨sa, hsa⟩ := Option.ne_none_iff_exists'.mp (hs _ (hpm _ hx1))
        obtain ⟨sb, hsb⟩ := Option.ne_none_iff_exists'.mp (hs _ (hpm _ hx2))
        rw [← outputNS_eq]
        simp [F, LGraph.comparePair, hsa, hsb]
    · obtain ⟨x, hx, rfl⟩ := List.mem_map.mp hcm'
      obtain ⟨hx1, hx2⟩ := mem_pairsOf hx
      obtain ⟨sa, hsa⟩ := Option.ne_none_iff_exists'.mp (hs _ (hcm _ hx1))
      obtain ⟨sb, hsb⟩ := Option.ne_none_iff_exists'.mp (hs _ (hcm _ hx2))
      rw [← outputNS_eq]
      have hg : ∀ id, (childEntry w n id).2.1.getD [] = childGlue w n id := by
        intro id; unfold childEntry childGlue; split <;> rfl
      have h1 : ∀ id, (childEntry w n id).1 = id := fun _ => rfl
      have h2 : ∀ id, (childEntry w n id).2.2 = nsAt (w.log id) n := fun _ => rfl
      simp [F, LGraph.comparePair, hsa, hsb, hg, h1, h2]
  rw [hjobs]
  generalize comparisons w n ids = cs at hrun
  have key : ∀ acc : List PairDiff, (cs.map F).foldlM (fun (acc : List PairDiff) j => do
      let r ← LGraph.comparePair ctx j.1 j.2.1 j.2.2
      .ok (acc ++ r.toList)) acc =
      .ok (acc ++ (cs.filter (fun c => decide (¬ c.Agrees))).map (Comparison.report (fun id => (ctx.zoneNs.lookup id).getD []))) := by
    induction cs with
    | nil => intro acc; simp [pure]
    | cons c cs ih =>
      intro acc
      rw [List.map_cons, List.foldlM_cons, hrun c (by simp)]
      simp only [Res.ok_bind]
      rw [ih (fun c hc => hrun c (by simp [hc]))]
      by_cases ha : c.Agrees
      · simp [ha]
      · simp [ha]
  simpa using key []

end
end Groot
