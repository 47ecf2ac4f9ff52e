import Verif.Lemmas.Structural
import Verif.Props.Members

/-!
# C53: the structural delegation check
-/

namespace Groot
open Spec

private def rr (n : String) (t : RRType) (d : String) : RR :=
  { name := stringToLabels n.toList, type := t, cls := 1, ttl := 300, rdata := d.toList }

private def name (s : String) : Name := stringToLabels s.toList

/-- **C53** What the check reports for the node of a name `n`: nothing if no record of `n` is an NS record or all
comparisons agree; otherwise one violation that lists exactly the disagreeing pairs.  The zones compared are the ones
holding records of `n`. -/
theorem C53_structural (ctx : Context) (w : World) (hr : Represents ctx w) (xs : List (RR × Nat × Nat)) (hx : Registered ctx w xs)
    (thr thr' : Nat) (n : Name) (v : Nat) (hv : nodeOf (labelGraph thr' xs) n = some v) (domain : Str)
    (hz : InZones w n (zonesWith xs n)) :
    LGraph.structuralCheck thr (labelGraph thr' xs) ctx domain v = .ok (
      let bad := (comparisons w n (zonesWith xs n)).filter (fun c => decide (¬ c.Agrees))
      if (∃ x ∈ xs, x.1.name = n ∧ x.1.type = .NS) ∧ bad ≠ [] then
        [.structural domain (bad.map (Comparison.report (fun id => (ctx.zoneNs.lookup id).getD [])))] else []) := by
  obtain ⟨names, h⟩ := labelGraph_rep thr' xs
  have hnv := (nodeOf_iff h.inv n v).mp hv
  have hns : ((labelGraph thr' xs).vtx v).data.types.has .NS = true ↔ ∃ x ∈ xs, x.1.name = n ∧ x.1.type = .NS := by
    have := h.types v n hnv .NS
    unfold Member at this
    simp only [ne_eq, reduceCtorEq, not_false_eq_true, true_and] at this
    exact this
  unfold LGraph.structuralCheck
  dsimp only
  by_cases hN : ∃ x ∈ xs, x.1.name = n ∧ x.1.type = .NS
  · rw [if_pos (hns.mpr hN), h.zv v n hnv]
    obtain ⟨e1, e2⟩ := holders_spec hr hx n
    obtain ⟨st, h1, h2⟩ := SInv.fold thr (holders xs n) (fun p hp => (e2 p hp).1) (by rw [e1]; exact hz)
    rw [h1]
    simp only [Res.ok_bind]
    have h3 := structural_pairs (ctx := ctx) h2 (by
      intro id hid
      obtain ⟨p, hp, rfl⟩ := List.mem_map.mp hid
      exact (e2 p hp).2)
    dsimp only at h3
    rw [h3, e1]
    simp only [Res.ok_bind]
    by_cases hb : (comparisons w n (zonesWith xs n)).filter (fun c => decide (¬ c.Agrees)) = []
    · simp only [hb, ne_eq, not_true_eq_false, and_false, if_false]; rfl
    · have hne : ((comparisons w n (zonesWith xs n)).filter (fun c => decide (¬ c.Agrees))).map
          (Comparison.report (fun id => (ctx.zoneNs.lookup id).getD [])) ≠ [] := by
        rwa [Ne, List.map_eq_nil_iff]
      rw [if_neg (by rw [List.isEmpty_iff]; exact hne)]
      congr 1
      rw [if_pos ⟨hN, hb⟩]
  · rw [if_neg (fun c => hN (hns.mp c)), if_neg (fun c => hN c.1)]

/-- **C53** In words: a violation is reported iff `n` has NS data and some parent and child, two parents, or two children
disagree. -/
theorem C53_reported_iff (ctx : Context) (w : World) (hr : Represents ctx w) (xs : List (RR × Nat × Nat)) (hx : Registered ctx w xs)
    (thr thr' : Nat) (n : Name) (v : Nat) (hv : nodeOf (labelGraph thr' xs) n = some v) (domain : Str)
    (hz : InZones w n (zonesWith xs n)) :
    let ids := zonesWith xs n
    let P := parentZones w n ids
    let C := childZones w n ids
    let ns := fun id => nsAt (w.log id) n
    LGraph.structuralCheck thr (labelGraph thr' xs) ctx domain v ≠ .ok [] ↔
      (∃ x ∈ xs, x.1.name = n ∧ x.1.type = .NS) ∧
      ((∃ p ∈ P, ∃ c ∈ C, ¬ SameRecords (ns p) (ns c) ∨ NeedsGlue w n c ∧ ¬ SameRecords (parentGlue w n ids p) (addressesFor w n c)) ∨
       (∃ x ∈ pairsOf P, ¬ SameRecords (ns x.1) (ns x.2) ∨ ¬ SameRecords (parentGlue w n ids x.1) (parentGlue w n ids x.2)) ∨
       (∃ x ∈ pairsOf C, ¬ SameRecords (ns x.1) (ns x.2) ∨ ¬ SameRecords (childGlue w n x.1) (childGlue w n x.2))) := by
  intro ids P C ns
  rw [C53_structural ctx w hr xs hx thr thr' n v hv domain hz]
  have key : ((comparisons w n ids).filter (fun c => decide (¬ c.Agrees)) ≠ []) ↔ ∃ c ∈ comparisons w n ids, ¬ c.Agrees := by
    rw [Ne, List.filter_eq_nil_iff]; simp
  have hc : ∀ c, c ∈ comparisons w n ids ↔
      (∃ p ∈ P, ∃ d ∈ C, c = ⟨"parent", "child", p, d, (ns p, ns d), if NeedsGlue w n d then some (parentGlue w n ids p, addressesFor w n d) else none⟩) ∨
      (∃ x ∈ pairsOf P, c = ⟨"parent-a", "parent-b", x.1, x.2, (ns x.1, ns x.2), some (parentGlue w n ids x.1, parentGlue w n ids x.2)⟩) ∨
      (∃ x ∈ pairsOf C, c = ⟨"child-a", "child-b", x.1, x.2, (ns x.1, ns x.2), some (childGlue w n x.1, childGlue w n x.2)⟩) := by
    intro c
    unfold comparisons
    simp only [List.mem_append, List.mem_flatMap, List.mem_map, eq_comm (b := c), or_assoc]
    rfl
  have hag : ∀ (g : List RR × List RR) (a b : List RR), (SameRecords a b ∧ ∀ y ∈ some g, SameRecords y.1 y.2) ↔ (SameRecords a b ∧ SameRecords g.1 g.2) := by
    intro g a b; simp
  constructor
  · intro h
    by_cases hcond : (∃ x ∈ xs, x.1.name = n ∧ x.1.type = .NS) ∧ (comparisons w n ids).filter (fun c => decide (¬ c.Agrees)) ≠ []
    · refine ⟨hcond.1, ?_⟩
      obtain ⟨c, hcm, hca⟩ := key.mp hcond.2
      rcases (hc c).mp hcm with ⟨p, hp, d, hd, rfl⟩ | ⟨x, hx, rfl⟩ | ⟨x, hx, rfl⟩
      · refine Or.inl ⟨p, hp, d, hd, ?_⟩
        by_contra hno
        push Not at hno
        refine hca ⟨hno.1, ?_⟩
        intro g hg
        by_cases hn : NeedsGlue w n d
        · simp only [hn, if_true, Option.mem_def, Option.some.injEq] at hg
          rw [← hg]; exact hno.2 hn
        · simp [hn] at hg
      · refine Or.inr (Or.inl ⟨x, hx, ?_⟩)
        by_contra hno
        push Not at hno
        exact hca ((hag _ _ _).mpr hno)
      · refine Or.inr (Or.inr ⟨x, hx, ?_⟩)
        by_contra hno
        push Not at hno
        exact hca ((hag _ _ _).mpr hno)
    · exact absurd (congrArg Res.ok (if_neg hcond)) h
  · rintro ⟨hN, h⟩
    have hb : (comparisons w n ids).filter (fun c => decide (¬ c.Agrees)) ≠ [] := by
      rw [key]
      rcases h with ⟨p, hp, d, hd, h⟩ | ⟨x, hx, h⟩ | ⟨x, hx, h⟩
      · refine ⟨_, (hc _).mpr (Or.inl ⟨p, hp, d, hd, rfl⟩), ?_⟩
        rintro ⟨h1, h2⟩
        rcases h with h | ⟨hn, h⟩
        · exact h h1
        · exact h (h2 (parentGlue w n ids p, addressesFor w n d) (by simp [hn]))
      · refine ⟨_, (hc _).mpr (Or.inr (Or.inl ⟨x, hx, rfl⟩)), ?_⟩
        intro ha
        have := (hag _ _ _).mp ha
        rcases h with h | h
        · exact h this.1
        · exact h this.2
      · refine ⟨_, (hc _).mpr (Or.inr (Or.inr ⟨x, hx, rfl⟩)), ?_⟩
        intro ha
        have := (hag _ _ _).mp ha
        rcases h with h | h
        · exact h this.1
        · exact h this.2
    intro hcon
    have h1 := (congrArg Res.ok (if_pos (⟨hN, hb⟩ : _ ∧ _))).symm.trans hcon
    cases h1

/-- **C53** The check is run for exactly the known names at or below the domain (and shorter than 253 bytes), each under
its own name. -/
theorem C53_tasks (thr : Nat) (xs : List (RR × Nat × Nat)) (hr : Regular (xs.map (·.1))) (hd : ∀ x ∈ xs, x.1.type ≠ .DNAME)
    (job : LGraph.Req) (hj : OnExisting xs job) (fuel : Nat) (g' : LGraph) (ts : List Task)
    (hts : LGraph.generateECs fuel (labelGraph thr xs) job = .ok (g', ts)) (v : Nat) (domain : Str) :
    Task.structural v domain ∈ ts ↔ job.structural = true ∧ ∃ n, AtOrBelow (stringToLabels job.domain) n ∧ Known (xs.map (·.1)) n ∧
      octets n < 253 ∧ nodeOf (labelGraph thr xs) n = some v ∧ domain = labelsToString n := by
  obtain ⟨names, h⟩ := labelGraph_rep thr xs
  obtain ⟨ts', h1, h2⟩ := h.generate_full hr job (Nat.le_refl _) ((lengthCheck_iff _).mpr hj.short) hj.sub hj.found
  have hEq : ts' = ts := by
    have := mono_agree (f := fun n => LGraph.generateECs n (labelGraph thr xs) job) (fun n r => generateECs_mono n _ _ r) h1 hts
    simp at this; exact this.2
  subst hEq
  have hd' := no_dname_records hd
  have hk0 : ∀ k0, Matches (xs.map (·.1)) (stringToLabels job.domain) k0 (stringToLabels job.domain).length → k0 = stringToLabels job.domain := by
    intro k0 hk
    obtain ⟨e, ⟨r, hr⟩, _⟩ := (matches_plain hd').mp hk
    have : r = [] := by
      have := congrArg List.length hr
      rw [List.length_append] at this
      exact List.length_eq_zero_iff.mp (by omega)
    rw [this, List.append_nil] at hr
    exact hr.symm
  rw [h2]
  unfold TaskOf
  constructor
  · rintro ⟨k0, hk, ⟨_, _, _, _, _, h5⟩ | ⟨hs, rest, u, h3, h4, h5, h6⟩⟩
    · rcases h5 with ⟨_, h5⟩ | h5 <;> cases h5
    · rw [hk0 k0 hk] at h3 h5
      cases h6
      exact ⟨hs, _, ⟨rest, rfl⟩, h3, h4, h5, rfl⟩
  · rintro ⟨hs, n, ⟨rest, rfl⟩, h3, h4, h5, rfl⟩
    obtain ⟨k0, hk⟩ := hj.found
    have := hk0 k0 hk
    subst this
    exact ⟨_, hk, Or.inr ⟨hs, rest, v, h3, h4, h5, rfl⟩⟩

/-! ### A concrete case -/

/-- `com` delegates `sub.com` to two servers; the child lists one of them, with another address. -/
def structWorld : World where
  zones := [(0, [rr "com." .SOA "x", rr "sub.com." .NS "ns.sub.com.", rr "ns.sub.com." .A "1.1.1.1", rr "sub.com." .NS "ns.org."]),
    (1, [rr "sub.com." .SOA "x", rr "sub.com." .NS "ns.sub.com.", rr "ns.sub.com." .A "2.2.2.2"])]
  nsZones := [("s.".toList, [0]), ("ns.sub.com.".toList, [1])]
  top := ["s.".toList]

def structCtx : Context where
  nsZones := structWorld.nsZones
  top := structWorld.top
  zoneNs := [(0, "s.".toList), (1, "ns.sub.com.".toList)]
  zones := structWorld.zones.map (fun p => (p.1, Zone.afterAdds 500 p.1 p.2))

def structRecords : List (RR × Nat × Nat) :=
  [(rr "com." .SOA "x", 0, 1), (rr "sub.com." .NS "ns.sub.com.", 0, 2), (rr "ns.sub.com." .A "1.1.1.1", 0, 3), (rr "sub.com." .NS "ns.org.", 0, 2),
   (rr "sub.com." .SOA "x", 1, 2), (rr "sub.com." .NS "ns.sub.com.", 1, 2), (rr "ns.sub.com." .A "2.2.2.2", 1, 3)]

theorem structRecords_registered : Registered structCtx structWorld structRecords where
  stored := by decide +kernel
  all := by
    intro id r hr
    have : ∀ p ∈ structWorld.zones, ∀ r ∈ stored p.2, ∃ v ∈ [1, 2, 3], (r, p.1, v) ∈ structRecords := by decide +kernel
    unfold World.log at hr
    rcases hl : structWorld.zones.lookup id with _ | rs
    · simp [hl, stored] at hr
    · rw [hl] at hr
      obtain ⟨p1, p2, hp⟩ := List.lookup_eq_some_iff.mp hl
      obtain ⟨v, _, hv⟩ := this (id, rs) (by rw [hp.1]; simp) r hr
      exact ⟨v, hv⟩
  vertex := by
    have : ∀ x ∈ structRecords, (structCtx.zones.lookup x.2.1).map (fun z => z.ancestor 500 x.1.name) = some (x.2.2, x.1.name.length) := by decide +kernel
    intro x hx
    have := this x hx
    rcases hl : structCtx.zones.lookup x.2.1 with _ | z
    · rw [hl] at this; cases this
    · rw [hl] at this
      exact ⟨z, rfl, 500, by simpa using this⟩
  server := by decide +kernel

example : Represents structCtx structWorld ∧ InZones structWorld (name "sub.com.") (zonesWith structRecords (name "sub.com.")) :=
  ⟨represents_of (thr := 500) rfl rfl rfl, by unfold InZones; decide +kernel⟩

/-- The NS sets differ, and so does the glue for the server in the child's domain; the glueless server outside does not
enter into the comparison of glue. -/
def structReport : Option PairDiff :=
  match nodeOf (labelGraph 500 structRecords) (name "sub.com.") with
  | some v => (match LGraph.structuralCheck 500 (labelGraph 500 structRecords) structCtx "sub.com.".toList v with
    | .ok [.structural _ [p]] => some p
    | _ => none)
  | none => none

example : structReport.map (fun p => (p.roleA, p.serverB)) = some ("parent".toList, "ns.sub.com.".toList) ∧
    structReport.map (fun p => (p.nsDiff.2.1.length, p.nsDiff.2.2.length)) = some (1, 0) ∧
    structReport.map (fun p => p.glueDiff.map (fun x => (x.2.1.length, x.2.2.length))) = some (some (1, 1)) := by decide +kernel

end Groot
