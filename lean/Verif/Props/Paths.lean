import Verif.Lemmas.Paths

/-!
# C36, C37: loop reports and path enumeration

The theorems hold for every sane graph (`Sane`; C38 shows that every graph the program builds is sane), whatever
cycles it contains, and for every recursion budget larger than the number of nodes.
-/

namespace Groot
open Spec

/-- A graph with a cycle that is only closed by a side query (1 → 2, whose address query starts at 3, which leads
back to 1), and with a path 0 → 1 → 2. -/
def cyclicIG : IG :=
  let q (s : String) : EC := { name := stringToLabels s.toList, types := TypeSet.single .A }
  { verts := [
      { ns := [], query := q "example.com" },
      { ns := "a.root.".toList, query := q "example.com", answer := some [⟨.REF, TypeSet.single .NS, []⟩] },
      { ns := "b.".toList, query := q "example.com", answer := some [⟨.NX, TypeSet.single .A, []⟩] },
      { ns := [], query := q "b" }],
    edges := [⟨0, 1, none⟩, ⟨1, 2, some 3⟩, ⟨3, 1, none⟩], nsMap := [] }

theorem answers_sane (g : IG) (h : ∀ x ∈ g.verts, x.answer ≠ some []) : ∀ v, (g.vtx v).answer ≠ some [] := by
  intro v
  unfold IG.vtx
  rcases Nat.lt_or_ge v g.verts.length with hv | hv
  · have e : g.verts.getD v default = g.verts[v] := by simp [hv]
    rw [e]; exact h _ (List.getElem_mem hv)
  · have e : g.verts.getD v default = default := by simp [hv]
    rw [e]; decide

theorem rewrites_sane (g : IG) (h : ∀ x ∈ g.verts, (x.answer.bind List.head?).map (·.tag) ≠ some .REWRITE ∨
    ((x.answer.bind List.head?).map (·.rrs)).getD [] ≠ []) : ∀ v, Answers g v .REWRITE → ansRecords g v ≠ [] := by
  intro v ha
  rcases Nat.lt_or_ge v g.verts.length with hv | hv
  · have e : g.vtx v = g.verts[v] := by simp [IG.vtx, hv]
    unfold Answers firstAns at ha
    unfold ansRecords firstAns
    rw [e] at ha ⊢
    rcases h _ (List.getElem_mem hv) with h | h
    · exact absurd ha h
    · exact h
  · have e : g.vtx v = default := by simp [IG.vtx, hv]
    unfold Answers firstAns at ha
    rw [e] at ha
    exact absurd ha (by decide)

theorem cyclicIG_sane : Sane cyclicIG :=
  ⟨by decide +kernel, by decide +kernel, by decide +kernel, answers_sane _ (by decide +kernel),
    rewrites_sane _ (by decide +kernel)⟩

theorem chain_reaches {g : IG} {v0 : Nat} (q : List Nat) (h : List.IsChain (Dep g) (v0 :: q)) :
    ∀ y ∈ v0 :: q, Reaches g v0 y := by
  induction q generalizing v0 with
  | nil => intro y hy; rw [List.mem_singleton.mp hy]; exact Relation.ReflTransGen.refl
  | cons w q ih =>
    rw [List.isChain_cons_cons] at h
    intro y hy
    rcases List.mem_cons.mp hy with rfl | hy
    · exact Relation.ReflTransGen.refl
    · exact Relation.ReflTransGen.head h.1 (ih h.2 y hy)

/-- **C36** Loop detection finishes, and a loop is reported iff a cycle of dependencies is reachable from the start
node. -/
theorem C36_loop_iff (g : IG) (hg : Sane g) (v0 : Nat) (hv : v0 < g.verts.length) (fuel : Nat)
    (hf : g.verts.length < fuel) :
    ∃ r, g.checkLoops fuel v0 [] = .ok r ∧ (r.isSome ↔ ∃ v, Reaches g v0 v ∧ Relation.TransGen (Dep g) v v) := by
  obtain ⟨r, h1, h2, h3⟩ := checkLoops_spec hg fuel v0 [] hv (by simp) (by simp) (by simp) (by simpa using hf)
  refine ⟨r, h1, ?_⟩
  constructor
  · intro hs
    obtain ⟨x, hx⟩ := Option.isSome_iff_exists.mp hs
    obtain ⟨c, ⟨y, c', rfl, hc⟩, _, _, q, hq, hsub⟩ := h3 x hx
    refine ⟨y, ?_, ?_⟩
    · exact chain_reaches q (by simpa using hq) y (hsub (by simp))
    · cases c' with
      | nil =>
        simp only [List.cons_append, List.nil_append, List.isChain_cons_cons] at hc
        exact Relation.TransGen.single hc.1
      | cons z c' =>
        simp only [List.cons_append, List.isChain_cons_cons] at hc
        have := List.relationReflTransGen_of_exists_isChain_cons (a := z) (c' ++ [y]) hc.2 (b := y) (by simp)
        exact Relation.TransGen.head' hc.1 this
  · rintro ⟨v, hr, ht⟩
    cases r with
    | some x => rfl
    | none =>
      exfalso
      obtain ⟨l1, c1, e1⟩ := List.exists_isChain_cons_of_relationReflTransGen hr
      obtain ⟨w, hw, ht⟩ := Relation.TransGen.head'_iff.mp ht
      obtain ⟨l2, c2, e2⟩ := List.exists_isChain_cons_of_relationReflTransGen ht
      have hch : List.IsChain (Dep g) ((v0 :: l1) ++ (w :: l2)) := by
        rw [List.isChain_append]
        refine ⟨c1, c2, ?_⟩
        intro x hx y hy
        rw [List.getLast?_eq_some_getLast (by simp)] at hx
        simp at hx hy
        rw [e1] at hx
        subst hx; subst hy
        exact hw
      have hnd := h2 rfl (l1 ++ w :: l2) (by simpa using hch)
      rw [List.nil_append, ← List.cons_append] at hnd
      have hv1 : v ∈ v0 :: l1 := by rw [← e1]; exact List.getLast_mem _
      have hv2 : v ∈ w :: l2 := by rw [← e2]; exact List.getLast_mem _
      exact (List.nodup_append.mp hnd).2.2 v hv1 v hv2 rfl

/-- **C36** What is reported is a cycle, without repetition, all of whose nodes are reachable from the start node. -/
theorem C36_loop_report (g : IG) (hg : Sane g) (v0 : Nat) (hv : v0 < g.verts.length) (fuel : Nat)
    (hf : g.verts.length < fuel) (x : Violation) (hx : g.checkLoops fuel v0 [] = .ok (some x)) :
    ∃ c, IsCycle g c ∧ c.Nodup ∧ x = .loop (c.map (shownNode g)) ∧ ∀ v ∈ c, Reaches g v0 v := by
  obtain ⟨r, h1, _, h3⟩ := checkLoops_spec hg fuel v0 [] hv (by simp) (by simp) (by simp) (by simpa using hf)
  rw [h1] at hx
  cases hx
  obtain ⟨c, a1, a2, a3, q, hq, hsub⟩ := h3 x rfl
  refine ⟨c, a1, a2, a3, fun y hy => ?_⟩
  exact chain_reaches q (by simpa using hq) y (hsub hy)

example : Sane cyclicIG ∧ cyclicIG.checkLoops 5 0 [] = .ok (some (.loop [
      ⟨"a.root.".toList, "example.com.".toList, some .REF⟩, ⟨[], "b.".toList, none⟩])) :=
  ⟨cyclicIG_sane, by decide +kernel⟩

/-- **C37** Enumeration finishes on every graph; the paths it hands to the path checks are exactly the maximal
repetition-free paths from the start node and the walks to CNAME stops; the end nodes are exactly the last nodes of
those paths, each once. -/
theorem C37_enumeration (g : IG) (hg : Sane g) (v0 : Nat) (hv : v0 < g.verts.length) (fuel : Nat)
    (hf : g.verts.length < fuel) :
    ∃ s, g.enumerate fuel v0 [] {} = .ok s ∧
      (∀ p, p ∈ s.paths ↔ MaximalPath g v0 p ∨ CnamePath g v0 p) ∧
      s.ends.Nodup ∧ ∀ v, v ∈ s.ends ↔ ∃ p ∈ s.paths, p.getLast? = some v := by
  obtain ⟨s, h1, h2⟩ := enumerate_spec hg fuel v0 [] {} hv (by simp) (by simp) (by simpa using hf)
  obtain ⟨L, hL1, hL2⟩ := h2.paths
  have hp : s.paths = L := by rw [hL1]; rfl
  refine ⟨s, h1, ?_, h2.nodup (by simp), ?_⟩
  · intro p
    rw [hp, hL2]
    unfold EnumSpec MaximalPath CnamePath WalkFrom
    simp only [List.nil_append]
    constructor
    · rintro ⟨r, rfl, hch, h | h⟩
      · exact Or.inl ⟨⟨rfl, hch⟩, h⟩
      · exact Or.inr ⟨⟨rfl, hch⟩, h⟩
    · rintro (⟨⟨hh, hch⟩, h⟩ | ⟨⟨hh, hch⟩, h⟩)
      · cases p with
        | nil => simp at hh
        | cons x r => simp at hh; subst hh; exact ⟨r, rfl, hch, Or.inl h⟩
      · cases p with
        | nil => simp at hh
        | cons x r => simp at hh; subst hh; exact ⟨r, rfl, hch, Or.inr h⟩
  · intro v
    rw [h2.ends, hp]
    simp [hL2]

/-- **C37** Only nodes without successors and CNAME stops are end nodes. -/
theorem C37_end_nodes (g : IG) (hg : Sane g) (v0 : Nat) (hv : v0 < g.verts.length) (fuel : Nat)
    (hf : g.verts.length < fuel) (s : IG.Enum) (hs : g.enumerate fuel v0 [] {} = .ok s) (v : Nat) (h : v ∈ s.ends) :
    (∀ w, ¬ Edge g v w) ∨ CnameStop g v := by
  obtain ⟨s', h1, h2, _, h4⟩ := C37_enumeration g hg v0 hv fuel hf
  rw [h1] at hs
  cases hs
  obtain ⟨p, hp, hl⟩ := (h4 v).mp h
  rcases (h2 p).mp hp with ⟨_, _, l, hl', hno⟩ | ⟨_, _, l, hl', hc⟩
  · rw [hl] at hl'; cases hl'; exact Or.inl hno
  · rw [hl] at hl'; cases hl'; exact Or.inr hc

example : cyclicIG.enumerate 5 0 [] {} = .ok ⟨[2], [[0, 1, 2]]⟩ := by decide +kernel

/-- A graph in which a CNAME rewrite leads back to itself, with CNAME requested. -/
def cnameIG : IG :=
  let q : EC := { name := stringToLabels "a.com".toList, types := TypeSet.single .CNAME }
  let cn : RR := { name := stringToLabels "a.com".toList, type := .CNAME, cls := 1, ttl := 1, rdata := "a.com.".toList }
  { verts := [{ ns := [], query := q },
      { ns := "s.".toList, query := q, answer := some [⟨.REWRITE, TypeSet.single .CNAME, [cn]⟩] }],
    edges := [⟨0, 1, none⟩, ⟨1, 1, none⟩], nsMap := [] }

/-- **C37** (disagreement with "repetition-free") A CNAME walk handed to the checks may visit its last node twice. -/
theorem C37_disagreement_repeated_node : cnameIG.enumerate 3 0 [] {} = .ok ⟨[1], [[0, 1], [0, 1, 1]]⟩ := by
  decide +kernel

end Groot
