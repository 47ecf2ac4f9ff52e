import Verif.Lemmas.Budget

/-!
# C22–C26, C29: the label graph and the generated equivalence classes

The label graph is `labelGraph thr xs`, built by adding the records `xs` (each with the zone and vertex it was stored
at) to the empty graph; `xs` is arbitrary.  `Known`, `Matches` and `Visits` (Spec/Labels.lean) describe names only.
-/

namespace Groot
open Spec

/-! ### Concrete label graphs -/

private def rr (n : String) (t : RRType) (d : String) : RR :=
  { name := stringToLabels n.toList, type := t, cls := 1, ttl := 300, rdata := d.toList }

private def name (s : String) : Name := stringToLabels s.toList

/-- Records without DNAMEs. -/
def plainRecords : List (RR × Nat × Nat) :=
  [(rr "com." .SOA "x", 0, 1), (rr "a.com." .A "1.1.1.1", 0, 2), (rr "*.b.com." .TXT "t", 0, 3), (rr "x.y.com." .A "1.1.1.1", 0, 4)]

/-- Records with two DNAMEs that send each other around in a circle, and one leading elsewhere. -/
def dnameRecords : List (RR × Nat × Nat) :=
  [(rr "com." .SOA "x", 0, 1), (rr "a.com." .DNAME "b.com.", 0, 2), (rr "b.com." .DNAME "a.com.", 0, 3),
   (rr "d.com." .DNAME "org.", 0, 4), (rr "www.org." .A "1.1.1.1", 1, 1), (rr "x.b.com." .A "1.1.1.1", 0, 5)]

theorem regular_of (rs : List RR) (h : ∀ r ∈ rs, ['.'] ∉ r.name ∧
    (r.type = .DNAME → ['.'] ∉ stringToLabels r.rdata ∧ r.name ≠ [])) : Regular rs := by
  constructor
  · intro n hn hc
    rcases hn with rfl | ⟨r, hr, _, ⟨x, hx⟩ | ⟨hd, x, hx⟩⟩
    · cases hc
    · exact (h r hr).1 (by rw [hx]; simp [hc])
    · exact ((h r hr).2 hd).1 (by rw [hx]; simp [hc])
  · rintro t ⟨r, hr, hd, hn, _⟩
    exact ((h r hr).2 hd).2 hn

theorem plain_regular : Regular (plainRecords.map (·.1)) := regular_of _ (by decide +kernel)
theorem dname_regular : Regular (dnameRecords.map (·.1)) := regular_of _ (by decide +kernel)

/-! ### C22, C23 -/

/-- C22: in every label graph, `nodeOf` gives the vertex the tree edges lead to, at most one for a name; and the names with a vertex are the known
names. -/
theorem C22_nodes (thr : Nat) (xs : List (RR × Nat × Nat)) (n : Name) :
    (∀ v, nodeOf (labelGraph thr xs) n = some v ↔ TreePath (labelGraph thr xs) n v) ∧
      ((∃ v, TreePath (labelGraph thr xs) n v) ↔ Known (xs.map (·.1)) n) := by
  obtain ⟨names, h⟩ := labelGraph_rep thr xs
  have hi := h.inv
  have key : ∀ n v, names[v]? = some n ↔ TreePath (labelGraph thr xs) n v := by
    intro n v
    constructor
    · intro hv
      induction n using List.reverseRecOn generalizing v with
      | nil => rw [Trie.name_inj hi.nodup hv hi.root]; exact .root
      | append_singleton n l ih =>
        obtain ⟨u, hu, he⟩ := hi.parent v n l hv
        have h1 := (hi.edge u v n hu he).1
        have hl : l = ((labelGraph thr xs).vtx v).label := by
          rw [hv] at h1
          have := Option.some.inj h1
          exact (List.append_inj' this rfl).2 |> (fun e => (List.cons.inj e).1)
        have hu' : (labelGraph thr xs).verts[u]? = some ((labelGraph thr xs).vtx u) := by
          have : u < (labelGraph thr xs).verts.length := by rw [← hi.len]; exact Trie.name_lt hu
          unfold Trie.vtx; simp [List.getD_eq_getElem?_getD, this]
        have hv' : (labelGraph thr xs).verts[v]? = some ((labelGraph thr xs).vtx v) := by
          have : v < (labelGraph thr xs).verts.length := by rw [← hi.len]; exact Trie.name_lt hv
          unfold Trie.vtx; simp [List.getD_eq_getElem?_getD, this]
        rw [hl]
        exact .down n u v _ _ (ih u hu) hu' he hv'
    · intro hp
      induction hp with
      | root => exact hi.root
      | down n v u x y hp hx he hy ih =>
        have hx' : x = (labelGraph thr xs).vtx v := by unfold Trie.vtx; simp [List.getD_eq_getElem?_getD, hx]
        have hy' : y = (labelGraph thr xs).vtx u := by unfold Trie.vtx; simp [List.getD_eq_getElem?_getD, hy]
        rw [hy']
        exact (hi.edge v u n ih (hx' ▸ he)).1
  refine ⟨fun v => (nodeOf_iff hi n v).trans (key n v), ?_⟩
  rw [← h.known n]
  constructor
  · rintro ⟨v, hv⟩; exact List.mem_of_getElem? ((key n v).mpr hv)
  · intro hm
    obtain ⟨v, hv⟩ := List.getElem?_of_mem hm
    exact ⟨v, (key n v).mp hv⟩

example : ∃ v, TreePath (labelGraph 1000 dnameRecords) (name "x.b.com.") v := by
  rw [(C22_nodes 1000 dnameRecords _).2]; decide +kernel

/-- C22: the search terminates on every label graph, and gives back the graph unchanged; it returns at least one node;
all results have the same length `m`; the nodes returned are exactly those whose name stands for the first `m` labels
looked for (following DNAMEs); and no name stands for more labels. -/
theorem C22_search (thr : Nat) (xs : List (RR × Nat × Nat)) (labels : Name) :
    ∃ N es m, (∀ fuel, N ≤ fuel → LGraph.closestEnclosers fuel (labelGraph thr xs) labels = .ok (labelGraph thr xs, es)) ∧
      es ≠ [] ∧ (∀ x ∈ es, x.2 = ((m : Nat) : Int)) ∧
      (∀ v, v ∈ es.map (·.1) ↔ ∃ n, nodeOf (labelGraph thr xs) n = some v ∧ Matches (xs.map (·.1)) labels n m) ∧
      ∀ n k, Matches (xs.map (·.1)) labels n k → k ≤ m := by
  obtain ⟨names, h⟩ := labelGraph_rep thr xs
  obtain ⟨es, m, h1, h2, h3, h4, h5⟩ := h.search labels (Nat.le_refl _)
  refine ⟨_, es, m, fun fuel hf => mono_le (fun n r => searchNode_mono n _ _ _ _ r) hf h1, h2, fun x hx => (h3 x hx).1, ?_, h5⟩
  intro v
  rw [List.mem_map]
  constructor
  · rintro ⟨x, hx, rfl⟩
    obtain ⟨n, hn, hm⟩ := (h3 x hx).2
    exact ⟨n, (nodeOf_iff h.inv n x.1).mpr hn, hm⟩
  · rintro ⟨n, hn, hm⟩
    exact ⟨_, h4 v n ((nodeOf_iff h.inv n v).mp hn) hm, rfl⟩

/-- The search for a name below a DNAME loop. -/
example : (LGraph.closestEnclosers 1000 (labelGraph 500 dnameRecords) (name "z.x.a.com.")).isOk = true := by decide +kernel

theorem no_dname_edges {thr : Nat} {xs : List (RR × Nat × Nat)} {names : List Name} (h : LRep (labelGraph thr xs) names xs)
    (hd : ∀ x ∈ xs, x.1.type ≠ .DNAME) : ∀ v u, (EdgeType.dname, u) ∉ ((labelGraph thr xs).vtx v).edges := by
  intro v u hu
  rcases Nat.lt_or_ge v names.length with hv | hv
  · obtain ⟨t, _, r, hr, hrd, _⟩ := (h.dn v u _ (List.getElem?_eq_getElem hv)).mp hu
    obtain ⟨x, hx, rfl⟩ := List.mem_map.mp hr
    exact hd x hx hrd
  · rw [Trie.vtx_of_ge _ (by rw [← h.inv.len]; exact hv)] at hu; cases hu

theorem single_encloser {thr : Nat} {xs : List (RR × Nat × Nat)} {names : List Name} (h : LRep (labelGraph thr xs) names xs)
    (hd : ∀ x ∈ xs, x.1.type ≠ .DNAME) (labels : Name) {fuel : Nat} (hf : searchBudget (labelGraph thr xs) labels ≤ fuel) :
    ∃ v n, LGraph.closestEnclosers fuel (labelGraph thr xs) labels = .ok (labelGraph thr xs, [(v, (n.length : Int))]) ∧
      names[v]? = some n ∧ Known (xs.map (·.1)) n ∧ AtOrBelow n labels ∧
      ∀ n', Known (xs.map (·.1)) n' → AtOrBelow n' labels → n'.length ≤ n.length := by
  have hd' : ∀ r ∈ xs.map (·.1), r.type ≠ .DNAME := by
    intro r hr
    obtain ⟨x, hx, rfl⟩ := List.mem_map.mp hr
    exact hd x hx
  obtain ⟨es, m, h1, _, h3, _, h5⟩ := h.search labels hf
  have hlens : lens (labelGraph thr xs) = fun _ => -1 := by funext v; exact h.len v
  obtain ⟨w, k, _, rfl⟩ := search_single (inside h.inv) (no_dname_edges h hd) labels fuel (labelGraph thr xs) 0 0 es (Shape.refl _)
    (Nat.zero_le _) (by rw [← h.inv.len]; exact Trie.name_lt h.inv.root) (by intro u; rw [hlens]; simp) (by
      unfold smeasure
      unfold searchBudget at hf
      have := unmarked_le (labelGraph thr xs) 0
      rw [Nat.sub_zero]
      rw [Nat.add_mul, Nat.one_mul] at hf
      omega) h1
  obtain ⟨hk, n, hn, hm⟩ := h3 (w, (k : Int)) (by simp)
  simp only at hk hn
  have hkm : k = m := by omega
  obtain ⟨h6, h7, h8⟩ := (matches_plain hd').mp hm
  refine ⟨w, n, ?_, hn, h8, h7, ?_⟩
  · rw [h1, hkm, h6]
  · intro n' hn' hp'
    rw [← h6]
    exact h5 n' n'.length ((matches_plain hd').mpr ⟨rfl, hp', hn'⟩)

/-- C22 without DNAMEs: the single node of the longest known ancestor-or-self of the name. -/
theorem C22_no_dname (thr : Nat) (xs : List (RR × Nat × Nat)) (hd : ∀ x ∈ xs, x.1.type ≠ .DNAME) (labels : Name) :
    ∃ N v n, (∀ fuel, N ≤ fuel → LGraph.closestEnclosers fuel (labelGraph thr xs) labels =
        .ok (labelGraph thr xs, [(v, (n.length : Int))])) ∧
      nodeOf (labelGraph thr xs) n = some v ∧ Known (xs.map (·.1)) n ∧ AtOrBelow n labels ∧
      ∀ n', Known (xs.map (·.1)) n' → AtOrBelow n' labels → n'.length ≤ n.length := by
  obtain ⟨names, h⟩ := labelGraph_rep thr xs
  obtain ⟨v, n, h1, h2, h3⟩ := single_encloser h hd labels (Nat.le_refl _)
  exact ⟨_, v, n, fun fuel hf => mono_le (fun n r => searchNode_mono n _ _ _ _ r) hf h1, (nodeOf_iff h.inv n v).mpr h2, h3⟩

example : ∀ x ∈ plainRecords, x.1.type ≠ .DNAME := by decide +kernel
example : LGraph.closestEnclosers 1000 (labelGraph 500 plainRecords) (name "q.r.y.com.") =
    .ok (labelGraph 500 plainRecords, [(5, 2)]) ∧ nodeOf (labelGraph 500 plainRecords) (name "y.com.") = some 5 := by decide +kernel

/-- C22: class generation never ends in one of its fatal exits, and never runs forever. -/
theorem C22_generation_never_aborts (thr : Nat) (xs : List (RR × Nat × Nat)) (job : LGraph.Req) :
    ∃ N ts, ∀ fuel, N ≤ fuel → LGraph.generateECs fuel (labelGraph thr xs) job = .ok (labelGraph thr xs, ts) := by
  obtain ⟨names, h⟩ := labelGraph_rep thr xs
  obtain ⟨ts, h1, _⟩ := h.generate job (Nat.le_refl _)
  exact ⟨_, ts, fun fuel hf => mono_le (fun n r => generateECs_mono n _ _ r) hf h1⟩

/-- C23: a search, repeated after any number of other searches and class generations, gives the same result: each of
them gives back the very graph it was given. -/
theorem C23_no_trace (thr : Nat) (xs : List (RR × Nat × Nat)) (labels : Name) (fuel : Nat) (g' : LGraph) (es : List (Nat × Int))
    (h : LGraph.closestEnclosers fuel (labelGraph thr xs) labels = .ok (g', es)) : g' = labelGraph thr xs := by
  obtain ⟨N, es', m, h1, _⟩ := C22_search thr xs labels
  have h2 := h1 (max N fuel) (le_max_left _ _)
  have h3 := mono_le (f := fun n => LGraph.closestEnclosers n (labelGraph thr xs) labels) (fun n r => searchNode_mono n _ _ _ _ r) (le_max_right N fuel) h
  simp only [h2, Res.ok.injEq, Prod.mk.injEq] at h3
  exact h3.1.symm

/-- C23: the same for class generation. -/
theorem C23_generation_no_trace (thr : Nat) (xs : List (RR × Nat × Nat)) (job : LGraph.Req) (fuel : Nat) (g' : LGraph) (ts : List Task)
    (h : LGraph.generateECs fuel (labelGraph thr xs) job = .ok (g', ts)) : g' = labelGraph thr xs := by
  obtain ⟨N, ts', h1⟩ := C22_generation_never_aborts thr xs job
  have h2 := h1 (max N fuel) (le_max_left _ _)
  have h3 := mono_le (f := fun n => LGraph.generateECs n (labelGraph thr xs) job) (fun n r => generateECs_mono n _ _ r) (le_max_right N fuel) h
  simp only [h2, Res.ok.injEq, Prod.mk.injEq] at h3
  exact h3.1.symm

/-- C23: the search terminates. -/
theorem C23_terminates (thr : Nat) (xs : List (RR × Nat × Nat)) (labels : Name) :
    ∃ N es, ∀ fuel, N ≤ fuel → LGraph.closestEnclosers fuel (labelGraph thr xs) labels = .ok (labelGraph thr xs, es) := by
  obtain ⟨N, es, _, h, _⟩ := C22_search thr xs labels
  exact ⟨N, es, h⟩

/-- A search through a DNAME loop that really marks nodes on the way. -/
example : (LGraph.closestEnclosers 3 (labelGraph 500 dnameRecords) (name "x.a.com.")) = .oof ∧
    (LGraph.closestEnclosers 40 (labelGraph 500 dnameRecords) (name "z.x.a.com.")).isOk = true := by decide +kernel

/-! ### C24 -/

/-- The job asks for all names under an existing domain of legal length. -/
structure OnExisting (xs : List (RR × Nat × Nat)) (job : LGraph.Req) : Prop where
  short : Short (stringToLabels job.domain)
  sub : job.subdomains = true
  found : ∃ k, Matches (xs.map (·.1)) (stringToLabels job.domain) k (stringToLabels job.domain).length

/-- C24: the classes generated, exactly.  A name `n` at or below the domain gets an exact class if it is reached by
following labels and DNAMEs down from the domain; and for every known name `k` reached under the name `n` there is a
class of unknown names below `n`, with the requested types if `k` has a wildcard child, and marked non-existent
otherwise.  Only names shorter than 253 bytes are listed. -/
theorem C24_classes (thr : Nat) (xs : List (RR × Nat × Nat)) (hr : Regular (xs.map (·.1))) (job : LGraph.Req)
    (hj : OnExisting xs job) :
    ∃ N ts, (∀ fuel, N ≤ fuel → LGraph.generateECs fuel (labelGraph thr xs) job = .ok (labelGraph thr xs, ts)) ∧
      ∀ q, q ∈ classes ts ↔ ∃ k0 n k b, Matches (xs.map (·.1)) (stringToLabels job.domain) k0 (stringToLabels job.domain).length ∧
        Visits (xs.map (·.1)) (stringToLabels job.domain) k0 n k b ∧ octets n < 253 ∧
        (b = false ∧ q = exactClass n job.types ∨ q = belowClass (Known (xs.map (·.1)) (k ++ [['*']])) n job.types) := by
  obtain ⟨names, h⟩ := labelGraph_rep thr xs
  obtain ⟨ts, h1, h2⟩ := h.generate_full hr job (Nat.le_refl _) ((lengthCheck_iff _).mpr hj.short) hj.sub hj.found
  refine ⟨_, ts, fun fuel hf => mono_le (fun n r => generateECs_mono n _ _ r) hf h1, ?_⟩
  intro q
  rw [mem_classes, h2]
  unfold TaskOf
  constructor
  · rintro ⟨k0, hk0, ⟨n, k, b, h3, h4, h5⟩ | ⟨_, _, _, _, _, _, h5⟩⟩
    · refine ⟨k0, n, k, b, hk0, h3, h4, ?_⟩
      rcases h5 with ⟨h5, h6⟩ | h5
      · exact Or.inl ⟨h5, by simpa using h6⟩
      · exact Or.inr (by simpa using h5)
    · cases h5
  · rintro ⟨k0, n, k, b, hk0, h3, h4, h5⟩
    refine ⟨k0, hk0, Or.inl ⟨n, k, b, h3, h4, ?_⟩⟩
    rcases h5 with ⟨h5, h6⟩ | h5
    · exact Or.inl ⟨h5, by rw [h6]⟩
    · exact Or.inr (by rw [h5])

theorem visits_exact {rs : List RR} {n0 k0 n k : Name} {b : Bool} (h : Visits rs n0 k0 n k b) : ∃ k', Visits rs n0 k0 n k' false := by
  induction h with
  | start => exact ⟨_, .start⟩
  | down n k b l h hk _ => exact ⟨_, .down n k b l h hk⟩
  | redirect n k b t _ _ ih => exact ih

/-- C24: every name at or below the domain, shorter than 253 bytes, belongs to a class: its own, or the class of unknown
names below an ancestor `n`, where the next label is unknown at every known name reached under `n`. -/
theorem C24_coverage (thr : Nat) (xs : List (RR × Nat × Nat)) (hr : Regular (xs.map (·.1))) (job : LGraph.Req)
    (hj : OnExisting xs job) (fuel : Nat) (ts : List Task) (hts : LGraph.generateECs fuel (labelGraph thr xs) job = .ok (labelGraph thr xs, ts))
    (m : Name) (hm : AtOrBelow (stringToLabels job.domain) m) (hlen : octets m < 253) :
    exactClass m job.types ∈ classes ts ∨ ∃ n l rest, m = n ++ l :: rest ∧ AtOrBelow (stringToLabels job.domain) n ∧
      (∃ q ∈ classes ts, q.name = n ∧ q.excluded = some []) ∧
      ∀ k0 k b, Matches (xs.map (·.1)) (stringToLabels job.domain) k0 (stringToLabels job.domain).length →
        Visits (xs.map (·.1)) (stringToLabels job.domain) k0 n k b → ¬ Known (xs.map (·.1)) (k ++ [l]) := by
  obtain ⟨N, ts', h1, h2⟩ := C24_classes thr xs hr job hj
  have hEq : ts' = ts := by
    have := mono_agree (f := fun n => LGraph.generateECs n (labelGraph thr xs) job) (fun n r => generateECs_mono n _ _ r) (h1 N (Nat.le_refl _)) hts
    simpa using this
  subst hEq
  generalize hd : stringToLabels job.domain = dom at *
  let V : Name → Prop := fun n => ∃ k0 k b, Matches (xs.map (·.1)) dom k0 dom.length ∧ Visits (xs.map (·.1)) dom k0 n k b
  have hV : ∀ rest, V (dom ++ rest) ∨ ∃ n l r, dom ++ rest = n ++ l :: r ∧ AtOrBelow dom n ∧ V n ∧ ¬ V (n ++ [l]) := by
    intro rest
    induction rest using List.reverseRecOn with
    | nil =>
      left
      obtain ⟨k0, hk0⟩ := hj.found
      rw [hd] at hk0
      exact ⟨k0, k0, false, hk0, by rw [List.append_nil]; exact .start⟩
    | append_singleton rest l ih =>
      rcases ih with ih | ⟨n, l', r, h3, h4⟩
      · by_cases hc : V (dom ++ (rest ++ [l]))
        · exact Or.inl hc
        · right
          refine ⟨dom ++ rest, l, [], by simp, ⟨rest, rfl⟩, ih, ?_⟩
          rw [List.append_assoc]; exact hc
      · right
        refine ⟨n, l', r ++ [l], ?_, h4⟩
        rw [← List.append_assoc, h3]; simp
  obtain ⟨rest, rfl⟩ := hm
  rcases hV rest with ⟨k0, k, b, h3, h4⟩ | ⟨n, l, r, h3, h4, ⟨k0, k, b, h5, h6⟩, h7⟩
  · left
    obtain ⟨k', h5⟩ := visits_exact h4
    exact (h2 _).mpr ⟨k0, _, k', false, h3, h5, hlen, Or.inl ⟨rfl, rfl⟩⟩
  · right
    refine ⟨n, l, r, h3, h4, ⟨belowClass (Known (xs.map (·.1)) (k ++ [['*']])) n job.types, ?_, belowClass_name _ _ _, ?_⟩, ?_⟩
    · refine (h2 _).mpr ⟨k0, n, k, b, h5, h6, ?_, Or.inr rfl⟩
      have := octets_prefix (⟨l :: r, h3⟩ : AtOrBelow n (dom ++ rest))
      omega
    · unfold belowClass; split <;> rfl
    · intro k0' k' b' hk0' hv' hkn
      exact h7 ⟨k0', _, false, hk0', .down n k' b' l hv' hkn⟩

theorem visits_plain {rs : List RR} (hd : ∀ r ∈ rs, r.type ≠ .DNAME) {n0 n k : Name} {b : Bool} (h : Visits rs n0 n0 n k b) :
    k = n ∧ b = false := by
  induction h with
  | start => exact ⟨rfl, rfl⟩
  | down n k b l _ _ ih => exact ⟨by rw [ih.1], rfl⟩
  | redirect n k b t _ ha _ => obtain ⟨r, h1, h2, _⟩ := ha; exact absurd h2 (hd r h1)

theorem visits_known_plain {rs : List RR} {n0 n : Name} (hp : AtOrBelow n0 n) (hk : Known rs n) : Visits rs n0 n0 n n false := by
  obtain ⟨rest, rfl⟩ := hp
  induction rest using List.reverseRecOn with
  | nil => rw [List.append_nil]; exact .start
  | append_singleton rest l ih =>
    rw [← List.append_assoc] at hk ⊢
    exact .down _ _ false l (ih (known_prefix hk ⟨[l], rfl⟩)) hk

theorem no_dname_records {xs : List (RR × Nat × Nat)} (hd : ∀ x ∈ xs, x.1.type ≠ .DNAME) : ∀ r ∈ xs.map (·.1), r.type ≠ .DNAME := by
  intro r hr
  obtain ⟨x, hx, rfl⟩ := List.mem_map.mp hr
  exact hd x hx

/-- C24 without DNAMEs: for a domain that is known, the classes are, for each known name at or below it (and shorter than
253 bytes), the exact class and the class of the unknown names below. -/
theorem C24_classes_no_dname (thr : Nat) (xs : List (RR × Nat × Nat)) (hr : Regular (xs.map (·.1))) (hd : ∀ x ∈ xs, x.1.type ≠ .DNAME)
    (job : LGraph.Req) (hs : Short (stringToLabels job.domain)) (hsub : job.subdomains = true)
    (hk : Known (xs.map (·.1)) (stringToLabels job.domain)) :
    ∃ N ts, (∀ fuel, N ≤ fuel → LGraph.generateECs fuel (labelGraph thr xs) job = .ok (labelGraph thr xs, ts)) ∧
      ∀ q, q ∈ classes ts ↔ ∃ n, AtOrBelow (stringToLabels job.domain) n ∧ Known (xs.map (·.1)) n ∧ octets n < 253 ∧
        (q = exactClass n job.types ∨ q = belowClass (Known (xs.map (·.1)) (n ++ [['*']])) n job.types) := by
  have hd' := no_dname_records hd
  have hj : OnExisting xs job := ⟨hs, hsub, _, (matches_plain hd').mpr ⟨rfl, ⟨[], by simp⟩, hk⟩⟩
  obtain ⟨N, ts, h1, h2⟩ := C24_classes thr xs hr job hj
  refine ⟨N, ts, h1, fun q => ?_⟩
  rw [h2]
  constructor
  · rintro ⟨k0, n, k, b, h3, h4, h5, h6⟩
    obtain ⟨h7, h8, h9⟩ := (matches_plain hd').mp h3
    have hk0 : k0 = stringToLabels job.domain := by
      obtain ⟨r, hr⟩ := h8
      have := congrArg List.length hr
      rw [List.length_append] at this
      have : r = [] := List.length_eq_zero_iff.mp (by omega)
      rw [hr, this, List.append_nil]
    subst hk0
    obtain ⟨rfl, rfl⟩ := visits_plain hd' h4
    refine ⟨k, visits_prefix h4, visits_known h9 h4, h5, ?_⟩
    rcases h6 with ⟨_, h6⟩ | h6
    · exact Or.inl h6
    · exact Or.inr h6
  · rintro ⟨n, h3, h4, h5, h6⟩
    refine ⟨_, n, n, false, (matches_plain hd').mpr ⟨rfl, ⟨[], by simp⟩, hk⟩, visits_known_plain h3 h4, h5, ?_⟩
    rcases h6 with h6 | h6
    · exact Or.inl ⟨rfl, h6⟩
    · exact Or.inr h6

/-- C24 without DNAMEs: every name at or below the domain and shorter than 253 bytes is a member of some class. -/
theorem C24_coverage_no_dname (thr : Nat) (xs : List (RR × Nat × Nat)) (hr : Regular (xs.map (·.1))) (hd : ∀ x ∈ xs, x.1.type ≠ .DNAME)
    (job : LGraph.Req) (hs : Short (stringToLabels job.domain)) (hsub : job.subdomains = true)
    (hk : Known (xs.map (·.1)) (stringToLabels job.domain)) (fuel : Nat) (ts : List Task)
    (hts : LGraph.generateECs fuel (labelGraph thr xs) job = .ok (labelGraph thr xs, ts))
    (m : Name) (hm : AtOrBelow (stringToLabels job.domain) m) (hlen : octets m < 253) :
    ∃ q ∈ classes ts, Stands (xs.map (·.1)) q m := by
  have hd' := no_dname_records hd
  have hj : OnExisting xs job := ⟨hs, hsub, _, (matches_plain hd').mpr ⟨rfl, ⟨[], by simp⟩, hk⟩⟩
  rcases C24_coverage thr xs hr job hj fuel ts hts m hm hlen with h | ⟨n, l, rest, rfl, h2, ⟨q, hq, h3, h4⟩, h5⟩
  · exact ⟨_, h, rfl⟩
  · refine ⟨q, hq, ?_⟩
    unfold Stands
    rw [h4, h3]
    refine ⟨l, rest, rfl, ?_⟩
    intro hkn
    have hkn' : Known (xs.map (·.1)) n := known_prefix hkn ⟨[l], rfl⟩
    exact h5 _ n false ((matches_plain hd').mpr ⟨rfl, ⟨[], by simp⟩, hk⟩) (visits_known_plain h2 hkn') hkn

/-- The hypotheses of C24 hold of jobs on both sample graphs. -/
example : Known (plainRecords.map (·.1)) (name "com.") ∧ Short (name "com.") := by decide +kernel

theorem sample_onExisting : OnExisting dnameRecords ⟨"a.com.".toList, true, true, TypeSet.single .A⟩ where
  short := by decide +kernel
  sub := rfl
  found := by
    refine ⟨name "a.com.", ?_⟩
    have h1 : Matches (dnameRecords.map (·.1)) (name "a.com.") [] 0 := .root
    have h2 := Matches.down [] 0 "com".toList h1 (by decide +kernel) (by decide +kernel)
    exact .down _ 1 "a".toList h2 (by decide +kernel) (by decide +kernel)

example : OnExisting dnameRecords ⟨"a.com.".toList, true, true, TypeSet.single .A⟩ := sample_onExisting

/-- The classes of `a.com.` through the DNAME loop: `a.com.` itself, its DNAME target, and `x` below it. -/
example : (match LGraph.generateECs 4000 (labelGraph 500 dnameRecords) ⟨"a.com.".toList, true, false, TypeSet.single .A⟩ with
    | .ok r => (classes r.2).map (fun q => (q.name, q.excluded.isSome)) | _ => []) =
    [(name "x.a.com.", false), (name "x.a.com.", true), (name "a.com.", true), (name "a.com.", false), (name "a.com.", true)] := by
  decide +kernel

/-- A record owner of exactly 253 bytes (four labels), accepted by the length check. -/
def owner253 : Name := [List.replicate 62 'd', List.replicate 62 'c', List.replicate 62 'b', List.replicate 63 'a']

/-- C24 fails for names of exactly 253 bytes: they are within the length limit and may be loaded, but no class of a
subdomain job covers them. -/
theorem C24_disagreement_253 : Short owner253 ∧ octets owner253 = 253 ∧
    ∃ xs : List (RR × Nat × Nat), Known (xs.map (·.1)) owner253 ∧
      (match LGraph.generateECs 2000 (labelGraph 500 xs) ⟨['.'], true, false, TypeSet.single .A⟩ with
        | .ok r => ∀ q ∈ classes r.2, ¬ Stands (xs.map (·.1)) q owner253
        | _ => False) := by
  refine ⟨by decide +kernel, by decide +kernel, [({ name := owner253, type := .A, cls := 1, ttl := 300, rdata := ['x'] }, 0, 1)], by decide +kernel, ?_⟩
  generalize hxs : ([({ name := owner253, type := .A, cls := 1, ttl := 300, rdata := ['x'] }, 0, 1)] : List (RR × Nat × Nat)) = xs
  have hk : ∀ n, AtOrBelow n owner253 → Known (xs.map (·.1)) n := by
    intro n hn; subst hxs; right; exact ⟨{ name := owner253, type := .A, cls := 1, ttl := 300, rdata := ['x'] }, by simp, by decide, Or.inl hn⟩
  have hcls : ∃ r, LGraph.generateECs 2000 (labelGraph 500 xs) ⟨['.'], true, false, TypeSet.single .A⟩ = .ok r ∧
      ∀ q ∈ classes r.2, q.name ≠ owner253 := by
    subst hxs
    have : (match LGraph.generateECs 2000 (labelGraph 500 [({ name := owner253, type := .A, cls := 1, ttl := 300, rdata := ['x'] }, 0, 1)])
        ⟨['.'], true, false, TypeSet.single .A⟩ with | .ok r => decide (∀ q ∈ classes r.2, q.name ≠ owner253) | _ => false) = true := by decide +kernel
    split at this
    · rename_i r hr; exact ⟨r, hr, by simpa using this⟩
    · cases this
  obtain ⟨r, hr, hn⟩ := hcls
  rw [hr]
  intro q hq hst
  unfold Stands at hst
  split at hst
  · exact hn q hq hst.symm
  · obtain ⟨l, rest, h1, h2⟩ := hst
    exact h2 (hk _ ⟨rest, by rw [h1]; simp⟩)

/-! ### C25 -/

theorem label_of_known {thr : Nat} {xs : List (RR × Nat × Nat)} {names : List Name} (h : LRep (labelGraph thr xs) names xs) {u : Nat}
    (hu : u < (labelGraph thr xs).verts.length) (hl : ((labelGraph thr xs).vtx u).label ≠ ['.']) :
    ∃ n, Known (xs.map (·.1)) n ∧ ((labelGraph thr xs).vtx u).label ∈ n := by
  have hu' : u < names.length := by rw [h.inv.len]; exact hu
  have hn : names[u]? = some names[u] := List.getElem?_eq_getElem hu'
  rcases List.eq_nil_or_concat names[u] with he | ⟨p, l, he⟩
  · rw [he] at hn
    have := Trie.name_inj h.inv.nodup hn h.inv.root
    rw [this, h.rootLabel] at hl
    exact absurd rfl hl
  · rw [he] at hn
    obtain ⟨v, hv, _⟩ := h.inv.parent u p l (by simpa using hn)
    have := ((h.inv.child_iff hv l u).mpr (by simpa using hn)).2
    exact ⟨names[u], (h.known _).mp (List.getElem_mem hu'), by rw [this, he]; simp⟩

/-- C25: whatever the label graph (DNAME cycles, odd labels included), every class has labels of at most 63 bytes, if
those of the records have; and its name is within the length limits.  For a subdomain job on an existing domain it is
even shorter than 253 bytes. -/
theorem C25_legal (thr : Nat) (xs : List (RR × Nat × Nat)) (hl : ∀ n, Known (xs.map (·.1)) n → ∀ l ∈ n, l.length ≤ 63)
    (job : LGraph.Req) (fuel : Nat) (g' : LGraph) (ts : List Task)
    (hts : LGraph.generateECs fuel (labelGraph thr xs) job = .ok (g', ts)) (q : EC) (hq : q ∈ classes ts) :
    Short q.name ∧ (OnExisting xs job → octets q.name < 253) := by
  obtain ⟨names, h⟩ := labelGraph_rep thr xs
  obtain ⟨ts', h1, h2, h3⟩ := h.generate job (Nat.le_refl (genBudget (labelGraph thr xs) (stringToLabels job.domain)))
  have hEq : ts' = ts := by
    have := mono_agree (f := fun n => LGraph.generateECs n (labelGraph thr xs) job) (fun n r => generateECs_mono n _ _ r) h1 hts
    simp at this; exact this.2
  subst hEq
  rw [mem_classes] at hq
  cases hc : (lengthCheck (stringToLabels job.domain)).1 with
  | false => rw [h2 hc] at hq; cases hq
  | true =>
    have hshort : Short (stringToLabels job.domain) := (lengthCheck_iff _).mp hc
    obtain ⟨m, h4, h5, h6, h7, h8⟩ := h3 hc
    have hsmall : ∀ n : Name, (∀ l ∈ n, l.length ≤ 63) → octets n < 253 → Short n := by
      intro n h1 h2
      refine ⟨h1, ?_⟩
      unfold present
      split
      · decide
      · have : ((n.reverse.map (fun l => l ++ ['.'])).flatten).length = octets n := by
          rw [List.length_flatten, List.map_map, List.map_reverse, List.sum_reverse]
          unfold octets
          congr 1
          apply List.map_congr_left
          intro l _
          simp
        omega
    have htake : Short ((stringToLabels job.domain).take m) := by
      refine ⟨fun l hlm => hshort.1 l (List.mem_of_mem_take hlm), ?_⟩
      have hlen := hshort.2
      have key : ∀ n : Name, (present n).length = if n = [] then 1 else octets n := by
        intro n
        unfold present
        split
        · rfl
        · rw [List.length_flatten, List.map_map, List.map_reverse, List.sum_reverse]
          unfold octets
          congr 1
          apply List.map_congr_left
          intro l _
          simp
      rw [key] at hlen ⊢
      have ho := octets_prefix (⟨_, (List.take_append_drop m _).symm⟩ : AtOrBelow ((stringToLabels job.domain).take m) (stringToLabels job.domain))
      split
      · omega
      · rename_i hne
        rw [if_neg (by intro c; rw [c] at hne; simp at hne)] at hlen
        omega
    by_cases hm : m = (stringToLabels job.domain).length
    · cases hsub : job.subdomains with
      | false =>
        rw [h7 hm hsub] at hq
        simp at hq
        rw [hq]
        exact ⟨hshort, fun hj => by rw [hj.sub] at hsub; cases hsub⟩
      | true =>
        obtain ⟨es, out, _, e2, e3, e4⟩ := h8 hm hsub
        rw [e4] at hq
        obtain ⟨e, he, hq⟩ := List.mem_flatMap.mp hq
        have hw := List.mem_map_of_mem (f := fun x : Nat × Int => x.1) he
        obtain ⟨n, hn, _⟩ := (e2 e.1).mp hw
        have := subDomainECs_names h.inv (fun n => ∀ l ∈ n, l.length ≤ 63) (by
          intro n u hn hu hne l hlm
          rcases List.mem_append.mp hlm with hlm | hlm
          · exact hn l hlm
          · rw [List.mem_singleton.mp hlm]
            obtain ⟨k, hk, hkm⟩ := label_of_known h hu hne
            exact hl k hk _ hkm) _ _ e.1 (stringToLabels job.domain).dropLast false job.structural _ _ (Shape.refl _)
          (by rw [← h.inv.len]; exact Trie.name_lt hn) (fun l hlm => hshort.1 l (List.dropLast_subset _ hlm)) (e3 e.1 hw) q hq
        exact ⟨hsmall _ this.2 this.1, fun _ => this.1⟩
    · rw [h6 hm] at hq
      simp at hq
      rw [hq]
      refine ⟨htake, fun hj => ?_⟩
      obtain ⟨k, hk⟩ := hj.found
      have := h5 _ _ hk
      obtain ⟨k', hk'⟩ := h4
      exfalso
      have key : ∀ k i, Matches (xs.map (·.1)) (stringToLabels job.domain) k i → i ≤ (stringToLabels job.domain).length := by
        intro k i hk
        induction hk with
        | root => omega
        | down n i l _ hl _ _ => exact (List.getElem?_eq_some_iff.mp hl).1
        | redirect n i t _ hi _ _ => omega
      have := key k' m hk'
      omega

/-- C25: the classes of a subdomain job on an existing domain are at or below that domain. -/
theorem C25_below_domain (thr : Nat) (xs : List (RR × Nat × Nat)) (hr : Regular (xs.map (·.1))) (job : LGraph.Req)
    (hj : OnExisting xs job) (fuel : Nat) (g' : LGraph) (ts : List Task)
    (hts : LGraph.generateECs fuel (labelGraph thr xs) job = .ok (g', ts)) (q : EC) (hq : q ∈ classes ts) :
    AtOrBelow (stringToLabels job.domain) q.name := by
  obtain ⟨N, ts', h1, h2⟩ := C24_classes thr xs hr job hj
  have hEq : ts' = ts := by
    have := mono_agree (f := fun n => LGraph.generateECs n (labelGraph thr xs) job) (fun n r => generateECs_mono n _ _ r) (h1 N (Nat.le_refl _)) hts
    simp at this; exact this.2
  subst hEq
  obtain ⟨k0, n, k, b, _, h4, _, h5⟩ := (h2 q).mp hq
  rcases h5 with ⟨_, rfl⟩ | rfl
  · exact visits_prefix h4
  · rw [belowClass_name]; exact visits_prefix h4

theorem known_labels_of (rs : List RR) (h : ∀ r ∈ rs, (∀ l ∈ r.name, l.length ≤ 63) ∧
    (r.type = .DNAME → ∀ l ∈ stringToLabels r.rdata, l.length ≤ 63)) : ∀ n, Known rs n → ∀ l ∈ n, l.length ≤ 63 := by
  intro n hn l hl
  rcases hn with rfl | ⟨r, hr, _, ⟨x, hx⟩ | ⟨hd, x, hx⟩⟩
  · cases hl
  · exact (h r hr).1 l (by rw [hx]; simp [hl])
  · exact (h r hr).2 hd l (by rw [hx]; simp [hl])

/-- The label hypothesis holds of the sample graph with DNAMEs. -/
example : ∀ n, Known (dnameRecords.map (·.1)) n → ∀ l ∈ n, l.length ≤ 63 := known_labels_of _ (by decide +kernel)

/-! ### C26 -/

/-- C26: without DNAMEs, the classes of a subdomain job have no member in common, and none is generated twice. -/
theorem C26_no_overlap (thr : Nat) (xs : List (RR × Nat × Nat)) (hr : Regular (xs.map (·.1))) (hd : ∀ x ∈ xs, x.1.type ≠ .DNAME)
    (job : LGraph.Req) (fuel : Nat) (g' : LGraph) (ts : List Task)
    (hts : LGraph.generateECs fuel (labelGraph thr xs) job = .ok (g', ts)) :
    (classes ts).Pairwise (fun q q' => ∀ m, ¬ (Stands (xs.map (·.1)) q m ∧ Stands (xs.map (·.1)) q' m)) ∧ (classes ts).Nodup := by
  obtain ⟨names, h⟩ := labelGraph_rep thr xs
  suffices H : (classes ts).Pairwise (Apart (xs.map (·.1))) from ⟨H, apart_nodup h H⟩
  obtain ⟨ts', h1, h2, h3⟩ := h.generate job (Nat.le_refl (genBudget (labelGraph thr xs) (stringToLabels job.domain)))
  have hEq : ts' = ts := by
    have := mono_agree (f := fun n => LGraph.generateECs n (labelGraph thr xs) job) (fun n r => generateECs_mono n _ _ r) h1 hts
    simp at this; exact this.2
  subst hEq
  cases hc : (lengthCheck (stringToLabels job.domain)).1 with
  | false => rw [h2 hc]; exact List.Pairwise.nil
  | true =>
    obtain ⟨m, h4, h5, h6, h7, h8⟩ := h3 hc
    by_cases hm : m = (stringToLabels job.domain).length
    · cases hsub : job.subdomains with
      | false => rw [h7 hm hsub]; exact List.pairwise_singleton _ _
      | true =>
        obtain ⟨es, out, e1, e2, e3, e4⟩ := h8 hm hsub
        obtain ⟨v, n, s1, s2, s3, s4, s5⟩ := single_encloser h hd (stringToLabels job.domain)
          (by unfold genBudget; omega : searchBudget (labelGraph thr xs) (stringToLabels job.domain) ≤ genBudget (labelGraph thr xs) (stringToLabels job.domain))
        rw [s1] at e1
        simp only [Res.ok.injEq, Prod.mk.injEq, true_and] at e1
        subst e1
        rw [e4]
        simp only [List.flatMap_cons, List.flatMap_nil, List.append_nil]
        have hcall := e3 v (by simp)
        obtain ⟨n', hn', hmt⟩ := (e2 v).mp (by simp)
        rw [s2] at hn'
        cases hn'
        have hd' := no_dname_records hd
        obtain ⟨hmn, ⟨r, hr'⟩, _⟩ := (matches_plain hd').mp hmt
        have hrn : r = [] := by
          have := congrArg List.length hr'
          rw [List.length_append] at this
          exact List.length_eq_zero_iff.mp (by omega)
        rw [hrn, List.append_nil] at hr'
        have hp := h.plain hr
        refine (h.apart (no_dname_edges h hd) hp _ _ v (stringToLabels job.domain).dropLast n job.structural _ (Shape.refl _) s2 ?_ hcall).1
        rcases matches_full hmt hm with ⟨hn0, hl0⟩ | ⟨k', l, hn0, hl0⟩
        · rw [hn0] at s2
          rw [Trie.name_inj h.inv.nodup s2 h.inv.root, h.rootLabel, hl0, hn0]; rfl
        · obtain ⟨w, hw, _⟩ := h.inv.parent v k' l (by rw [← hn0]; exact s2)
          have hlab := ((h.inv.child_iff hw l v).mpr (by rw [← hn0]; exact s2)).2
          rw [hlab]
          have hne : l ≠ ['.'] := by
            rintro rfl
            exact hr.1 _ s3 (by rw [hn0]; simp)
          unfold LGraph.ecName
          rw [if_neg hne, ← hr']
          conv_rhs => rw [hl0]
          split <;> simp
    · rw [h6 hm]; exact List.pairwise_singleton _ _

/-- A subdomain job with twelve classes, pairwise apart. -/
example : (match LGraph.generateECs 4000 (labelGraph 500 plainRecords) ⟨"com.".toList, true, false, TypeSet.single .A⟩ with
    | .ok r => (classes r.2).length | _ => 0) = 12 := by decide +kernel

/-- With DNAMEs a class can be generated more than once: below the domain of `dnameRecords` the class of unknown names
below `a.com.` is generated twice. -/
theorem C26_disagreement_dname : ∃ ts, LGraph.generateECs 4000 (labelGraph 500 dnameRecords) ⟨"a.com.".toList, true, false, TypeSet.single .A⟩ =
    .ok (labelGraph 500 dnameRecords, ts) ∧ ¬ (classes ts).Nodup := by
  have : (match LGraph.generateECs 4000 (labelGraph 500 dnameRecords) ⟨"a.com.".toList, true, false, TypeSet.single .A⟩ with
      | .ok r => decide (r.1 = labelGraph 500 dnameRecords) && decide (¬ (classes r.2).Nodup) | _ => false) = true := by decide +kernel
  split at this
  · rename_i r hr
    simp only [Bool.and_eq_true, decide_eq_true_eq] at this
    exact ⟨r.2, by rw [hr, ← this.1], this.2⟩
  · cases this

/-! ### C29 -/

/-- C29: a job without subdomains (and any job on a domain that is not found) generates exactly one class: that of the
name itself if it is found, otherwise that of the unknown names below the longest part of the name that is found.  A name
that fails the length check generates nothing. -/
theorem C29_single (thr : Nat) (xs : List (RR × Nat × Nat)) (job : LGraph.Req) :
    ∃ N ts, (∀ fuel, N ≤ fuel → LGraph.generateECs fuel (labelGraph thr xs) job = .ok (labelGraph thr xs, ts)) ∧
      (¬ Short (stringToLabels job.domain) → ts = []) ∧
      (Short (stringToLabels job.domain) → ∃ m, (∃ k, Matches (xs.map (·.1)) (stringToLabels job.domain) k m) ∧
        (∀ k i, Matches (xs.map (·.1)) (stringToLabels job.domain) k i → i ≤ m) ∧
        (m = (stringToLabels job.domain).length → job.subdomains = false → ts = [Task.ec (exactClass (stringToLabels job.domain) job.types)]) ∧
        (m ≠ (stringToLabels job.domain).length →
          ts = [Task.ec { name := (stringToLabels job.domain).take m, types := job.types, excluded := some [] }])) := by
  obtain ⟨names, h⟩ := labelGraph_rep thr xs
  obtain ⟨ts, h1, h2, h3⟩ := h.generate job (Nat.le_refl _)
  refine ⟨_, ts, fun fuel hf => mono_le (fun n r => generateECs_mono n _ _ r) hf h1, ?_, ?_⟩
  · intro hs
    apply h2
    cases hc : (lengthCheck (stringToLabels job.domain)).1 with
    | false => rfl
    | true => exact absurd ((lengthCheck_iff _).mp hc) hs
  · intro hs
    obtain ⟨m, h4, h5, h6, h7, _⟩ := h3 ((lengthCheck_iff _).mpr hs)
    exact ⟨m, h4, h5, h7, h6⟩

/-- C29 without DNAMEs: the one class generated contains the requested name. -/
theorem C29_contains (thr : Nat) (xs : List (RR × Nat × Nat)) (hd : ∀ x ∈ xs, x.1.type ≠ .DNAME) (job : LGraph.Req)
    (hs : Short (stringToLabels job.domain)) (hsub : job.subdomains = false ∨ ¬ Known (xs.map (·.1)) (stringToLabels job.domain))
    (fuel : Nat) (g' : LGraph) (ts : List Task) (hts : LGraph.generateECs fuel (labelGraph thr xs) job = .ok (g', ts)) :
    ∃ q, ts = [Task.ec q] ∧ q.types = job.types ∧ Stands (xs.map (·.1)) q (stringToLabels job.domain) ∧
      (q.excluded = none ↔ Known (xs.map (·.1)) (stringToLabels job.domain)) := by
  obtain ⟨N, ts', h1, _, h3⟩ := C29_single thr xs job
  have hEq : ts' = ts := by
    have := mono_agree (f := fun n => LGraph.generateECs n (labelGraph thr xs) job) (fun n r => generateECs_mono n _ _ r) (h1 N (Nat.le_refl _)) hts
    simp at this; exact this.2
  subst hEq
  have hd' := no_dname_records hd
  obtain ⟨m, ⟨k, h4⟩, h5, h6, h7⟩ := h3 hs
  obtain ⟨hmk, hp, hk⟩ := (matches_plain hd').mp h4
  obtain ⟨rest, hrest⟩ := hp
  by_cases hm : m = (stringToLabels job.domain).length
  · have hr : rest = [] := by
      have := congrArg List.length hrest
      rw [List.length_append] at this
      exact List.length_eq_zero_iff.mp (by omega)
    rw [hr, List.append_nil] at hrest
    rw [← hrest] at hk
    rcases hsub with hsub | hsub
    · exact ⟨_, h6 hm hsub, rfl, rfl, ⟨fun _ => hk, fun _ => rfl⟩⟩
    · exact absurd hk hsub
  · have htake : (stringToLabels job.domain).take m = k := by rw [hrest, hmk]; simp
    refine ⟨_, h7 hm, rfl, ?_, ⟨fun h => (by cases h), fun hkk => ?_⟩⟩
    · show ∃ l rest, _ = (stringToLabels job.domain).take m ++ l :: rest ∧ ¬ Known _ ((stringToLabels job.domain).take m ++ [l])
      rw [htake]
      cases rest with
      | nil => rw [List.append_nil] at hrest; rw [hmk, hrest] at hm; exact absurd rfl hm
      | cons l rest =>
        refine ⟨l, rest, hrest, ?_⟩
        intro hkl
        have := h5 (k ++ [l]) (k ++ [l]).length ((matches_plain hd').mpr ⟨rfl, ⟨rest, by rw [hrest]; simp⟩, hkl⟩)
        simp at this
        omega
    · exfalso
      have := h5 _ _ ((matches_plain hd').mpr ⟨rfl, ⟨[], by simp⟩, hkk⟩)
      have h9 := congrArg List.length hrest
      rw [List.length_append] at h9
      omega

example : Short (name "www.q.com.") ∧ ¬ Known (plainRecords.map (·.1)) (name "www.q.com.") ∧
    (match LGraph.generateECs 4000 (labelGraph 500 plainRecords) ⟨"www.q.com.".toList, true, false, TypeSet.single .A⟩ with
      | .ok r => r.2 | _ => []) = [Task.ec { name := name "com.", types := TypeSet.single .A, excluded := some [] }] := by
  decide +kernel

end Groot
