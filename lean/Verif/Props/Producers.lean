import Verif.Lemmas.Producers5

/-!
# C74: generating the classes in parallel
-/

namespace Groot

open Spec

/-- The search for the domain of a job finds the nodes `es`, each once, and no known name is visited from two of them. -/
structure Disjoint (thr : Nat) (xs : List (RR × Nat × Nat)) (job : LGraph.Req) (es : List (Nat × Int)) : Prop where
  search : ∃ fuel, LGraph.closestEnclosers fuel (labelGraph thr xs) (stringToLabels job.domain) = .ok (labelGraph thr xs, es)
  once : (es.map (·.1)).Nodup
  apart : KeepApart (xs.map (·.1)) (stringToLabels job.domain)

theorem Disjoint.inv {thr : Nat} {xs : List (RR × Nat × Nat)} {job : LGraph.Req} {es : List (Nat × Int)} (hd : Disjoint thr xs job es)
    (hj : OnExisting xs job) {fuel : Nat} {ts : List Task}
    (hts : LGraph.generateECs fuel (labelGraph thr xs) job = .ok (labelGraph thr xs, ts)) :
    ∃ γs, Prod.PoolInv job.types (labelGraph thr xs) (Prod.ofJob (labelGraph thr xs) job es) γs ∧ γs.flatMap (·.ts) = ts := by
  obtain ⟨names, h⟩ := labelGraph_rep thr xs
  obtain ⟨ts', h1, _, h2⟩ := h.generate job (Nat.le_refl (genBudget (labelGraph thr xs) (stringToLabels job.domain)))
  have hEq : ts' = ts := by
    have := mono_agree (f := fun n => LGraph.generateECs n (labelGraph thr xs) job) (fun n r => generateECs_mono n _ _ r) h1 hts
    simpa using this
  subst hEq
  obtain ⟨m, ⟨k, hk⟩, h4, _, _, h5⟩ := h2 ((lengthCheck_iff _).mpr hj.short)
  have hm : m = (stringToLabels job.domain).length := by
    obtain ⟨k1, hk1⟩ := hj.found
    exact Nat.le_antisymm (matches_le hk) (h4 _ _ hk1)
  obtain ⟨es', out, h6, h7, h8, h9⟩ := h5 hm hj.sub
  obtain ⟨f, hf⟩ := hd.search
  have hes : es' = es := by
    have := mono_agree (f := fun n => LGraph.closestEnclosers n (labelGraph thr xs) (stringToLabels job.domain)) (fun n r => searchNode_mono n _ _ _ _ r) h6 hf
    simpa using this
  subst hes
  subst hm
  obtain ⟨γs, g1, g2⟩ := Prod.start_inv h (types := job.types) (s := job.structural) (es'.map (·.1)) out _ h8 (fun w hw => (h7 w).mp hw) hd.once hd.apart
  refine ⟨γs, g1, ?_⟩
  rw [h9, List.flatMap_def, g2, List.map_map, List.flatMap_def]
  rfl

/-- **C74** When the producer threads keep apart, every schedule of them ends within a fixed number of steps, none of them ever waits for
another, and at the end the tasks enqueued are those of generating everything in one thread, each as often, and the label
graph is what it was. -/
theorem C74_every_schedule (thr : Nat) (xs : List (RR × Nat × Nat)) (job : LGraph.Req) (es : List (Nat × Int)) (hj : OnExisting xs job)
    (hd : Disjoint thr xs job es) (fuel : Nat) (ts : List Task)
    (hts : LGraph.generateECs fuel (labelGraph thr xs) job = .ok (labelGraph thr xs, ts)) :
    ∃ bound, ∀ n out q, Produces job.types (Prod.ofJob (labelGraph thr xs) job es) n out q →
      n ≤ bound ∧ (∀ i st, q.threads[i]? = some st → st ≠ [] → ∃ o r, Prod.Step job.types i q o r) ∧
      (q.Done → out.Perm ts ∧ q.graph = labelGraph thr xs) := by
  obtain ⟨γs, h1, rfl⟩ := hd.inv hj hts
  refine ⟨(γs.map (·.n)).sum, ?_⟩
  intro n out q hp
  obtain ⟨γs', h3, h4, h5⟩ := Prod.produces_inv h1 hp
  refine ⟨by omega, ?_, ?_⟩
  · intro i st hst hne
    obtain ⟨⟨g, st', o⟩, hx⟩ := Prod.step_enabled job.types q.graph hne
    exact ⟨o, _, Prod.sched_step hst hx⟩
  · intro hdone
    obtain ⟨h6, h7⟩ := h3.done hdone
    refine ⟨?_, h6⟩
    have : γs'.flatMap (·.ts) = [] := List.flatMap_eq_nil_iff.mpr h7
    rw [this, List.append_nil] at h4
    exact h4

/-- **C74** A domain with no DNAME at a proper ancestor: there is one producer thread, and the threads keep apart. -/
theorem C74_below_no_dname (thr : Nat) (xs : List (RR × Nat × Nat)) (job : LGraph.Req)
    (hd : ∀ p t, AtOrBelow p (stringToLabels job.domain) → p ≠ stringToLabels job.domain → ¬ Alias (xs.map (·.1)) p t) :
    ∃ e, Disjoint thr xs job [e] := by
  obtain ⟨names, h⟩ := labelGraph_rep thr xs
  obtain ⟨e, he⟩ := single_encloser_below h _ hd (Nat.le_refl _)
  exact ⟨e, ⟨_, he⟩, by simp, keepApart_below hd⟩

/-- **C74** Under every schedule, also when threads meet: only tasks of generating everything in one thread are ever enqueued, and the
label graph keeps its shape. -/
theorem C74_only_tasks (thr : Nat) (xs : List (RR × Nat × Nat)) (hr : Regular (xs.map (·.1))) (job : LGraph.Req) (es : List (Nat × Int))
    (hj : OnExisting xs job) (fuel fuel' : Nat) (ts : List Task)
    (he : LGraph.closestEnclosers fuel (labelGraph thr xs) (stringToLabels job.domain) = .ok (labelGraph thr xs, es))
    (hts : LGraph.generateECs fuel' (labelGraph thr xs) job = .ok (labelGraph thr xs, ts))
    (n : Nat) (out : List Task) (q : Prod.Pool) (hp : Produces job.types (Prod.ofJob (labelGraph thr xs) job es) n out q) :
    (∀ t ∈ out, t ∈ ts) ∧ (∀ v, (q.graph.vtx v).label = ((labelGraph thr xs).vtx v).label ∧ (q.graph.vtx v).edges = ((labelGraph thr xs).vtx v).edges) := by
  obtain ⟨names, h⟩ := labelGraph_rep thr xs
  obtain ⟨ts', h1, h2⟩ := h.generate_full hr job (Nat.le_refl _) ((lengthCheck_iff _).mpr hj.short) hj.sub hj.found
  have hEq : ts' = ts := by
    have := mono_agree (f := fun n => LGraph.generateECs n (labelGraph thr xs) job) (fun n r => generateECs_mono n _ _ r) h1 hts
    simpa using this
  subst hEq
  obtain ⟨es', m, h3, _, h4, _, h5⟩ := h.search (stringToLabels job.domain) (Nat.le_refl _)
  have hes : es' = es := by
    have := mono_agree (f := fun n => LGraph.closestEnclosers n (labelGraph thr xs) (stringToLabels job.domain)) (fun n r => searchNode_mono n _ _ _ _ r) h3 he
    simpa using this
  subst hes
  obtain ⟨h6, _, h7⟩ := Prod.produces_ok h hr (es'.map (fun x : Nat × Int => x.1)) (labels := stringToLabels job.domain) (s0 := job.structural) (types := job.types) (by
    intro w hw
    obtain ⟨x, hx, rfl⟩ := List.mem_map.mp hw
    obtain ⟨_, n, hn, hm⟩ := h4 x hx
    obtain ⟨k1, hk1⟩ := hj.found
    have := h5 _ _ hk1
    have := matches_le hm
    have e : m = (stringToLabels job.domain).length := by omega
    exact ⟨n, hn, e ▸ hm⟩) hp
  exact ⟨fun t ht => (h2 t).mpr (h7 t ht), fun v => ⟨h6.label v, h6.edges v⟩⟩

/-! ### With the queues, the consumers and the collectors -/

section
open Full

/-- **C74** The whole of `GenerateECsAndCheckProperties`, when the producers keep apart: however the threads interleave, when it returns, every
task of generating in one thread has been processed once, everything reported has been collected once, the queues are
empty and the label graph is what it was. -/
theorem C74_exactly_once (thr : Nat) (xs : List (RR × Nat × Nat)) (job : LGraph.Req) (es : List (Nat × Int)) (hj : OnExisting xs job)
    (hd : Disjoint thr xs job es) (fuel : Nat) (ts : List Task)
    (hts : LGraph.generateECs fuel (labelGraph thr xs) job = .ok (labelGraph thr xs, ts))
    (emit : Task → List (Violation ⊕ (Nat × Nat))) (s : State Conc.consumerCount)
    (hs : Reachable job.types emit (Prod.ofJob (labelGraph thr xs) job es) s) (hr : Returned s) :
    s.rest.taken.Perm ts ∧ s.rest.collected.Perm (ts.flatMap (fun t => Conc.violationsOf (emit t))) ∧
      s.rest.stats.Perm (ts.flatMap (fun t => Conc.sizesOf (emit t))) ∧ s.rest.ecq = [] ∧ s.rest.jsonq = [] ∧ s.rest.attrq = [] ∧
      s.pool.graph = labelGraph thr xs := by
  obtain ⟨γs, h1, rfl⟩ := hd.inv hj hts
  obtain ⟨γs', h2, h3⟩ := reachable_proj h1 hs
  obtain ⟨a, b, c, d⟩ := C54_exactly_once (by decide) _ _ _ h3 (returned_proj hr γs')
  rw [List.flatMap_def]
  exact ⟨a, b, c, d.1, d.2.1, d.2.2, (h2.done (returned_done hr)).1⟩

/-- **C74** The same, as a job of the program: the violations collected are those of the run in which everything happens in turn. -/
theorem C74_as_sequential (fuel thr thr' : Nat) (ctx : Context) (xs : List (RR × Nat × Nat)) (job : Job) (tasks : List Task) (v : List Violation)
    (es : List (Nat × Int)) (hj : OnExisting xs (Driver.req job)) (hd : Disjoint thr xs (Driver.req job) es)
    (hseq : Driver.runSequential fuel thr' ctx (labelGraph thr xs) job = .ok (labelGraph thr xs, tasks, v))
    (s : State Conc.consumerCount)
    (hs : Reachable job.types (Driver.emitted fuel thr' ctx (labelGraph thr xs) job) (Prod.ofJob (labelGraph thr xs) (Driver.req job) es) s) (hr : Returned s) :
    s.rest.taken.Perm tasks ∧ s.rest.collected.Perm v := by
  have hg : LGraph.generateECs fuel (labelGraph thr xs) (Driver.req job) = .ok (labelGraph thr xs, tasks) := by
    unfold Driver.runSequential at hseq
    obtain ⟨r, h1, hseq⟩ := bind_ok_iff.mp hseq
    obtain ⟨w, h2, hseq⟩ := bind_ok_iff.mp hseq
    injection hseq with hseq
    injection hseq with e1 hseq
    injection hseq with e2 e3
    rw [h1, ← e1, ← e2]
  obtain ⟨γs, h1, rfl⟩ := hd.inv hj hg
  obtain ⟨γs', h2, h3⟩ := reachable_proj h1 hs
  have h4 := C55_as_sequential fuel thr' ctx _ _ job _ v hseq _ (by rw [List.flatMap_def]) (proj s γs') h3 (returned_proj hr γs')
  exact h4

/-- **C74** Every execution in which no thread is forgotten returns, when the producers keep apart. -/
theorem C74_returns (thr : Nat) (xs : List (RR × Nat × Nat)) (job : LGraph.Req) (es : List (Nat × Int)) (hj : OnExisting xs job)
    (hd : Disjoint thr xs job es) (emit : Task → List (Violation ⊕ (Nat × Nat))) (σ : Nat → State Conc.consumerCount)
    (h : Execution job.types emit (Prod.ofJob (labelGraph thr xs) job es) σ) (hf : Fair job.types emit σ) : ∃ n, ∀ m, n ≤ m → Returned (σ m) := by
  obtain ⟨N, ts, hts⟩ := C22_generation_never_aborts thr xs job
  obtain ⟨γs, h1, _⟩ := hd.inv hj (hts N (Nat.le_refl _))
  exact fair_returns h1 (by decide) h hf

/-- **C74** From every state any interleaving can lead to, some continuation returns, when the producers keep apart. -/
theorem C74_can_return (thr : Nat) (xs : List (RR × Nat × Nat)) (job : LGraph.Req) (es : List (Nat × Int)) (hj : OnExisting xs job)
    (hd : Disjoint thr xs job es) (emit : Task → List (Violation ⊕ (Nat × Nat))) (s : State Conc.consumerCount)
    (hs : Reachable job.types emit (Prod.ofJob (labelGraph thr xs) job es) s) : ∃ s', Leads job.types emit s s' ∧ Returned s' := by
  obtain ⟨N, ts, hts⟩ := C22_generation_never_aborts thr xs job
  obtain ⟨γs, h1, _⟩ := hd.inv hj (hts N (Nat.le_refl _))
  exact can_return h1 (by decide) hs

end

/-! ### Concrete cases -/

private def rr (n : String) (t : RRType) (d : String) : RR :=
  { name := stringToLabels n.toList, type := t, cls := 1, ttl := 300, rdata := d.toList }

private def name (s : String) : Name := stringToLabels s.toList

/-- Two copies of a zone that disagree about the target of `x.org`, each target with its own subtree. -/
def apartRecords : List (RR × Nat × Nat) :=
  [(rr "x.org." .DNAME "y.org.", 0, 1), (rr "x.org." .DNAME "z.org.", 1, 1), (rr "b.a.y.org." .A "1.1.1.1", 2, 1),
   (rr "c.a.z.org." .DNAME "t.org.", 3, 1), (rr "u.t.org." .A "1.1.1.1", 4, 1)]

/-- The job asking for all names under `a.x.org`. -/
def axJob : LGraph.Req := ⟨"a.x.org.".toList, true, false, TypeSet.single .A⟩

theorem encl_of {g : LGraph} {labels : Name} {es : List (Nat × Int)} (h : (match LGraph.closestEnclosers 1000 g labels with
    | .ok r => decide (r = (g, es)) | _ => false) = true) : LGraph.closestEnclosers 1000 g labels = .ok (g, es) := by
  generalize LGraph.closestEnclosers 1000 g labels = x at h
  cases x with
  | ok r => simpa using h
  | _ => cases h

/-- The ancestors of a name, with itself. -/
def upTo (n : Name) : List Name := (List.range (n.length + 1)).map n.take

/-- All known names of some records. -/
def knownNames (rs : List RR) : List Name := [] :: rs.flatMap (fun r => upTo r.name ++ upTo (stringToLabels r.rdata))

theorem mem_upTo {p n : Name} (h : AtOrBelow p n) : p ∈ upTo n := by
  obtain ⟨t, rfl⟩ := h
  exact List.mem_map.mpr ⟨p.length, by rw [List.mem_range, List.length_append]; omega, by simp⟩

theorem mem_knownNames {rs : List RR} {n : Name} (h : Known rs n) : n ∈ knownNames rs := by
  rcases h with rfl | ⟨r, hr, _, h | ⟨_, h⟩⟩
  · exact List.mem_cons_self
  · exact List.mem_cons_of_mem _ (List.mem_flatMap.mpr ⟨r, hr, List.mem_append_left _ (mem_upTo h)⟩)
  · exact List.mem_cons_of_mem _ (List.mem_flatMap.mpr ⟨r, hr, List.mem_append_right _ (mem_upTo h)⟩)

theorem visits_in {rs : List RR} (S : List Name) {n0 k0 n k : Name} {b : Bool} (h0 : k0 ∈ S)
    (h1 : ∀ n ∈ knownNames rs, n.dropLast ∈ S → n ≠ [] → n ∈ S)
    (h2 : ∀ r ∈ rs, r.type = .DNAME → r.name ∈ S → stringToLabels r.rdata ∈ S) (h : Visits rs n0 k0 n k b) : k ∈ S := by
  induction h with
  | start => exact h0
  | down n k b l _ hk ih => exact h1 _ (mem_knownNames hk) (by simpa using ih) (by simp)
  | redirect n k b t _ ha ih =>
    obtain ⟨r, hr, hd, rfl, rfl⟩ := ha
    exact h2 r hr hd ih

theorem matches_in {rs : List RR} {labels : Name} (S : List (Name × Nat)) (h0 : ([], 0) ∈ S)
    (h1 : ∀ n ∈ knownNames rs, n ≠ [] → ∀ p ∈ S, p.1 = n.dropLast → labels[p.2]? = n.getLast? → (n, p.2 + 1) ∈ S)
    (h2 : ∀ r ∈ rs, r.type = .DNAME → ∀ p ∈ S, p.1 = r.name → p.2 < labels.length → (stringToLabels r.rdata, p.2) ∈ S)
    {n : Name} {i : Nat} (h : Matches rs labels n i) : (n, i) ∈ S := by
  induction h with
  | root => exact h0
  | down n i l _ hl hk ih => exact h1 _ (mem_knownNames hk) (by simp) _ ih (by simp) (by simpa using hl)
  | redirect n i t _ hi ha ih =>
    obtain ⟨r, hr, hd, rfl, rfl⟩ := ha
    exact h2 r hr hd _ ih rfl hi

theorem apart_keepApart : KeepApart (apartRecords.map (·.1)) (stringToLabels axJob.domain) := by
  have hm : ∀ k, Matches (apartRecords.map (·.1)) (stringToLabels axJob.domain) k (stringToLabels axJob.domain).length →
      k = name "a.y.org." ∨ k = name "a.z.org." := by
    intro k hk
    have h1 := matches_in [([], 0), (name "org.", 1), (name "x.org.", 2), (name "y.org.", 2), (name "z.org.", 2), (name "a.y.org.", 3),
      (name "a.z.org.", 3)] (by simp) (by decide +kernel) (by decide +kernel) hk
    have h2 : ∀ p ∈ [([], 0), (name "org.", 1), (name "x.org.", 2), (name "y.org.", 2), (name "z.org.", 2), (name "a.y.org.", 3),
      (name "a.z.org.", 3)], p.2 = (stringToLabels axJob.domain).length → p.1 = name "a.y.org." ∨ p.1 = name "a.z.org." := by decide +kernel
    exact h2 _ h1 rfl
  have hy : ∀ n k b, Visits (apartRecords.map (·.1)) (stringToLabels axJob.domain) (name "a.y.org.") n k b →
      k ∈ [name "a.y.org.", name "b.a.y.org."] :=
    fun n k b h => visits_in _ (by simp) (by decide +kernel) (by decide +kernel) h
  have hz : ∀ n k b, Visits (apartRecords.map (·.1)) (stringToLabels axJob.domain) (name "a.z.org.") n k b →
      k ∈ [name "a.z.org.", name "c.a.z.org.", name "t.org.", name "u.t.org."] :=
    fun n k b h => visits_in _ (by simp) (by decide +kernel) (by decide +kernel) h
  have hno : ∀ k ∈ [name "a.y.org.", name "b.a.y.org."], k ∉ [name "a.z.org.", name "c.a.z.org.", name "t.org.", name "u.t.org."] := by decide +kernel
  intro k0 k1 h0 h1 n n' k b b' hv hv'
  rcases hm k0 h0 with rfl | rfl <;> rcases hm k1 h1 with rfl | rfl
  · rfl
  · exact absurd (hz _ _ _ hv') (hno _ (hy _ _ _ hv))
  · exact absurd (hz _ _ _ hv) (hno _ (hy _ _ _ hv'))
  · rfl

/-- Two threads that keep apart. -/
theorem apart_disjoint : Disjoint 500 apartRecords axJob [(5, 3), (7, 3)] :=
  ⟨⟨1000, encl_of (by decide +kernel)⟩, by decide, apart_keepApart⟩

theorem ax_existing {xs : List (RR × Nat × Nat)} (h1 : Known (xs.map (·.1)) (name "org.")) (h2 : Known (xs.map (·.1)) (name "x.org."))
    (h3 : ∃ r ∈ xs.map (·.1), r.type = .DNAME ∧ r.name = name "x.org." ∧ stringToLabels r.rdata = name "y.org.")
    (h4 : Known (xs.map (·.1)) (name "a.y.org.")) : OnExisting xs axJob := by
  refine ⟨by decide +kernel, rfl, name "a.y.org.", ?_⟩
  have e : stringToLabels axJob.domain = [['o', 'r', 'g'], ['x'], ['a']] := by decide +kernel
  have e1 : name "org." = [] ++ [['o', 'r', 'g']] := by decide +kernel
  have e2 : name "x.org." = name "org." ++ [['x']] := by decide +kernel
  have e3 : name "a.y.org." = name "y.org." ++ [['a']] := by decide +kernel
  have m1 : Matches (xs.map (·.1)) (stringToLabels axJob.domain) (name "org.") 1 := by
    rw [e1] at h1 ⊢
    exact .down [] 0 _ .root (by rw [e]; rfl) h1
  have m2 : Matches (xs.map (·.1)) (stringToLabels axJob.domain) (name "x.org.") 2 := by
    rw [e2] at h2 ⊢
    exact .down _ 1 _ m1 (by rw [e]; rfl) h2
  have m3 : Matches (xs.map (·.1)) (stringToLabels axJob.domain) (name "y.org.") 2 := .redirect _ 2 _ m2 (by rw [e]; decide) h3
  have m4 : Matches (xs.map (·.1)) (stringToLabels axJob.domain) (name "a.y.org.") 3 := by
    rw [e3] at h4 ⊢
    exact .down _ 2 _ m3 (by rw [e]; rfl) h4
  rw [show (stringToLabels axJob.domain).length = 3 by rw [e]; rfl]
  exact m4

theorem apart_existing : OnExisting apartRecords axJob := ax_existing (by decide +kernel) (by decide +kernel) (by decide +kernel) (by decide +kernel)

/-- What a run of the threads in the given order gives. -/
theorem sched_of {types : TypeSet} {p : Prod.Pool} {l : List Nat} (P : Prod.Pool → List Task → Prop) [∀ q ts, Decidable (P q ts)]
    (h : (match Prod.sched types p l with | some (q, ts) => decide (P q ts) | none => false) = true) :
    ∃ q ts, Produces types p l.length ts q ∧ P q ts := by
  cases hx : Prod.sched types p l with
  | none => rw [hx] at h; cases h
  | some x =>
    obtain ⟨q, ts⟩ := x
    rw [hx] at h
    exact ⟨q, ts, Prod.sched_produces hx, of_decide_eq_true h⟩

instance (p : Prod.Pool) : Decidable p.Done := by unfold Prod.Pool.Done; infer_instance

/-- The two threads taking turns, three steps each. -/
example : ∃ q ts, Produces axJob.types (Prod.ofJob (labelGraph 500 apartRecords) axJob [(5, 3), (7, 3)]) 46 ts q ∧ q.Done ∧ ts.length = 11 := by
  have h := sched_of (types := axJob.types) (p := Prod.ofJob (labelGraph 500 apartRecords) axJob [(5, 3), (7, 3)])
    (l := (List.replicate 5 [0, 0, 0, 1, 1, 1]).flatten ++ List.replicate 16 1) (fun q ts => q.Done ∧ ts.length = 11) (by decide +kernel)
  exact h

/-- A fair execution of all threads, with the two producers. -/
example (emit : Task → List (Violation ⊕ (Nat × Nat))) : ∃ σ : Nat → Full.State Conc.consumerCount,
    Full.Execution axJob.types emit (Prod.ofJob (labelGraph 500 apartRecords) axJob [(5, 3), (7, 3)]) σ ∧ Full.Fair axJob.types emit σ := by
  obtain ⟨N, ts, hts⟩ := C22_generation_never_aborts 500 apartRecords axJob
  obtain ⟨γs, h1, _⟩ := apart_disjoint.inv apart_existing (hts N (Nat.le_refl _))
  exact Full.fair_exists h1 (by decide)

/-- A domain below no DNAME, with DNAMEs below it. -/
example : ∀ p t, AtOrBelow p (name "x.org.") → p ≠ name "x.org." → ¬ Alias (apartRecords.map (·.1)) p t := by
  rintro p t hp hne ⟨r, hr, hd, rfl, _⟩
  have : ∀ r ∈ apartRecords.map (·.1), r.type = .DNAME → AtOrBelow r.name (name "x.org.") → r.name = name "x.org." := by decide +kernel
  exact hne (this r hr hd hp)

/-! ### When threads meet -/

/-- As before, with a common target `t.org` below both copies, and a third DNAME to it elsewhere. -/
def raceRecords : List (RR × Nat × Nat) :=
  [(rr "x.org." .DNAME "y.org.", 0, 1), (rr "x.org." .DNAME "z.org.", 1, 1), (rr "b.a.y.org." .DNAME "t.org.", 2, 1),
   (rr "c.a.z.org." .DNAME "t.org.", 3, 1), (rr "u.t.org." .A "1.1.1.1", 4, 1), (rr "w.v.s.org." .DNAME "t.org.", 5, 1)]

theorem race_regular : Regular (raceRecords.map (·.1)) := regular_of _ (by decide +kernel)

theorem race_existing : OnExisting raceRecords axJob := ax_existing (by decide +kernel) (by decide +kernel) (by decide +kernel) (by decide +kernel)

theorem gen_of {g : LGraph} {job : LGraph.Req} (P : LGraph → List Task → Prop) [∀ g ts, Decidable (P g ts)]
    (h : (match LGraph.generateECs 1000 g job with | .ok r => decide (P r.1 r.2) | _ => false) = true) :
    ∃ g' ts, LGraph.generateECs 1000 g job = .ok (g', ts) ∧ P g' ts := by
  cases hx : LGraph.generateECs 1000 g job with
  | ok x => rw [hx] at h; exact ⟨x.1, x.2, rfl, of_decide_eq_true h⟩
  | _ => rw [hx] at h; cases h

/-- **C74, disagreement** A class can get lost: while one thread is inside `t.org`, another arrives there with a name of the same length, and
takes it for a loop.  In one thread the class of `u.c.a.x.org` is generated; under this schedule it is not. -/
theorem C74_disagreement_lost : ∃ es ts, LGraph.closestEnclosers 1000 (labelGraph 500 raceRecords) (stringToLabels axJob.domain) = .ok (labelGraph 500 raceRecords, es) ∧
    LGraph.generateECs 1000 (labelGraph 500 raceRecords) axJob = .ok (labelGraph 500 raceRecords, ts) ∧
    Task.ec (exactClass (name "u.c.a.x.org.") axJob.types) ∈ ts ∧
    ∃ n out q, Produces axJob.types (Prod.ofJob (labelGraph 500 raceRecords) axJob es) n out q ∧ q.Done ∧
      Task.ec (exactClass (name "u.c.a.x.org.") axJob.types) ∉ out := by
  obtain ⟨g', ts, h1, h2, h3⟩ := gen_of (g := labelGraph 500 raceRecords) (job := axJob)
    (fun g' ts => g' = labelGraph 500 raceRecords ∧ Task.ec (exactClass (name "u.c.a.x.org.") axJob.types) ∈ ts) (by decide +kernel)
  subst h2
  obtain ⟨q, out, h4, h5⟩ := sched_of (types := axJob.types) (p := Prod.ofJob (labelGraph 500 raceRecords) axJob [(5, 3), (8, 3)])
    (l := List.replicate 13 0 ++ List.replicate 17 1 ++ List.replicate 18 0)
    (fun q ts => q.Done ∧ Task.ec (exactClass (name "u.c.a.x.org.") axJob.types) ∉ ts) (by decide +kernel)
  exact ⟨_, ts, encl_of (by decide +kernel), h1, h3, _, out, q, h4, h5⟩

/-- The job asking for all names under `s.org`. -/
def sJob : LGraph.Req := ⟨"s.org.".toList, true, false, TypeSet.single .A⟩

/-- **C74, disagreement** The label graph need not be what it was: one thread saves the mark left by the other and puts it back at the end.  A later
job then loses a class (that of `u.w.v.s.org`), although that job has only one thread. -/
theorem C74_disagreement_marks : ∃ es n out q, LGraph.closestEnclosers 1000 (labelGraph 500 raceRecords) (stringToLabels axJob.domain) = .ok (labelGraph 500 raceRecords, es) ∧
    Produces axJob.types (Prod.ofJob (labelGraph 500 raceRecords) axJob es) n out q ∧ q.Done ∧ q.graph ≠ labelGraph 500 raceRecords ∧
    (∃ g' ts, LGraph.generateECs 1000 (labelGraph 500 raceRecords) sJob = .ok (g', ts) ∧ Task.ec (exactClass (name "u.w.v.s.org.") sJob.types) ∈ ts) ∧
    (∃ g' ts, LGraph.generateECs 1000 q.graph sJob = .ok (g', ts) ∧ Task.ec (exactClass (name "u.w.v.s.org.") sJob.types) ∉ ts) := by
  obtain ⟨q, out, h4, h5, h6, h7⟩ := sched_of (types := axJob.types) (p := Prod.ofJob (labelGraph 500 raceRecords) axJob [(5, 3), (8, 3)])
    (l := List.replicate 11 0 ++ List.replicate 11 1 ++ List.replicate 2 0 ++ List.replicate 1 1 ++ List.replicate 18 0 ++ List.replicate 19 1)
    (fun q _ => q.Done ∧ q.graph ≠ labelGraph 500 raceRecords ∧
      (match LGraph.generateECs 1000 q.graph sJob with | .ok r => decide (Task.ec (exactClass (name "u.w.v.s.org.") sJob.types) ∉ r.2) | _ => false) = true) (by decide +kernel)
  refine ⟨_, _, out, q, encl_of (by decide +kernel), h4, h5, h6, ?_, ?_⟩
  · exact gen_of (g := labelGraph 500 raceRecords) (job := sJob) (fun _ ts => Task.ec (exactClass (name "u.w.v.s.org.") sJob.types) ∈ ts) (by decide +kernel)
  · exact gen_of (g := q.graph) (job := sJob) (fun _ ts => Task.ec (exactClass (name "u.w.v.s.org.") sJob.types) ∉ ts) h7

/-- As before, with names of different lengths and `t.org` redirected to itself. -/
def spinRecords : List (RR × Nat × Nat) :=
  [(rr "x.org." .DNAME "y.org.", 0, 1), (rr "x.org." .DNAME "z.org.", 1, 1), (rr "b.a.y.org." .DNAME "t.org.", 2, 1),
   (rr "cc.a.z.org." .DNAME "t.org.", 3, 1), (rr "t.org." .DNAME "t.org.", 4, 1)]

/-- Which thread moves: first each up to its first visit of `t.org`, then five steps each in turn. -/
def spinTurn (n : Nat) : Nat := if n < 10 then 0 else if n < 20 then 1 else (n - 20) / 5 % 2

/-- The stretch repeated. -/
def spinPeriod : List Nat := [0, 0, 0, 0, 0, 1, 1, 1, 1, 1]

theorem spinTurn_range (n : Nat) : (List.range (30 + n * 10)).map spinTurn = (List.range 30).map spinTurn ++ (List.replicate n spinPeriod).flatten := by
  induction n with
  | zero => simp
  | succ n ih =>
    rw [show 30 + (n + 1) * 10 = 30 + n * 10 + 10 by omega, List.range_add, List.map_append, ih, List.replicate_succ', List.flatten_append, List.append_assoc]
    congr 2
    rw [List.map_map]
    have h : ∀ i < 10, spinTurn (30 + n * 10 + i) = if i < 5 then 0 else 1 := by
      intro i hi
      unfold spinTurn
      rw [if_neg (by omega), if_neg (by omega)]
      split <;> omega
    have h2 : (List.range 10).map (fun i => if i < 5 then 0 else 1) = spinPeriod := by decide
    rw [List.flatten_singleton, ← h2]
    apply List.map_congr_left
    intro i hi
    exact h i (List.mem_range.mp hi)

/-- **C74, disagreement** Generation may go on forever: two threads that are inside a DNAME loop with names of different lengths keep overwriting each
other's mark, so that neither recognises the loop, although both keep moving.  Their recursion gets deeper and deeper. -/
theorem C74_disagreement_endless : ∃ es, LGraph.closestEnclosers 1000 (labelGraph 500 spinRecords) (stringToLabels axJob.domain) = .ok (labelGraph 500 spinRecords, es) ∧
    ∃ σ : Nat → Prod.Pool, σ 0 = Prod.ofJob (labelGraph 500 spinRecords) axJob es ∧
      (∀ n, ∃ i o, Prod.Step axJob.types i (σ n) o (σ (n + 1))) ∧
      (∀ n, ∀ i < es.length, ∃ m, n ≤ m ∧ ∃ o, Prod.Step axJob.types i (σ m) o (σ (m + 1))) ∧
      ∀ d, ∃ n, ∀ st ∈ (σ n).threads, d ≤ st.length := by
  refine ⟨[(5, 3), (8, 3)], encl_of (by decide +kernel), ?_⟩
  let c0 : Prod.Call := ⟨7, name "b.a.x.org.", true, false⟩
  let c1 : Prod.Call := ⟨7, name "cc.a.x.org.", true, false⟩
  have hpre : ∃ g K L ts, Prod.sched axJob.types (Prod.ofJob (labelGraph 500 spinRecords) axJob [(5, 3), (8, 3)]) ((List.range 30).map spinTurn) =
      some (⟨g, [[.entry c0] ++ K, [.entry c1] ++ L]⟩, ts) ∧
      Prod.sched axJob.types ⟨g, [[.entry c0], [.entry c1]]⟩ spinPeriod =
        some (⟨g, [[.entry c0] ++ [.loop c0 11 [] false], [.entry c1] ++ [.loop c1 10 [] false]]⟩, []) := by
    have h : (match Prod.sched axJob.types (Prod.ofJob (labelGraph 500 spinRecords) axJob [(5, 3), (8, 3)]) ((List.range 30).map spinTurn) with
      | some (⟨g, [A, B]⟩, _) => decide (A.take 1 = [.entry c0] ∧ B.take 1 = [.entry c1] ∧
        Prod.sched axJob.types ⟨g, [[.entry c0], [.entry c1]]⟩ spinPeriod =
          some (⟨g, [[.entry c0] ++ [.loop c0 11 [] false], [.entry c1] ++ [.loop c1 10 [] false]]⟩, []))
      | _ => false) = true := by decide +kernel
    split at h
    · rename_i g A B ts he
      obtain ⟨h1, h2, h3⟩ := of_decide_eq_true h
      refine ⟨g, A.drop 1, B.drop 1, ts, ?_, h3⟩
      rw [he, ← h1, ← h2, List.take_append_drop, List.take_append_drop]
    · cases h
  obtain ⟨g, K, L, ts, h1, h2⟩ := hpre
  have key := fun n => Prod.sched_spin (s := spinTurn) _ _ _ _ _ _ _ K L ts (by
    intro n
    rw [List.length_map, List.length_range]
    exact spinTurn_range n) h1 h2 n
  simp only [List.length_map, List.length_range, show spinPeriod.length = 10 from rfl] at key
  obtain ⟨σ, h3, h4⟩ := Prod.sched_run (types := axJob.types) (p := Prod.ofJob (labelGraph 500 spinRecords) axJob [(5, 3), (8, 3)]) spinTurn (by
    intro n
    exact ⟨30 + n * 10, by omega, by rw [key n]; rfl⟩)
  refine ⟨σ, ?_, fun n => ?_, ?_, ?_⟩
  · obtain ⟨ts, h5⟩ := h3 0
    simp only [List.range_zero, List.map_nil, Prod.sched, Option.some.injEq, _root_.Prod.mk.injEq] at h5
    exact h5.1.symm
  · obtain ⟨o, ho⟩ := h4 n
    exact ⟨_, o, ho⟩
  · intro n i hi
    have hi' : i < 2 := hi
    refine ⟨30 + n * 10 + 5 * i, by omega, ?_⟩
    have e : spinTurn (30 + n * 10 + 5 * i) = i := by
      unfold spinTurn
      rw [if_neg (by omega), if_neg (by omega)]
      omega
    obtain ⟨o, ho⟩ := h4 (30 + n * 10 + 5 * i)
    rw [e] at ho
    exact ⟨o, ho⟩
  · intro d
    refine ⟨30 + d * 10, ?_⟩
    obtain ⟨ts', h5⟩ := h3 (30 + d * 10)
    rw [key d] at h5
    simp only [Option.some.injEq, _root_.Prod.mk.injEq] at h5
    rw [← h5.1]
    intro st hst
    simp only [List.mem_cons, List.not_mem_nil, or_false] at hst
    rcases hst with rfl | rfl <;> simp <;> omega

end Groot
