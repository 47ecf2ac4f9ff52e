import Verif.Lemmas.Generate
import Verif.Lemmas.Budget
import Verif.Spec.Producers
import Mathlib.Tactic.SplitIfs
import Mathlib.Tactic.Push
import Mathlib.Data.List.Forall2

/-! # The producer threads -/

namespace Groot
open Spec

namespace Prod

/-- A number of steps of one thread alone. -/
inductive Goes (types : TypeSet) : Nat → LGraph → List Frame → List Task → LGraph → List Frame → Prop where
  | refl (g st) : Goes types 0 g st [] g st
  | step {n g st g1 st1 o ts g2 st2} : step types g st = some (g1, st1, o) → Goes types n g1 st1 ts g2 st2 →
      Goes types (n + 1) g st (o.toList ++ ts) g2 st2

theorem Goes.trans {types : TypeSet} {n m : Nat} {g st ts g1 st1 ts' g2 st2} (h : Goes types n g st ts g1 st1) (h' : Goes types m g1 st1 ts' g2 st2) :
    Goes types (n + m) g st (ts ++ ts') g2 st2 := by
  induction h with
  | refl => rw [Nat.zero_add]; exact h'
  | @step n _ _ _ _ _ _ _ _ h1 _ ih =>
    rw [Nat.add_right_comm, List.append_assoc]
    exact .step h1 (ih h')

theorem Goes.one {types : TypeSet} {g st g1 st1 o} (h : Prod.step types g st = some (g1, st1, o)) : Goes types 1 g st o.toList g1 st1 := by
  have := Goes.step h (.refl g1 st1)
  rwa [List.append_nil] at this

/-- The loop over the out-edges. -/
theorem goes_loop {types : TypeSet} {g1 : LGraph} (c : Call) (before : Int) (k : List Frame) (edges : List (EdgeType × Nat))
    (out : EdgeType × Nat → List Task)
    (h : ∀ e ∈ edges, ∀ k, ∃ n, Goes types n g1 (.entry (callee g1 c e) :: k) (out e) g1 k) :
    ∀ w, ∃ n, Goes types n g1 (.loop c before edges w :: k) (edges.flatMap out) (LGraph.setLen g1 c.start before)
      (.node c (w || edges.any (isStar g1)) :: k) := by
  induction edges with
  | nil => intro w; refine ⟨1, ?_⟩; simpa using Goes.one (types := types) (g := g1) (st := .loop c before [] w :: k) rfl
  | cons e edges ih =>
    intro w
    obtain ⟨n, h1⟩ := h e (by simp) (.loop c before edges (w || isStar g1 e) :: k)
    obtain ⟨m, h2⟩ := ih (fun e he => h e (by simp [he])) (w || isStar g1 e)
    refine ⟨1 + (n + m), ?_⟩
    have h3 : Goes types 1 g1 (.loop c before (e :: edges) w :: k) [] g1 (.entry (callee g1 c e) :: .loop c before edges (w || isStar g1 e) :: k) :=
      Goes.one (o := none) rfl
    have h4 := h3.trans (h1.trans h2)
    simpa [Bool.or_assoc] using h4

/-- A thread alone does what the recursive function says. -/
theorem goes_of_ok {types : TypeSet} : ∀ (fuel : Nat) (g : LGraph) (c : Call) (g' : LGraph) (ts : List Task),
    LGraph.subDomainECs types fuel g c.start c.parent c.skip c.structural = .ok (g', ts) →
    ∀ k, ∃ n, Goes types n g (.entry c :: k) ts g k := by
  intro fuel
  induction fuel with
  | zero => intro g c g' ts h; rw [LGraph.subDomainECs] at h; cases h
  | succ fuel ih =>
    intro g c g' ts h k
    rcases subDomainECs_ok h (name := c.name g) rfl with ⟨hc, rfl⟩ | ⟨h1, h2, out, h3, h4⟩
    · by_cases h0 : octets c.parent ≥ kMaxDomainLength ∨ ((octets c.parent : Int) = lens g c.start ∧ c.skip = true)
      · refine ⟨1, Goes.one (o := none) ?_⟩
        unfold Prod.step
        dsimp only
        rw [if_pos (by rw [nameLen_eq]; exact h0)]
      · have h5 : octets (c.name g) ≥ kMaxDomainLength := by
          rcases hc with hc | hc | hc
          · exact absurd (Or.inl hc) h0
          · exact absurd (Or.inr hc) h0
          · exact hc
        have s1 : Prod.step types g (.entry c :: k) = some (g, .save c :: k, none) := by
          unfold Prod.step
          dsimp only
          rw [if_neg (by rw [nameLen_eq]; exact h0)]
        have s2 : Prod.step types g (.save c :: k) = some (g, k, none) := by
          unfold Prod.step
          dsimp only
          rw [if_pos (by rw [nameLen_eq]; exact h5)]
        exact ⟨1 + 1, (Goes.one s1).trans (Goes.one s2)⟩
    · have h0 : ¬ (octets c.parent ≥ kMaxDomainLength ∨ ((octets c.parent : Int) = lens g c.start ∧ c.skip = true)) := by
        rintro (h0 | h0)
        · have := ecName_octets (g.vtx c.start).label c.parent c.skip
          unfold Call.name at h1
          omega
        · exact h2 h0
      generalize hg1 : LGraph.setLen g c.start (octets (c.name g)) = g1 at h3
      have s1 : Prod.step types g (.entry c :: k) = some (g, .save c :: k, none) := by
        unfold Prod.step
        dsimp only
        rw [if_neg (by rw [nameLen_eq]; exact h0)]
      have s2 : Prod.step types g (.save c :: k) = some (g, .write c (lens g c.start) :: k, none) := by
        unfold Prod.step
        dsimp only
        rw [if_neg (by rw [nameLen_eq]; omega)]
        rfl
      have s3 : Prod.step types g (.write c (lens g c.start) :: k) = some (g1, .announce c (lens g c.start) :: k, none) := by
        unfold Prod.step
        dsimp only
        rw [nameLen_eq, hg1]
      have hlab : ∀ v, (g1.vtx v).label = (g.vtx v).label := by intro v; rw [← hg1, vtx_setLen]; split <;> rfl
      have hedg : ∀ v, (g1.vtx v).edges = (g.vtx v).edges := by intro v; rw [← hg1, vtx_setLen]; split <;> rfl
      have hname : c.name g1 = c.name g := by unfold Call.name; rw [hlab]
      have hstar : isStar g1 = isStar g := by funext e; unfold isStar; rw [hlab]
      have s4 : Prod.step types g1 (.announce c (lens g c.start) :: k) = some (g1, .loop c (lens g c.start) (g.vtx c.start).edges false :: k,
          if c.structural then some (Task.structural c.start (labelsToString (c.name g))) else none) := by
        unfold Prod.step
        dsimp only
        rw [hname, hedg]
      have hloop := goes_loop (types := types) (g1 := g1) c (lens g c.start) k (g.vtx c.start).edges out (by
        intro e he k'
        have := h3 e he
        unfold edgeCall at this
        unfold callee
        rw [hname]
        split at this
        · rename_i hn
          rw [if_pos hn]
          exact ih g1 ⟨e.2, c.name g, false, c.structural⟩ _ _ this k'
        · rename_i hn
          rw [if_neg hn]
          exact ih g1 ⟨e.2, c.name g, true, false⟩ _ _ this k') false
      obtain ⟨n, hl⟩ := hloop
      have hback : LGraph.setLen g1 c.start (lens g c.start) = g := by rw [← hg1]; exact setLen_restore g _ _
      rw [hback, hstar, Bool.false_or] at hl
      generalize hw : (g.vtx c.start).edges.any (isStar g) = w at *
      have s5 : Prod.step types g (.node c w :: k) = some (g, .last c w :: k, if !c.skip then some (.ec (exactClass (c.name g) types)) else none) := rfl
      have s6 : Prod.step types g (.last c w :: k) = some (g, k, some (.ec (LGraph.lastEC w (c.name g) types))) := rfl
      refine ⟨1 + (1 + (1 + (1 + (n + (1 + 1))))), ?_⟩
      rw [h4]
      have := (Goes.one s1).trans ((Goes.one s2).trans ((Goes.one s3).trans ((Goes.one s4).trans (hl.trans ((Goes.one s5).trans (Goes.one s6))))))
      convert this using 1
      cases c.structural <;> cases c.skip <;> simp

/-! ### Threads that keep apart -/

/-- The same graph, except perhaps for the scratch fields outside `R`. -/
structure Near (R : Nat → Prop) (g h : LGraph) : Prop where
  len : g.verts.length = h.verts.length
  maps : g.maps = h.maps
  label : ∀ v, (g.vtx v).label = (h.vtx v).label
  edges : ∀ v, (g.vtx v).edges = (h.vtx v).edges
  types : ∀ v, (g.vtx v).data.types = (h.vtx v).data.types
  zv : ∀ v, (g.vtx v).data.zv = (h.vtx v).data.zv
  scratch : ∀ v, R v → (g.vtx v).data.len = (h.vtx v).data.len

theorem Near.refl (R : Nat → Prop) (g : LGraph) : Near R g g := ⟨rfl, rfl, fun _ => rfl, fun _ => rfl, fun _ => rfl, fun _ => rfl, fun _ _ => rfl⟩

theorem Near.symm {R : Nat → Prop} {g h : LGraph} (a : Near R g h) : Near R h g :=
  ⟨a.len.symm, a.maps.symm, fun v => (a.label v).symm, fun v => (a.edges v).symm, fun v => (a.types v).symm, fun v => (a.zv v).symm, fun v hv => (a.scratch v hv).symm⟩

theorem Near.trans {R : Nat → Prop} {g h i : LGraph} (a : Near R g h) (b : Near R h i) : Near R g i :=
  ⟨a.len.trans b.len, a.maps.trans b.maps, fun v => (a.label v).trans (b.label v), fun v => (a.edges v).trans (b.edges v), fun v => (a.types v).trans (b.types v),
   fun v => (a.zv v).trans (b.zv v), fun v hv => (a.scratch v hv).trans (b.scratch v hv)⟩

theorem Near.mono {R S : Nat → Prop} {g h : LGraph} (a : Near R g h) (hs : ∀ v, S v → R v) : Near S g h :=
  ⟨a.len, a.maps, a.label, a.edges, a.types, a.zv, fun v hv => a.scratch v (hs v hv)⟩

theorem Near.eq {g h : LGraph} (a : Near (fun _ => True) g h) : g = h := by
  obtain ⟨gv, gm⟩ := g
  obtain ⟨hv, hm⟩ := h
  have h1 : gm = hm := a.maps
  have h2 : gv = hv := by
    apply List.ext_getElem a.len
    intro i hi hi'
    have e1 : (⟨gv, gm⟩ : LGraph).vtx i = gv[i] := by unfold Trie.vtx; rw [List.getD_eq_getElem?_getD, List.getElem?_eq_getElem hi]; rfl
    have e2 : (⟨hv, hm⟩ : LGraph).vtx i = hv[i] := by unfold Trie.vtx; rw [List.getD_eq_getElem?_getD, List.getElem?_eq_getElem hi']; rfl
    have b1 := a.label i
    have b2 := a.edges i
    have b3 := a.types i
    have b4 := a.zv i
    have b5 := a.scratch i trivial
    rw [e1, e2] at b1 b2 b3 b4 b5
    generalize gv[i] = x at *
    generalize hv[i] = y at *
    obtain ⟨x1, x2, x3, x4, x5⟩ := x
    obtain ⟨y1, y2, y3, y4, y5⟩ := y
    simp only at b1 b2 b3 b4 b5
    subst b1 b2 b3 b4 b5
    rfl
  rw [h1, h2]

theorem Near.setLen {R : Nat → Prop} {g h : LGraph} (a : Near R g h) (v : Nat) (n : Int) : Near R (LGraph.setLen g v n) (LGraph.setLen h v n) := by
  refine ⟨by rw [setLen_length, setLen_length, a.len], a.maps, ?_, ?_, ?_, ?_, ?_⟩ <;> intro w <;> rw [vtx_setLen, vtx_setLen, a.len] <;> try intro hw
  · split_ifs <;> exact a.label w
  · split_ifs <;> exact a.edges w
  · split_ifs <;> exact a.types w
  · split_ifs <;> exact a.zv w
  · split_ifs
    · rfl
    · exact a.scratch w hw

theorem near_setLen {R : Nat → Prop} (g : LGraph) {v : Nat} (n : Int) (hv : R v) : Near (fun u => ¬ R u) g (LGraph.setLen g v n) := by
  refine ⟨(setLen_length _ _ _).symm, rfl, ?_, ?_, ?_, ?_, ?_⟩ <;> intro w <;> rw [vtx_setLen] <;> try intro hw
  · split_ifs <;> rfl
  · split_ifs <;> rfl
  · split_ifs <;> rfl
  · split_ifs <;> rfl
  · rw [if_neg]
    rintro ⟨rfl, _⟩
    exact hw hv

/-- The vertices a frame is about are in `R`. -/
def Frame.In (R : Nat → Prop) : Frame → Prop
  | .entry c | .save c | .write c _ | .announce c _ | .node c _ | .last c _ => R c.start
  | .loop c _ rest _ => R c.start ∧ ∀ e ∈ rest, R e.2

/-- Closed under the edges. -/
def Closed (R : Nat → Prop) (g : LGraph) : Prop := ∀ v, R v → ∀ e ∈ (g.vtx v).edges, R e.2

theorem Near.name {R : Nat → Prop} {g h : LGraph} (a : Near R g h) (c : Call) : c.name g = c.name h := by unfold Call.name; rw [a.label]

theorem Near.callee {R : Nat → Prop} {g h : LGraph} (a : Near R g h) (c : Call) (e : EdgeType × Nat) : callee g c e = callee h c e := by
  unfold Prod.callee; rw [a.name]

theorem callee_start (g : LGraph) (c : Call) (e : EdgeType × Nat) : (callee g c e).start = e.2 := by unfold callee; split <;> rfl

/-- A step of a thread that stays in `R` depends on nothing outside `R` and changes nothing there. -/
theorem step_near {types : TypeSet} {R : Nat → Prop} {g h : LGraph} (hc : Closed R g) (a : Near R g h) {st : List Frame} (hin : ∀ f ∈ st, f.In R)
    {g' : LGraph} {st' : List Frame} {o : Option Task} (hs : step types g st = some (g', st', o)) :
    (∃ h', step types h st = some (h', st', o) ∧ Near R g' h') ∧ (∀ f ∈ st', f.In R) ∧ Near (fun v => ¬ R v) g g' := by
  have tail : ∀ {f : Frame} {k : List Frame}, st = f :: k → ∀ x ∈ k, x.In R := fun e x hx => hin x (by rw [e]; simp [hx])
  have head : ∀ {f : Frame} {k : List Frame}, st = f :: k → f.In R := fun e => hin _ (by rw [e]; simp)
  match st, hs with
  | .entry c :: k, hs =>
    have hR : R c.start := head rfl
    have htl := tail rfl
    unfold step at hs ⊢
    dsimp only at hs ⊢
    rw [← a.scratch _ hR]
    split at hs
    · rename_i hcond
      cases hs
      exact ⟨⟨h, by rw [if_pos hcond], a⟩, htl, .refl _ _⟩
    · rename_i hcond
      cases hs
      exact ⟨⟨h, by rw [if_neg hcond], a⟩, List.forall_mem_cons.mpr ⟨hR, htl⟩, .refl _ _⟩
  | .save c :: k, hs =>
    have hR : R c.start := head rfl
    have htl := tail rfl
    unfold step at hs ⊢
    dsimp only at hs ⊢
    rw [← a.scratch _ hR, ← a.name]
    split at hs
    · rename_i hcond
      cases hs
      exact ⟨⟨h, by rw [if_pos hcond], a⟩, htl, .refl _ _⟩
    · rename_i hcond
      cases hs
      exact ⟨⟨h, by rw [if_neg hcond], a⟩, List.forall_mem_cons.mpr ⟨hR, htl⟩, .refl _ _⟩
  | .write c b :: k, hs =>
    have hR : R c.start := head rfl
    unfold step at hs ⊢
    dsimp only at hs ⊢
    rw [← a.name]
    cases hs
    exact ⟨⟨_, rfl, a.setLen _ _⟩, List.forall_mem_cons.mpr ⟨hR, tail rfl⟩, near_setLen _ _ hR⟩
  | .announce c b :: k, hs =>
    have hR : R c.start := head rfl
    unfold step at hs ⊢
    dsimp only at hs ⊢
    rw [← a.name, ← a.edges]
    cases hs
    exact ⟨⟨_, rfl, a⟩, List.forall_mem_cons.mpr ⟨⟨hR, hc _ hR⟩, tail rfl⟩, .refl _ _⟩
  | .loop c b (e :: rest) w :: k, hs =>
    have hR : R c.start ∧ ∀ x ∈ e :: rest, R x.2 := head rfl
    unfold step at hs ⊢
    dsimp only at hs ⊢
    rw [← a.label, ← a.callee]
    cases hs
    refine ⟨⟨_, rfl, a⟩, ?_, .refl _ _⟩
    rw [List.forall_mem_cons, List.forall_mem_cons]
    refine ⟨?_, ⟨hR.1, fun x hx => hR.2 x (by simp [hx])⟩, tail rfl⟩
    show R (callee g c e).start
    rw [callee_start]
    exact hR.2 e (by simp)
  | .loop c b [] w :: k, hs =>
    have hR : R c.start ∧ _ := head rfl
    unfold step at hs ⊢
    dsimp only at hs ⊢
    cases hs
    exact ⟨⟨_, rfl, a.setLen _ _⟩, List.forall_mem_cons.mpr ⟨hR.1, tail rfl⟩, near_setLen _ _ hR.1⟩
  | .node c w :: k, hs =>
    have hR : R c.start := head rfl
    unfold step at hs ⊢
    dsimp only at hs ⊢
    rw [← a.name]
    cases hs
    exact ⟨⟨_, rfl, a⟩, List.forall_mem_cons.mpr ⟨hR, tail rfl⟩, .refl _ _⟩
  | .last c w :: k, hs =>
    unfold step at hs ⊢
    dsimp only at hs ⊢
    rw [← a.name]
    cases hs
    exact ⟨⟨_, rfl, a⟩, tail rfl, .refl _ _⟩

/-- A thread that has not returned can make a step. -/
theorem step_enabled (types : TypeSet) (g : LGraph) {st : List Frame} (h : st ≠ []) : ∃ x, step types g st = some x := by
  match st, h with
  | .entry c :: k, _ => unfold step; dsimp only; split <;> exact ⟨_, rfl⟩
  | .save c :: k, _ => unfold step; dsimp only; split <;> exact ⟨_, rfl⟩
  | .write c b :: k, _ => exact ⟨_, rfl⟩
  | .announce c b :: k, _ => exact ⟨_, rfl⟩
  | .loop c b (e :: rest) w :: k, _ => exact ⟨_, rfl⟩
  | .loop c b [] w :: k, _ => exact ⟨_, rfl⟩
  | .node c w :: k, _ => exact ⟨_, rfl⟩
  | .last c w :: k, _ => exact ⟨_, rfl⟩

/-- What is left of a thread: the vertices it stays in, the number of its steps, and the tasks it will enqueue. -/
structure Ghost where
  R : Nat → Prop
  n : Nat
  ts : List Task

/-- Seen from its own vertices, the thread with stack `st` goes on as if it were alone. -/
def Alone (types : TypeSet) (g0 g : LGraph) (st : List Frame) (γ : Ghost) : Prop :=
  Closed γ.R g0 ∧ (∀ f ∈ st, f.In γ.R) ∧ ∃ h, Near γ.R g h ∧ Goes types γ.n h st γ.ts g0 []

structure PoolInv (types : TypeSet) (g0 : LGraph) (p : Pool) (γs : List Ghost) : Prop where
  base : Near (fun v => ∀ γ ∈ γs, ¬ γ.R v) p.graph g0
  alone : List.Forall₂ (Alone types g0 p.graph) p.threads γs
  apart : γs.Pairwise (fun a b => ∀ v, a.R v → ¬ b.R v)

theorem Closed.near {R S : Nat → Prop} {g h : LGraph} (a : Near S g h) (hc : Closed R h) : Closed R g := by
  intro v hv e he
  rw [a.edges] at he
  exact hc v hv e he

theorem Goes.cut {types : TypeSet} {n : Nat} {g g1 g2 : LGraph} {st st1 : List Frame} {o : Option Task} {ts : List Task}
    (h : Goes types n g st ts g2 []) (hs : Prod.step types g st = some (g1, st1, o)) :
    ∃ m ts', n = m + 1 ∧ ts = o.toList ++ ts' ∧ Goes types m g1 st1 ts' g2 [] := by
  cases h with
  | refl => cases hs
  | @step m _ _ _ _ _ ts' _ _ h1 h2 =>
    rw [hs] at h1
    simp only [Option.some.injEq, Prod.mk.injEq] at h1
    obtain ⟨e1, e2, e3⟩ := h1
    rw [← e1, ← e2] at h2
    exact ⟨m, ts', rfl, by rw [e3], h2⟩

theorem forall₂_split {α β : Type} {r : α → β → Prop} {a b : List α} {x : α} {l : List β} (h : List.Forall₂ r (a ++ x :: b) l) :
    ∃ a' y b', l = a' ++ y :: b' ∧ a'.length = a.length ∧ List.Forall₂ r a a' ∧ r x y ∧ List.Forall₂ r b b' := by
  induction a generalizing l with
  | nil =>
    cases h with
    | cons h1 h2 => exact ⟨[], _, _, rfl, rfl, .nil, h1, h2⟩
  | cons z a ih =>
    cases h with
    | @cons _ y _ l' h1 h2 =>
      obtain ⟨a', y', b', rfl, h3, h4, h5, h6⟩ := ih h2
      exact ⟨y :: a', y', b', rfl, by simp [h3], .cons h1 h4, h5, h6⟩

theorem forall₂_join {α β : Type} {r : α → β → Prop} {a b : List α} {a' b' : List β} {x : α} {y : β} (h1 : List.Forall₂ r a a') (h2 : r x y)
    (h3 : List.Forall₂ r b b') : List.Forall₂ r (a ++ x :: b) (a' ++ y :: b') := by
  induction h1 with
  | nil => exact .cons h2 h3
  | cons h _ ih => exact .cons h ih

theorem forall₂_weak {α β : Type} {r r' : α → β → Prop} {a : List α} {b : List β} (h : List.Forall₂ r a b) (hr : ∀ x, ∀ y ∈ b, r x y → r' x y) :
    List.Forall₂ r' a b := by
  induction h with
  | nil => exact .nil
  | cons h1 _ ih => exact .cons (hr _ _ (by simp) h1) (ih (fun x y hy => hr x y (by simp [hy])))

/-- One step of a pool of threads that keep apart. -/
theorem PoolInv.step {types : TypeSet} {g0 : LGraph} {p p' : Pool} {γs : List Ghost} {i : Nat} {o : Option Task} (h : PoolInv types g0 p γs)
    (hs : Step types i p o p') :
    ∃ pre γ post m ts, γs = pre ++ γ :: post ∧ pre.length = i ∧ γ.n = m + 1 ∧ γ.ts = o.toList ++ ts ∧
      PoolInv types g0 p' (pre ++ ⟨γ.R, m, ts⟩ :: post) := by
  obtain ⟨a, b, st, st', _, hp, hi, h1⟩ := hs
  have h2 := h.alone
  rw [hp] at h2
  obtain ⟨pre, γ, post, rfl, hlen, f1, ⟨hc, hin, x, hx, hgo⟩, f2⟩ := forall₂_split h2
  obtain ⟨⟨x', hx1, hx2⟩, hin', hoff⟩ := step_near (Closed.near h.base hc) hx hin h1
  obtain ⟨m, ts, e1, e2, hgo'⟩ := hgo.cut hx1
  refine ⟨pre, γ, post, m, ts, rfl, hlen.trans hi, e1, e2, ?_, ?_, ?_⟩
  · refine (hoff.mono ?_).symm.trans (h.base.mono ?_)
    · intro v hv; exact hv ⟨γ.R, m, ts⟩ (by simp)
    · intro v hv γ' hγ'
      rcases List.mem_append.mp hγ' with hγ' | hγ'
      · exact hv γ' (by simp [hγ'])
      · rcases List.mem_cons.mp hγ' with rfl | hγ'
        · exact hv ⟨γ'.R, m, ts⟩ (by simp)
        · exact hv γ' (by simp [hγ'])
  · have hap := h.apart
    rw [List.pairwise_append, List.pairwise_cons] at hap
    refine forall₂_join (forall₂_weak f1 ?_) ⟨hc, hin', x', hx2, hgo'⟩ (forall₂_weak f2 ?_)
    · rintro st1 γ1 hγ1 ⟨a1, a2, y, a3, a4⟩
      exact ⟨a1, a2, y, (hoff.mono (fun v hv => hap.2.2 γ1 hγ1 γ (by simp) v hv)).symm.trans a3, a4⟩
    · rintro st1 γ1 hγ1 ⟨a1, a2, y, a3, a4⟩
      exact ⟨a1, a2, y, (hoff.mono (fun v hv hc => hap.2.1.1 γ1 hγ1 v hc hv)).symm.trans a3, a4⟩
  · have hap := h.apart
    rw [List.pairwise_append, List.pairwise_cons] at hap ⊢
    refine ⟨hap.1, ⟨hap.2.1.1, hap.2.1.2⟩, ?_⟩
    intro γ1 h1 γ2 h2
    rcases List.mem_cons.mp h2 with rfl | h2
    · exact hap.2.2 γ1 h1 γ (by simp)
    · exact hap.2.2 γ1 h1 γ2 (by simp [h2])

theorem forall₂_of_right {α β : Type} {r : α → β → Prop} {a : List α} {b : List β} (h : List.Forall₂ r a b) {y : β} (hy : y ∈ b) : ∃ x ∈ a, r x y := by
  induction h with
  | nil => cases hy
  | cons h1 _ ih =>
    rcases List.mem_cons.mp hy with rfl | hy
    · exact ⟨_, by simp, h1⟩
    · obtain ⟨x, hx, h2⟩ := ih hy
      exact ⟨x, by simp [hx], h2⟩

theorem Goes.ended {types : TypeSet} {n : Nat} {g g1 : LGraph} {ts : List Task} {st : List Frame} (h : Goes types n g [] ts g1 st) : ts = [] ∧ g1 = g ∧ n = 0 := by
  cases h with
  | refl => exact ⟨rfl, rfl, rfl⟩
  | step h => cases h

/-- When all threads have returned, nothing is left to do and the graph is what it was. -/
theorem PoolInv.done {types : TypeSet} {g0 : LGraph} {p : Pool} {γs : List Ghost} (h : PoolInv types g0 p γs) (hd : p.Done) :
    p.graph = g0 ∧ ∀ γ ∈ γs, γ.ts = [] := by
  have key : ∀ γ ∈ γs, γ.ts = [] ∧ Near γ.R p.graph g0 := by
    intro γ hγ
    obtain ⟨st, hst, _, _, x, hx, hgo⟩ := forall₂_of_right h.alone hγ
    rw [hd st hst] at hgo
    obtain ⟨e1, e2, _⟩ := hgo.ended
    rw [← e2] at hx
    exact ⟨e1, hx⟩
  refine ⟨?_, fun γ hγ => (key γ hγ).1⟩
  apply Near.eq
  refine { h.base with scratch := ?_ }
  intro v _
  by_cases hv : ∀ γ ∈ γs, ¬ γ.R v
  · exact h.base.scratch v hv
  · push Not at hv
    obtain ⟨γ, hγ, hv⟩ := hv
    exact (key γ hγ).2.scratch v hv

end Prod
end Groot
