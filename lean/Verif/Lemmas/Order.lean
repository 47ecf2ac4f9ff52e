import Verif.Props.Threaded
import Verif.Spec.Order
import Verif.Props.StructuralRun

/-!
# Contexts that answer alike (for C97)
-/

namespace Groot

open Spec Driver

/-! ### The graph of a question -/

/-- Two zones that answer every question alike. -/
def Answers2 (thr : Nat) (z z' : Zone) : Prop := ∀ q, ∃ as b b', z.lookup thr q = .ok (as, b) ∧ z'.lookup thr q = .ok (as, b')

/-- Two zones, by their numbers in two contexts, that answer every question alike. -/
def Twins (thr : Nat) (ctx ctx' : Context) (k k' : Nat) : Prop :=
  ∃ z z', ctx.zones.lookup k = some z ∧ ctx'.zones.lookup k' = some z' ∧ Answers2 thr z z'

/-- Two contexts in which every question put to a server gets the same answer. -/
structure SameAnswers (thr : Nat) (ctx ctx' : Context) : Prop where
  top : ctx.top = ctx'.top
  listed : ∀ s, ctx.nsZones.lookup s = none ↔ ctx'.nsZones.lookup s = none
  zone : ∀ s n, (relevantZone ctx s n = .ok none ∧ relevantZone ctx' s n = .ok none) ∨
    ∃ k k', relevantZone ctx s n = .ok (some k) ∧ relevantZone ctx' s n = .ok (some k') ∧ Twins thr ctx ctx' k k'

/-- The same call, up to the number of the zone. -/
inductive SameWork (thr : Nat) (ctx ctx' : Context) : Work → Work → Prop where
  | other (w : Work) (h : ∀ k v, w ≠ .resolve k v) : SameWork thr ctx ctx' w w
  | resolve (k k' v : Nat) (h : Twins thr ctx ctx' k k') : SameWork thr ctx ctx' (.resolve k v) (.resolve k' v)

/-- The same outcome, up to the numbers of zones in the calls to be made. -/
inductive SameCalls (thr : Nat) (ctx ctx' : Context) : Res (IG × List Work) → Res (IG × List Work) → Prop where
  | ok (g : IG) (ws ws' : List Work) (h : List.Forall₂ (SameWork thr ctx ctx') ws ws') : SameCalls thr ctx ctx' (.ok (g, ws)) (.ok (g, ws'))
  | bad (r : Res (IG × List Work)) (h : ∀ x, r ≠ .ok x) : SameCalls thr ctx ctx' r r

variable {thr : Nat} {ctx ctx' : Context}

theorem SameWork.refl_list {ws : List Work} (h : ∀ w ∈ ws, ∀ k v, w ≠ .resolve k v) : List.Forall₂ (SameWork thr ctx ctx') ws ws := by
  induction ws with
  | nil => exact .nil
  | cons w ws ih => exact .cons (.other w (h w (by simp))) (ih fun w hw => h w (by simp [hw]))

theorem SameCalls.of_eq {g : IG} {ws : List Work} (h : ∀ w ∈ ws, ∀ k v, w ≠ .resolve k v) :
    SameCalls thr ctx ctx' (.ok (g, ws)) (.ok (g, ws)) := .ok _ _ _ (SameWork.refl_list h)

theorem topWorks_plain (c : Context) (q : EC) (f : Nat) : ∀ w ∈ topWorks c q f, ∀ k v, w ≠ .resolve k v := by
  intro w hw k v e
  obtain ⟨s, -, rfl⟩ := List.mem_map.mp hw
  cases e

theorem answerWorks_plain {v : Nat} {a : Answer} {ws : List Work} (h : answerWorks v a = .ok ws) : ∀ w ∈ ws, ∀ k v, w ≠ .resolve k v := by
  unfold answerWorks at h
  intro w hw k v e
  split at h
  · split at h
    · cases h
    · injection h with h
      subst h
      rw [List.mem_singleton.mp hw] at e
      cases e
  · injection h with h
    subst h
    obtain ⟨s, -, rfl⟩ := List.mem_map.mp hw
    cases e
  · injection h with h
    subst h
    cases hw

theorem answersWorks_plain {v : Nat} : ∀ {as : List Answer} {acc r : List Work},
    as.foldlM (fun acc a => do let w ← answerWorks v a; Res.ok (acc ++ w)) acc = Res.ok r →
    (∀ w ∈ acc, ∀ k v, w ≠ .resolve k v) → ∀ w ∈ r, ∀ k v, w ≠ .resolve k v := by
  intro as
  induction as with
  | nil =>
    intro acc r h hacc
    injection h with h
    subst h
    exact hacc
  | cons a as ih =>
    intro acc r h hacc
    rw [List.foldlM_cons] at h
    obtain ⟨x, h1, h2⟩ := bind_ok_iff.mp h
    obtain ⟨y, h3, h4⟩ := bind_ok_iff.mp h1
    injection h4 with h4
    subst h4
    refine ih h2 fun w hw => ?_
    rcases List.mem_append.mp hw with hw | hw
    · exact hacc w hw
    · exact answerWorks_plain h3 w hw

theorem SameAnswers.doWork (h : SameAnswers thr ctx ctx') (g : IG) {w w' : Work} (hw : SameWork thr ctx ctx' w w') :
    SameCalls thr ctx ctx' (doWork thr ctx g w) (doWork thr ctx' g w') := by
  cases hw with
  | resolve k k' v ht =>
    obtain ⟨z, z', e1, e2, ha⟩ := ht
    obtain ⟨as, b, b', e3, e4⟩ := ha (g.vtx v).query
    unfold Groot.doWork
    simp only [e1, e2, e3, e4, Res.ok_bind]
    cases hf : as.foldlM (fun acc a => do let w ← answerWorks v a; Res.ok (acc ++ w)) ([] : List Work) with
    | ok ws => exact .of_eq (answersWorks_plain hf (by simp))
    | _ => exact .bad _ (by intro x e; cases e)
  | other w hn =>
    cases w with
    | resolve k v => exact absurd rfl (hn k v)
    | top ns q f =>
      unfold Groot.doWork
      rcases h.zone ns q.name with ⟨e1, e2⟩ | ⟨k, k', e1, e2, ht⟩
      · simp only [e1, e2, Res.ok_bind]
        rcases g.insertNode ns q f none with ⟨g1, _ | v⟩
        · exact .of_eq (by simp)
        · exact .of_eq (by simp)
      · simp only [e1, e2, Res.ok_bind]
        rcases g.insertNode ns q f none with ⟨g1, _ | v⟩
        · exact .of_eq (by simp)
        · exact .ok _ _ _ (.cons (.resolve _ _ _ ht) .nil)
    | rewrite record v =>
      have key : ∀ q : EC, SameCalls thr ctx ctx'
          (if (lengthCheck q.name).1 then do
            let start ← relevantZone ctx (g.vtx v).ns q.name
            match start with
            | some zid =>
              let (g, node) := g.insertNode (g.vtx v).ns q v none
              match node with
              | some u => .ok (g, [.resolve zid u])
              | none => .ok (g, [])
            | none => .ok (g, topWorks ctx q v)
          else
            let (g, node) := g.insertNode (g.vtx v).ns q v none
            match node with
            | some u => .ok (g.setAnswer u [⟨.YX, q.types, []⟩], [])
            | none => .ok (g, []))
          (if (lengthCheck q.name).1 then do
            let start ← relevantZone ctx' (g.vtx v).ns q.name
            match start with
            | some zid =>
              let (g, node) := g.insertNode (g.vtx v).ns q v none
              match node with
              | some u => .ok (g, [.resolve zid u])
              | none => .ok (g, [])
            | none => .ok (g, topWorks ctx' q v)
          else
            let (g, node) := g.insertNode (g.vtx v).ns q v none
            match node with
            | some u => .ok (g.setAnswer u [⟨.YX, q.types, []⟩], [])
            | none => .ok (g, [])) := by
        intro q
        split
        · rcases h.zone (g.vtx v).ns q.name with ⟨e1, e2⟩ | ⟨k, k', e1, e2, ht⟩
          · simp only [e1, e2, Res.ok_bind]
            unfold topWorks
            rw [h.top]
            exact .of_eq (topWorks_plain ctx' q v)
          · simp only [e1, e2, Res.ok_bind]
            rcases g.insertNode (g.vtx v).ns q v none with ⟨g1, _ | u⟩
            · exact .of_eq (by simp)
            · exact .ok _ _ _ (.cons (.resolve _ _ _ ht) .nil)
        · rcases g.insertNode (g.vtx v).ns q v none with ⟨g1, _ | u⟩
          · exact .of_eq (ws := []) (by simp)
          · exact .of_eq (ws := []) (by simp)
      unfold Groot.doWork
      dsimp only
      by_cases hc : record.type = .CNAME
      · rw [if_pos hc, if_pos hc]
        exact key _
      · rw [if_neg hc, if_neg hc]
        cases hq : processDname record (g.vtx v).query with
        | ok q => exact key q
        | exit => exact .bad .exit (by intro x e; cases e)
        | throw => exact .bad .throw (by intro x e; cases e)
        | ub => exact .bad .ub (by intro x e; cases e)
        | oof => exact .bad .oof (by intro x e; cases e)
    | refer v ns glue =>
      unfold Groot.doWork
      dsimp only
      rw [h.top]
      by_cases hg : (glue.length ≠ 0 || ctx'.top.contains ns) = true
      · rw [if_pos hg, if_pos hg]
        exact .of_eq (by simp)
      · rw [if_neg hg, if_neg hg]
        cases g.findNode [] (sideEC ns) with
        | some n => exact .of_eq (by simp)
        | none =>
          dsimp only
          unfold topWorks
          rw [h.top]
          refine .of_eq fun w hw => ?_
          rcases List.mem_append.mp hw with hw | hw
          · exact topWorks_plain ctx' _ _ w hw
          · rw [List.mem_singleton.mp hw]; intro k v e; cases e
    | nsSub v ns side =>
      unfold Groot.doWork
      dsimp only
      rcases g.insertNode ns (g.vtx v).query v side with ⟨g1, _ | u⟩
      · exact .of_eq (by simp)
      · dsimp only
        cases h1 : ctx.nsZones.lookup ns with
        | none =>
          rw [(h.listed ns).mp h1]
          exact .of_eq (by simp)
        | some l =>
          cases h2 : ctx'.nsZones.lookup ns with
          | none => rw [(h.listed ns).mpr h2] at h1; cases h1
          | some l' =>
            dsimp only
            rcases h.zone ns (g.vtx v).query.name with ⟨e1, e2⟩ | ⟨k, k', e1, e2, ht⟩
            · simp only [e1, e2, Res.ok_bind]
              exact .of_eq (by simp)
            · simp only [e1, e2, Res.ok_bind]
              exact .ok _ _ _ (.cons (.resolve _ _ _ ht) .nil)

theorem forall₂_append {α β : Type} {R : α → β → Prop} {a c : List α} {b d : List β} (h : List.Forall₂ R a b) (h' : List.Forall₂ R c d) :
    List.Forall₂ R (a ++ c) (b ++ d) := by
  induction h with
  | nil => exact h'
  | cons h _ ih => exact .cons h ih

theorem SameAnswers.exec (h : SameAnswers thr ctx ctx') (fuel : Nat) (g : IG) {ws ws' : List Work} (hw : List.Forall₂ (SameWork thr ctx ctx') ws ws') :
    exec thr ctx fuel g ws = exec thr ctx' fuel g ws' := by
  induction fuel generalizing g ws ws' with
  | zero =>
    cases hw with
    | nil => rfl
    | cons => rfl
  | succ fuel ih =>
    cases hw with
    | nil => rfl
    | cons h1 h2 =>
      unfold Groot.exec
      have := h.doWork g h1
      generalize Groot.doWork thr ctx g _ = a at this ⊢
      generalize Groot.doWork thr ctx' g _ = b at this ⊢
      cases this with
      | ok g1 as bs h3 => exact ih g1 (forall₂_append h3 h2)
      | bad r hr =>
        cases a with
        | ok x => exact absurd rfl (hr x)
        | _ => rfl

/-- The graph of a question is the same. -/
theorem SameAnswers.buildIG (h : SameAnswers thr ctx ctx') (fuel : Nat) (q : EC) : buildIG fuel thr ctx q = buildIG fuel thr ctx' q := by
  unfold Groot.buildIG
  refine h.exec fuel _ ?_
  unfold topWorks
  rw [h.top]
  exact SameWork.refl_list (topWorks_plain ctx' q 0)

theorem SameAnswers.processEC (h : SameAnswers thr ctx ctx') (fuel : Nat) (pf : List PathFn) (nf : List NodeFn) (q : EC) :
    processEC fuel thr ctx pf nf q = processEC fuel thr ctx' pf nf q := by
  unfold Groot.processEC
  rw [h.buildIG]

/-! ### The label graph and the classes -/

theorem Known.mono {rs rs' : List RR} (h : rs ⊆ rs') {n : Name} (hk : Known rs n) : Known rs' n := by
  rcases hk with rfl | ⟨r, hr, h1⟩
  · exact .inl rfl
  · exact .inr ⟨r, h hr, h1⟩

theorem Alias.mono {rs rs' : List RR} (h : rs ⊆ rs') {n t : Name} (hk : Alias rs n t) : Alias rs' n t := by
  obtain ⟨r, hr, h1⟩ := hk
  exact ⟨r, h hr, h1⟩

theorem Matches.mono {rs rs' : List RR} (h : rs ⊆ rs') {d k : Name} {i : Nat} (hm : Matches rs d k i) : Matches rs' d k i := by
  induction hm with
  | root => exact .root
  | down n i l _ h1 h2 ih => exact .down n i l ih h1 (Known.mono h h2)
  | redirect n i t _ h1 h2 ih => exact .redirect n i t ih h1 (Alias.mono h h2)

theorem Visits.mono {rs rs' : List RR} (h : rs ⊆ rs') {n0 k0 n k : Name} {b : Bool} (hv : Visits rs n0 k0 n k b) : Visits rs' n0 k0 n k b := by
  induction hv with
  | start => exact .start
  | down n k b l _ h1 ih => exact .down n k b l ih (Known.mono h h1)
  | redirect n k b t _ h1 ih => exact .redirect n k b t ih (Alias.mono h h1)

theorem known_congr {rs rs' : List RR} (h : ∀ r, r ∈ rs ↔ r ∈ rs') (n : Name) : Known rs n ↔ Known rs' n :=
  ⟨Known.mono fun r => (h r).mp, Known.mono fun r => (h r).mpr⟩

theorem belowClass_congr {p q : Prop} [Decidable p] [Decidable q] (h : p ↔ q) (n : Name) (ts : TypeSet) : belowClass p n ts = belowClass q n ts := by
  unfold belowClass
  by_cases hp : p
  · rw [if_pos hp, if_pos (h.mp hp)]
  · rw [if_neg hp, if_neg (fun hq => hp (h.mpr hq))]

theorem Regular.congr {rs rs' : List RR} (h : ∀ r, r ∈ rs ↔ r ∈ rs') (hr : Regular rs) : Regular rs' :=
  ⟨fun n hk => hr.1 n ((known_congr h n).mpr hk), fun t ha => hr.2 t (Alias.mono (fun r => (h r).mpr) ha)⟩

/-- The classes depend on which records there are only. -/
theorem classes_congr {thr thr' : Nat} {xs xs' : List (RR × Nat × Nat)} (h : ∀ r, r ∈ xs.map (·.1) ↔ r ∈ xs'.map (·.1)) (hr : Regular (xs.map (·.1)))
    (job : LGraph.Req) {fuel fuel' : Nat} {g g' : LGraph} {ts ts' : List Task} (h1 : LGraph.generateECs fuel (labelGraph thr xs) job = .ok (g, ts))
    (h2 : LGraph.generateECs fuel' (labelGraph thr' xs') job = .ok (g', ts')) (q : EC) : q ∈ classes ts → q ∈ classes ts' := by
  have uniq : ∀ {thr : Nat} {xs : List (RR × Nat × Nat)} {N fuel : Nat} {ts1 ts2 : List Task} {g2 : LGraph},
      LGraph.generateECs N (labelGraph thr xs) job = .ok (labelGraph thr xs, ts1) →
      LGraph.generateECs fuel (labelGraph thr xs) job = .ok (g2, ts2) → ts1 = ts2 := by
    intro thr xs N fuel ts1 ts2 g2 a b
    have := mono_agree (f := fun n => LGraph.generateECs n (labelGraph thr xs) job) (fun n r => generateECs_mono n _ _ r) a b
    simp at this
    exact this.2
  have hm : ∀ k i, Matches (xs.map (·.1)) (stringToLabels job.domain) k i ↔ Matches (xs'.map (·.1)) (stringToLabels job.domain) k i := fun k i =>
    ⟨Matches.mono fun r => (h r).mp, Matches.mono fun r => (h r).mpr⟩
  obtain ⟨N, t1, a1, a2, a3⟩ := C29_single thr xs job
  obtain ⟨N', t2, b1, b2, b3⟩ := C29_single thr' xs' job
  have e1 := uniq (a1 N (Nat.le_refl _)) h1
  have e2 := uniq (b1 N' (Nat.le_refl _)) h2
  subst e1 e2
  intro hq
  by_cases hs : Short (stringToLabels job.domain)
  swap
  · rw [a2 hs] at hq; cases hq
  obtain ⟨m, ⟨k, c1⟩, c2, c3, c4⟩ := a3 hs
  obtain ⟨m', ⟨k', d1⟩, d2, d3, d4⟩ := b3 hs
  have em : m = m' := Nat.le_antisymm (d2 k m ((hm k m).mp c1)) (c2 k' m' ((hm k' m').mpr d1))
  subst em
  by_cases hfull : m = (stringToLabels job.domain).length
  swap
  · rw [c4 hfull] at hq; rw [d4 hfull]; exact hq
  cases hsub : job.subdomains with
  | false => rw [c3 hfull hsub] at hq; rw [d3 hfull hsub]; exact hq
  | true =>
    subst hfull
    obtain ⟨N1, u1, f1, f2⟩ := C24_classes thr xs hr job ⟨hs, hsub, k, c1⟩
    obtain ⟨N2, u2, g1, g2⟩ := C24_classes thr' xs' (Regular.congr h hr) job ⟨hs, hsub, k', d1⟩
    have e1 := uniq (f1 N1 (Nat.le_refl _)) h1
    have e2 := uniq (g1 N2 (Nat.le_refl _)) h2
    subst e1 e2
    obtain ⟨k0, n, kk, b, i1, i2, i3, i4⟩ := (f2 q).mp hq
    refine (g2 q).mpr ⟨k0, n, kk, b, (hm _ _).mp i1, Visits.mono (fun r => (h r).mp) i2, i3, ?_⟩
    rcases i4 with i4 | i4
    · exact .inl i4
    · right
      rw [i4]
      exact belowClass_congr (known_congr h _) n job.types

end Groot

namespace Groot

open Spec Driver

/-! ### The worlds -/

/-- Two worlds in which each server has the same zones, in some order. -/
structure Reordered (w w' : World) : Prop where
  top : w.top = w'.top
  listed : ∀ s, w.Listed s ↔ w'.Listed s
  fwd : ∀ s, ∀ id ∈ w.hosted s, ∃ id' ∈ w'.hosted s, w.log id = w'.log id'
  back : ∀ s, ∀ id' ∈ w'.hosted s, ∃ id ∈ w.hosted s, w.log id = w'.log id'

theorem Reordered.symm {w w' : World} (h : Reordered w w') : Reordered w' w where
  top := h.top.symm
  listed := fun s => (h.listed s).symm
  fwd := fun s id hid => by obtain ⟨i, h1, h2⟩ := h.back s id hid; exact ⟨i, h1, h2.symm⟩
  back := fun s id hid => by obtain ⟨i, h1, h2⟩ := h.fwd s id hid; exact ⟨i, h1, h2.symm⟩

/-- One zone for each origin. -/
def SingleZones (w : World) : Prop := ∀ s, ∀ i ∈ w.hosted s, ∀ j ∈ w.hosted s, w.origin i = w.origin j → w.log i = w.log j

theorem below_same_length {a b n : Name} (ha : AtOrBelow a n) (hb : AtOrBelow b n) (h : a.length = b.length) : a = b := by
  obtain ⟨r, e⟩ := ha
  obtain ⟨r', e'⟩ := hb
  rw [e] at e'
  exact (List.append_inj e' h).1

theorem Best.longest {w : World} {s : Str} {n : Name} {i : Nat} (h : Best w s n i) : AtOrBelow (w.origin i) n ∧
    ∀ j ∈ w.hosted s, AtOrBelow (w.origin j) n → (w.origin j).length ≤ (w.origin i).length := by
  obtain ⟨b, a, e, h1, h2, h3⟩ := h
  refine ⟨h1, fun j hj hb => ?_⟩
  rw [e] at hj
  rcases List.mem_append.mp hj with hj | hj
  · exact Nat.le_of_lt (h2 j hj hb)
  · rcases List.mem_cons.mp hj with rfl | hj
    · exact Nat.le_refl _
    · exact h3 j hj hb

theorem Reordered.encloses {w w' : World} (h : Reordered w w') {s : Str} {n : Name} (he : Encloses w s n) : Encloses w' s n := by
  obtain ⟨id, h1, h2⟩ := he
  obtain ⟨id', h3, h4⟩ := h.fwd s id h1
  refine ⟨id', h3, ?_⟩
  unfold World.origin at h2 ⊢
  rwa [← h4]

theorem Reordered.best {w w' : World} (h : Reordered w w') (hd : SingleZones w') {s : Str} {n : Name} {i i' : Nat} (hb : Best w s n i)
    (hb' : Best w' s n i') : w.log i = w'.log i' := by
  obtain ⟨h1, h2⟩ := Best.longest hb
  obtain ⟨h1', h2'⟩ := Best.longest hb'
  have hi := Spec.Best.hosted hb
  have hi' := Spec.Best.hosted hb'
  obtain ⟨k', a1, a2⟩ := h.fwd s i hi
  obtain ⟨k, b1, b2⟩ := h.back s i' hi'
  have ok : w'.origin k' = w.origin i := by unfold World.origin; rw [a2]
  have ok' : w.origin k = w'.origin i' := by unfold World.origin; rw [b2]
  have l1 := h2' k' a1 (by rw [ok]; exact h1)
  have l2 := h2 k b1 (by rw [ok']; exact h1')
  rw [ok] at l1
  rw [ok'] at l2
  have := below_same_length h1 h1' (by omega)
  rw [a2]
  exact hd s k' a1 i' hi' (by rw [ok, this])

theorem sameAnswers_of_reordered {ctx ctx' : Context} {w w' : World} (thr : Nat) (hr : Represents ctx w) (hw : WellFormed w) (hr' : Represents ctx' w')
    (hw' : WellFormed w') (h : Reordered w w') (hd : SingleZones w') : SameAnswers thr ctx ctx' where
  top := by rw [hr.2.1, hr'.2.1, h.top]
  listed := fun s => by
    have := h.listed s
    unfold World.Listed at this
    rw [hr.1, hr'.1]
    exact not_iff_not.mp this
  zone := fun s n => by
    obtain ⟨o, h1, h2, h3⟩ := relevantZone_spec hr hw s n
    obtain ⟨o', h1', h2', h3'⟩ := relevantZone_spec hr' hw' s n
    cases o with
    | none =>
      cases o' with
      | none => exact .inl ⟨h1, h1'⟩
      | some i' => exact absurd (h.symm.encloses (h2' i' rfl).encloses) (h3 rfl)
    | some i =>
      cases o' with
      | none => exact absurd (h.encloses (h2 i rfl).encloses) (h3' rfl)
      | some i' =>
        refine .inr ⟨i, i', h1, h1', ?_⟩
        have e := h.best hd (h2 i rfl) (h2' i' rfl)
        obtain ⟨z, names, a1, a2⟩ := hr.zone (hw.zones s i (Spec.Best.hosted (h2 i rfl)))
        obtain ⟨z', names', b1, b2⟩ := hr'.zone (hw'.zones s i' (Spec.Best.hosted (h2' i' rfl)))
        refine ⟨z, z', a1, b1, fun q => ?_⟩
        obtain ⟨as, b, c1, c2⟩ := a2.lookup (hw.supported i) thr q
        obtain ⟨as', b', d1, d2⟩ := b2.lookup (hw'.supported i') thr q
        rw [← e] at d2
        rw [reply_unique a2.excl d2 c2] at d1
        exact ⟨as, b, b', c1, d1⟩

/-! ### From the files -/

theorem sites_zip {k : Nat} {zs : List Listing} {ess : List (List (Entry × Nat))} :
    (sitesFrom k zs ess).map (·.2) = ((zs.zip ess).filter (fun p => decide (HasSOA p.2))).map (fun p => (toLower p.1.2.1, p.1.records p.2)) := by
  induction zs generalizing k ess with
  | nil => simp [sitesFrom]
  | cons z zs ih =>
    cases ess with
    | nil => simp [sitesFrom]
    | cons es ess =>
      unfold sitesFrom
      rw [List.map_append, ih, List.zip_cons_cons, List.filter_cons]
      by_cases h : HasSOA es <;> simp [h]

theorem mem_sites {k : Nat} {zs : List Listing} {ess : List (List (Entry × Nat))} {s : Str} {rs : List RR} :
    (∃ id, (id, s, rs) ∈ sitesFrom k zs ess) ↔ ∃ p ∈ zs.zip ess, HasSOA p.2 ∧ s = toLower p.1.2.1 ∧ rs = p.1.records p.2 := by
  have : (∃ id, (id, s, rs) ∈ sitesFrom k zs ess) ↔ (s, rs) ∈ (sitesFrom k zs ess).map (·.2) := by
    rw [List.mem_map]
    constructor
    · rintro ⟨id, h⟩; exact ⟨_, h, rfl⟩
    · rintro ⟨⟨id, x⟩, h, rfl⟩; exact ⟨id, h⟩
  rw [this, sites_zip, List.mem_map]
  constructor
  · rintro ⟨p, hp, e⟩
    obtain ⟨h1, h2⟩ := List.mem_filter.mp hp
    injection e with e1 e2
    exact ⟨p, h1, of_decide_eq_true h2, e1.symm, e2.symm⟩
  · rintro ⟨p, h1, h2, rfl, rfl⟩
    exact ⟨p, List.mem_filter.mpr ⟨h1, decide_eq_true h2⟩, rfl⟩

theorem lookup_map_key {α β : Type} [BEq α] [LawfulBEq α] (f : α → β) (l : List α) (k : α) : (l.map (fun s => (s, f s))).lookup k = if k ∈ l then some (f k) else none := by
  classical
  induction l with
  | nil => simp
  | cons x l ih =>
    rw [List.map_cons, List.lookup_cons, ih]
    by_cases h : k = x
    · subst h; simp
    · have h' : (k == x) = false := by simpa using h
      rw [h']
      simp [h]

open Classical in
theorem worldOf_served {tops : List Str} {zs : List Listing} {ess : List (List (Entry × Nat))} (s : Str) :
    (worldOf tops zs ess).nsZones.lookup s = if (∃ id rs, (id, s, rs) ∈ sitesFrom 1 zs ess) then
      some (((sitesFrom 1 zs ess).filter (fun x => decide (x.2.1 = s))).map (·.1)) else none := by
  show (servedBy (sitesFrom 1 zs ess)).lookup s = _
  unfold servedBy
  rw [lookup_map_key (fun s => ((sitesFrom 1 zs ess).filter (fun x => decide (x.2.1 = s))).map (·.1))]
  have : s ∈ ((sitesFrom 1 zs ess).map (·.2.1)).eraseDups ↔ ∃ id rs, (id, s, rs) ∈ sitesFrom 1 zs ess := by
    rw [List.mem_eraseDups, List.mem_map]
    constructor
    · rintro ⟨⟨id, s', rs⟩, h, rfl⟩; exact ⟨id, rs, h⟩
    · rintro ⟨id, rs, h⟩; exact ⟨_, h, rfl⟩
  by_cases h : s ∈ ((sitesFrom 1 zs ess).map (·.2.1)).eraseDups
  · rw [if_pos h, if_pos (this.mp h)]
  · rw [if_neg h, if_neg (fun c => h (this.mpr c))]

theorem worldOf_hosts {tops : List Str} {zs : List Listing} {ess : List (List (Entry × Nat))} {s : Str} {id : Nat} :
    id ∈ (worldOf tops zs ess).hosted s ↔ ∃ rs, (id, s, rs) ∈ sitesFrom 1 zs ess := by
  unfold World.hosted
  rw [worldOf_served]
  split
  · simp only [Option.getD_some, List.mem_map, List.mem_filter, decide_eq_true_eq]
    constructor
    · rintro ⟨⟨i, s', rs⟩, ⟨h1, h2⟩, h3⟩
      dsimp only at h2 h3
      subst h2 h3
      exact ⟨rs, h1⟩
    · rintro ⟨rs, h⟩
      exact ⟨_, ⟨h, rfl⟩, rfl⟩
  · rename_i hn
    simp only [Option.getD_none, List.not_mem_nil, false_iff]
    rintro ⟨rs, h⟩
    exact hn ⟨id, rs, h⟩

theorem worldOf_listed {tops : List Str} {zs : List Listing} {ess : List (List (Entry × Nat))} {s : Str} :
    (worldOf tops zs ess).Listed s ↔ ∃ rs id, (id, s, rs) ∈ sitesFrom 1 zs ess := by
  unfold World.Listed
  rw [worldOf_served]
  split
  · rename_i h
    obtain ⟨id, rs, h⟩ := h
    exact ⟨fun _ => ⟨rs, id, h⟩, fun _ => by simp⟩
  · rename_i hn
    refine ⟨fun h => absurd rfl h, ?_⟩
    rintro ⟨rs, id, h⟩
    exact absurd ⟨id, rs, h⟩ hn

theorem worldOf_site {tops : List Str} {zs : List Listing} {ess : List (List (Entry × Nat))} {id : Nat} {s : Str} {rs : List RR}
    (h : (id, s, rs) ∈ sitesFrom 1 zs ess) : (worldOf tops zs ess).log id = stored rs := by
  unfold World.log
  rw [worldOf_lookup h]
  rfl

/-- The worlds of two lists of the same files. -/
theorem reordered_of_perm {tops : List Str} {zs zs' : List Listing} {ess ess' : List (List (Entry × Nat))}
    (h : ∀ p, p ∈ zs.zip ess ↔ p ∈ zs'.zip ess') : Reordered (worldOf tops zs ess) (worldOf tops zs' ess') := by
  have key : ∀ s rs, (∃ id, (id, s, rs) ∈ sitesFrom 1 zs ess) ↔ ∃ id, (id, s, rs) ∈ sitesFrom 1 zs' ess' := by
    intro s rs
    rw [mem_sites, mem_sites]
    exact ⟨fun ⟨p, a, b⟩ => ⟨p, (h p).mp a, b⟩, fun ⟨p, a, b⟩ => ⟨p, (h p).mpr a, b⟩⟩
  refine ⟨rfl, fun s => ?_, fun s id hid => ?_, fun s id hid => ?_⟩
  · rw [worldOf_listed, worldOf_listed]
    exact exists_congr (key s)
  · obtain ⟨rs, h1⟩ := worldOf_hosts.mp hid
    obtain ⟨id', h2⟩ := (key s rs).mp ⟨id, h1⟩
    exact ⟨id', worldOf_hosts.mpr ⟨rs, h2⟩, by rw [worldOf_site h1, worldOf_site h2]⟩
  · obtain ⟨rs, h1⟩ := worldOf_hosts.mp hid
    obtain ⟨id', h2⟩ := (key s rs).mpr ⟨id, h1⟩
    exact ⟨id', worldOf_hosts.mpr ⟨rs, h2⟩, by rw [worldOf_site h1, worldOf_site h2]⟩

theorem singleZones_of {read : Str → Str} {tops : List Str} {zs : List Listing} {ess : List (List (Entry × Nat))}
    (hf : List.Forall₂ (fun z es => GoodFile (read z.1) (toLower (z.2.2.getD [])) es) zs ess) (h : OneZoneEach zs ess) :
    SingleZones (worldOf tops zs ess) := by
  intro s i hi j hj e
  obtain ⟨rs, h1⟩ := worldOf_hosts.mp hi
  obtain ⟨rs', h2⟩ := worldOf_hosts.mp hj
  have e1 := records_stored hf (sitesFrom_zone h1)
  have e2 := records_stored hf (sitesFrom_zone h2)
  unfold World.origin at e
  rw [worldOf_site h1, worldOf_site h2] at e
  rw [worldOf_site h1, worldOf_site h2]
  dsimp only at e1 e2
  rw [e1, e2] at e ⊢
  obtain ⟨p, a1, -, a2, a3⟩ := mem_sites.mp ⟨i, h1⟩
  obtain ⟨p', b1, -, b2, b3⟩ := mem_sites.mp ⟨j, h2⟩
  subst a3 b3
  exact h p a1 p' b1 (a2.symm.trans b2) e

end Groot
