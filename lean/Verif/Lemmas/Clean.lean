import Verif.Spec.Clean
import Verif.Lemmas.Loader
import Mathlib.Tactic.SplitIfs

/-!
# The strings of a violation come from the graph, the records and the job
-/

namespace Groot

open Spec

/-- Every result satisfies `P`. -/
def Yields {α : Type} (P : α → Prop) (r : Res α) : Prop := ∀ a, r = .ok a → P a

theorem Yields.ok {α : Type} {P : α → Prop} {a : α} (h : P a) : Yields P (.ok a) := by
  intro b hb
  injection hb with hb
  rw [← hb]; exact h

theorem Yields.ub {α : Type} {P : α → Prop} : Yields P (.ub : Res α) := fun _ h => nomatch h
theorem Yields.throw {α : Type} {P : α → Prop} : Yields P (.throw : Res α) := fun _ h => nomatch h
theorem Yields.exit {α : Type} {P : α → Prop} : Yields P (.exit : Res α) := fun _ h => nomatch h
theorem Yields.oof {α : Type} {P : α → Prop} : Yields P (.oof : Res α) := fun _ h => nomatch h

theorem Yields.bind {α β : Type} {Q : α → Prop} {P : β → Prop} {r : Res α} {f : α → Res β} (h : Yields Q r) (hf : ∀ a, Q a → Yields P (f a)) :
    Yields P (r >>= f) := by
  intro b hb
  obtain ⟨a, ha, hb⟩ := bind_ok_iff.mp hb
  exact hf a (h a ha) b hb

theorem Yields.any {α β : Type} {P : β → Prop} {r : Res α} {f : α → Res β} (hf : ∀ a, Yields P (f a)) : Yields P (r >>= f) :=
  Yields.bind (Q := fun _ => True) (fun _ _ => trivial) (fun a _ => hf a)

theorem Yields.foldlM {α β : Type} {P : β → Prop} (f : β → α → Res β) (l : List α) (hf : ∀ b, P b → ∀ a ∈ l, Yields P (f b a)) {b : β} (hb : P b) :
    Yields P (l.foldlM f b) := by
  induction l generalizing b with
  | nil => rw [List.foldlM_nil]; exact .ok hb
  | cons a l ih =>
    rw [List.foldlM_cons]
    exact .bind (hf b hb a (by simp)) (fun b' hb' => ih (fun b hb a ha => hf b hb a (by simp [ha])) hb')

theorem Yields.concatM {α β : Type} {P : β → Prop} {f : α → Res (List β)} {l : List α} (hf : ∀ a ∈ l, Yields (fun bs => ∀ b ∈ bs, P b) (f a)) :
    Yields (fun bs => ∀ b ∈ bs, P b) (concatM f l) := by
  induction l with
  | nil => exact .ok (by simp)
  | cons a l ih =>
    unfold Groot.concatM
    refine .bind (hf a (by simp)) (fun x hx => .bind (ih (fun a ha => hf a (by simp [ha]))) (fun y hy => .ok ?_))
    intro b hb
    rcases List.mem_append.mp hb with h | h
    · exact hx b h
    · exact hy b h

/-- What a set of clean strings is closed under. -/
structure Strings (S : Str → Prop) : Prop where
  nil : S []
  append : ∀ a b, S a → S b → S (a ++ b)
  types : ∀ ts, S (typesToString ts)

theorem Strings.flatten {S : Str → Prop} (h : Strings S) (l : List Str) (hl : ∀ s ∈ l, S s) : S l.flatten := by
  induction l with
  | nil => exact h.nil
  | cons a l ih => rw [List.flatten_cons]; exact h.append _ _ (hl a (by simp)) (ih (fun s hs => hl s (by simp [hs])))

/-- A record whose data and printed form are clean. -/
def CleanRR (S : Str → Prop) (r : RR) : Prop := S r.rdata ∧ ∀ s, r.toStr = .ok s → S s

/-- A graph whose nodes are clean. -/
def CleanG (S : Str → Prop) (g : IG) : Prop :=
  ∀ v, S (g.vtx v).query.toStr ∧ S (g.vtx v).ns ∧ ∀ as, (g.vtx v).answer = some as → ∀ a ∈ as, ∀ r ∈ a.rrs, CleanRR S r

section

variable {S : Str → Prop} {g : IG}

/-- All violations of a list are clean. -/
abbrev CleanL (S : Str → Prop) (l : List Violation) : Prop := ∀ v ∈ l, Clean S v

theorem cleanL_nil : CleanL S [] := fun _ h => nomatch h

theorem cleanL_append {a b : List Violation} (ha : CleanL S a) (hb : CleanL S b) : CleanL S (a ++ b) := by
  intro v hv
  rcases List.mem_append.mp hv with h | h
  · exact ha v h
  · exact hb v h

theorem cleanL_cons {v : Violation} {b : List Violation} (ha : Clean S v) (hb : CleanL S b) : CleanL S (v :: b) := by
  intro w hw
  rcases List.mem_cons.mp hw with h | h
  · rw [h]; exact ha
  · exact hb w h

theorem cleanL_one {v : Violation} (ha : Clean S v) : CleanL S [v] := cleanL_cons ha cleanL_nil

theorem cleanL_ite {c : Prop} [Decidable c] {a b : List Violation} (ha : CleanL S a) (hb : CleanL S b) : CleanL S (if c then a else b) := by
  split_ifs
  · exact ha
  · exact hb

open Check

theorem answer0_clean (hg : CleanG S g) (v : Nat) : Yields (fun a => ∀ r ∈ a.rrs, CleanRR S r) (g.answer0 v) := by
  unfold IG.answer0
  split
  · rename_i a as h
    exact .ok ((hg v).2.2 _ h a (by simp))
  · exact .ub

theorem responseReturned_clean (hs : Strings S) (hg : CleanG S g) (ts : TypeSet) : ∀ l, Yields (CleanL S) (responseReturned g ts l)
  | [] => .ok cleanL_nil
  | v :: rest => by
    have ih := responseReturned_clean hs hg ts rest
    unfold responseReturned
    split_ifs
    · exact .ok cleanL_nil
    · split
      · exact ih
      · exact .ub
      · refine .bind ih (fun r hr => .ok (cleanL_append (cleanL_ite cleanL_nil ?_) hr))
        intro x hx
        unfold returnedAt at hx
        obtain ⟨a, -, rfl⟩ := List.mem_map.mp hx
        exact ⟨(hg v).1, hs.types _, (hg v).2.1⟩
    · exact ih

theorem setInsert_mem (x y : Str) (l : List Str) (h : y ∈ setInsert x l) : y = x ∨ y ∈ l := by
  induction l with
  | nil => simpa [setInsert] using h
  | cons a l ih =>
    unfold setInsert at h
    split_ifs at h
    · simpa using h
    · rcases List.mem_cons.mp h with h | h
      · exact .inr (by simp [h])
      · rcases ih h with h | h
        · exact .inl h
        · exact .inr (by simp [h])
    · exact .inr h

theorem rdataSet_clean (ts : TypeSet) : ∀ l : List RR, (∀ r ∈ l, CleanRR S r) → Yields (fun l => ∀ s ∈ l, S s) (rdataSet ts l)
  | [], _ => .ok (by simp)
  | r :: rs, h => by
    unfold rdataSet
    refine .any (fun b => .bind (rdataSet_clean ts rs (fun r hr => h r (by simp [hr]))) (fun s hs => .ok ?_))
    intro x hx
    split_ifs at hx
    · rcases setInsert_mem _ _ _ hx with e | e
      · rw [e]; exact (h r (by simp)).1
      · exact hs x e
    · exact hs x hx

theorem valueMismatches_clean (hs : Strings S) (hg : CleanG S g) (ts : TypeSet) (values : List Str) :
    ∀ l, Yields (fun ms => ∀ m ∈ ms, S m.1 ∧ S m.2.1 ∧ S m.2.2) (valueMismatches g ts values l)
  | [] => .ok (by simp)
  | v :: rest => by
    have ih := valueMismatches_clean hs hg ts values rest
    unfold valueMismatches
    dsimp only
    split_ifs
    · refine .bind (answer0_clean hg v) (fun a ha => ?_)
      split_ifs
      · refine .bind (rdataSet_clean ts a.rrs ha) (fun s hs' => .bind ih (fun r hr => .ok ?_))
        intro m hm
        split_ifs at hm
        · rcases List.mem_cons.mp hm with e | e
          · rw [e]; exact ⟨hs.flatten s hs', (hg v).1, (hg v).2.1⟩
          · exact hr m e
        · exact hr m hm
      · refine .bind ih (fun r hr => .ok ?_)
        intro m hm
        rcases List.mem_cons.mp hm with e | e
        · rw [e]; exact ⟨hs.nil, (hg v).1, (hg v).2.1⟩
        · exact hr m e
      · exact ih
    · exact ih

theorem responseConsistency_clean (hg : CleanG S g) (ts : TypeSet) (ends : List Nat) : Yields (CleanL S) (responseConsistency g ts ends) := by
  unfold responseConsistency
  refine .any (fun x => .any (fun d => ?_))
  split_ifs
  · split
    · exact .ub
    · exact .ok (cleanL_one (hg _).1)
  · exact .ok cleanL_nil

theorem zeroAt_clean (hg : CleanG S g) (first v : Nat) : ∀ l : List RR, (∀ r ∈ l, CleanRR S r) → Yields (CleanL S) (zeroAt g first v l)
  | [], _ => .ok cleanL_nil
  | r :: rs, h => by
    have ih := zeroAt_clean hg first v rs (fun r hr => h r (by simp [hr]))
    unfold zeroAt
    split_ifs
    · exact .bind (Q := S) (h r (by simp)).2 (fun s hs => .bind ih (fun t ht => .ok (cleanL_cons ⟨(hg first).1, (hg v).2.1, hs⟩ ht)))
    · exact ih

theorem zeroLoop_clean (hg : CleanG S g) (ts : TypeSet) (first : Nat) : ∀ l, Yields (CleanL S) (zeroLoop g ts first l)
  | [] => .ok cleanL_nil
  | v :: rest => by
    have ih := zeroLoop_clean hg ts first rest
    unfold zeroLoop
    split_ifs
    · split
      · exact ih
      · exact .ub
      · rename_i a as ha
        dsimp only
        split_ifs
        · exact .bind (Q := CleanL S) (.ok cleanL_nil) (fun x hx => .bind ih (fun r hr => .ok (cleanL_append hx hr)))
        · exact .bind (zeroAt_clean hg _ _ _ ((hg v).2.2 _ ha a (by simp))) (fun x hx => .bind ih (fun r hr => .ok (cleanL_append hx hr)))
    · exact ih

theorem allAliases_clean (hg : CleanG S g) (names : List Name) : ∀ l, Yields (CleanL S) (allAliases g names l)
  | [] => .ok cleanL_nil
  | v :: rest => by
    have ih := allAliases_clean hg names rest
    unfold allAliases
    refine .any (fun b => .bind ih (fun r hr => .ok (cleanL_append (cleanL_ite ?_ cleanL_nil) hr)))
    intro x hx
    obtain ⟨u, -, rfl⟩ := List.mem_map.mp hx
    exact ⟨(hg v).1, (hg u).1⟩

/-- The entries of the map are clean. -/
def CleanMap (S : Str → Prop) (m : DMap) : Prop := ∀ e ∈ m, CleanRR S e.1 ∧ S e.2.2

theorem dnameStep_clean (hg : CleanG S g) (v : Nat) (m : DMap) (r : RR) (hm : CleanMap S m) (hr : CleanRR S r) :
    Yields (fun x => match x with | .inl w => Clean S w | .inr m => CleanMap S m) (dnameStep g v m r) := by
  unfold dnameStep
  dsimp only
  split
  · rename_i s q1 hf
    split_ifs
    · refine .bind (Q := fun l : List Str => ∀ s ∈ l, S s) (.foldlM _ _ (fun b hb e he => ?_) (by simp)) (fun used hu => .ok ?_)
      · refine .bind (Q := S) (hm e he).1.2 (fun x hx => .ok ?_)
        intro s hs
        rcases List.mem_append.mp hs with h | h
        · exact hb s h
        · rw [List.mem_singleton.mp h]; exact hx
      · refine ⟨?_, (hg v).1, hu⟩
        unfold DMap.find at hf
        obtain ⟨e, he, hq⟩ := Option.map_eq_some_iff.mp hf
        have := (hm e (List.mem_of_find?_eq_some he)).2
        rw [hq] at this
        exact this
    · refine .ok ?_
      intro e he
      unfold DMap.set at he
      obtain ⟨e', he', rfl⟩ := List.mem_map.mp he
      split_ifs
      · exact ⟨(hm e' he').1, (hg v).1⟩
      · exact hm e' he'
  · refine .ok ?_
    intro e he
    rcases List.mem_append.mp he with h | h
    · exact hm e h
    · rw [List.mem_singleton.mp h]; exact ⟨hr, (hg v).1⟩

theorem dnameNode_clean (hg : CleanG S g) (v : Nat) : ∀ (l : List RR) (m : DMap), CleanMap S m → (∀ r ∈ l, CleanRR S r) →
    Yields (fun x => match x with | .inl w => Clean S w | .inr m => CleanMap S m) (dnameNode g v m l)
  | [], m, hm, _ => .ok hm
  | r :: rs, m, hm, hr => by
    unfold dnameNode
    refine .bind (dnameStep_clean hg v m r hm (hr r (by simp))) (fun x hx => ?_)
    cases x with
    | inl w => exact .ok hx
    | inr m' => exact dnameNode_clean hg v rs m' hx (fun r h => hr r (by simp [h]))

theorem infiniteDname_clean (hg : CleanG S g) : ∀ (l : List Nat) (m : DMap), CleanMap S m → Yields (CleanL S) (infiniteDnameLoop g m l)
  | [], _, _ => .ok cleanL_nil
  | v :: rest, m, hm => by
    unfold infiniteDnameLoop
    refine .any (fun b => ?_)
    split_ifs
    · refine .bind (dnameNode_clean hg v _ m hm ?_) (fun x hx => ?_)
      · intro r hr
        obtain ⟨l, hl, hr⟩ := List.mem_flatten.mp hr
        obtain ⟨a, ha, rfl⟩ := List.mem_map.mp hl
        cases hans : (g.vtx v).answer with
        | none => rw [hans] at ha; cases ha
        | some as => rw [hans] at ha; exact (hg v).2.2 as hans a ha r hr
      · cases x with
        | inl w => exact .ok (cleanL_one hx)
        | inr m' => exact infiniteDname_clean hg rest m' hx
    · exact infiniteDname_clean hg rest m hm

theorem compareDelegation_clean (hg : CleanG S g) (q : EC) (hq : S q.toStr) (v u : Nat) : Yields (CleanL S) (compareDelegation g q v u) := by
  unfold compareDelegation
  refine .any (fun pa => .any (fun ca => ?_))
  dsimp only
  split_ifs
  all_goals first
    | exact .ok cleanL_nil
    | exact .ok (cleanL_append (cleanL_one ⟨hq, (hg v).2.1, (hg u).2.1⟩) (cleanL_one ⟨hq, (hg v).2.1, (hg u).2.1⟩))
    | exact .ok (cleanL_append (cleanL_one ⟨hq, (hg v).2.1, (hg u).2.1⟩) cleanL_nil)
    | exact .ok (cleanL_append cleanL_nil (cleanL_one ⟨hq, (hg v).2.1, (hg u).2.1⟩))
    | exact .ok (cleanL_append cleanL_nil cleanL_nil)

theorem delegation_clean (hg : CleanG S g) (p : List Nat) : Yields (CleanL S) (delegationConsistency g p) := by
  unfold delegationConsistency
  split
  · split_ifs
    · refine .any (fun b => ?_)
      split
      · exact .ok cleanL_nil
      · exact compareDelegation_clean hg _ (hg _).1 _ _
    · exact .ok cleanL_nil
  · exact .ok cleanL_nil

theorem lameLoop_clean (hg : CleanG S g) (q : EC) (hq : S q.toStr) : ∀ l, Yields (CleanL S) (lameLoop g q l)
  | [] => .ok cleanL_nil
  | v :: rest => by
    have ih := lameLoop_clean hg q hq rest
    unfold lameLoop
    refine .any (fun b => ?_)
    split
    · split
      · exact ih
      · exact .ub
      · refine .bind ih (fun r hr => ?_)
        split_ifs
        · exact .ok (cleanL_cons ⟨hq, (hg _).2.1, (hg _).2.1⟩ hr)
        · exact .ok hr
    · exact ih

theorem lame_clean (hg : CleanG S g) (p : List Nat) : Yields (CleanL S) (lameDelegation g p) := by
  unfold lameDelegation
  split
  · split_ifs
    · exact lameLoop_clean hg _ (hg _).1 _
    · exact .ok cleanL_nil
  · exact .ok cleanL_nil

theorem dnameLength_clean (hg : CleanG S g) (p : List Nat) : Yields (CleanL S) (dnameLength g p) := by
  unfold dnameLength
  split
  · exact .any (fun b => .ok (cleanL_ite (cleanL_one ⟨(hg _).1, (hg _).1, (hg _).2.1⟩) cleanL_nil))
  · exact .ub

theorem nsContact_clean (hg : CleanG S g) (allowed : List Name) (ha : ∀ s, labelListToString allowed = .ok s → S s) :
    ∀ l, Yields (CleanL S) (nsContact g allowed l)
  | [] => .ok cleanL_nil
  | v :: rest => by
    have ih := nsContact_clean hg allowed ha rest
    unfold nsContact
    split_ifs
    · exact .bind (Q := S) ha (fun a h => .bind ih (fun r hr => .ok (cleanL_cons ⟨(hg v).1, (hg v).2.1, h⟩ hr)))
    · exact ih

theorem hops_clean (hg : CleanG S g) (n : Int) (p : List Nat) : Yields (CleanL S) (hops g n p) := by
  unfold hops
  refine .any (fun s => ?_)
  split_ifs
  · split
    · exact .ub
    · exact .ok (cleanL_one (hg _).1)
  · exact .ok cleanL_nil

theorem rewrites_clean (hg : CleanG S g) (n : Int) (p : List Nat) : Yields (CleanL S) (rewrites g n p) := by
  unfold rewrites
  refine .any (fun s => ?_)
  split_ifs
  · split
    · exact .ub
    · exact .ok (cleanL_one (hg _).1)
  · exact .ok cleanL_nil

theorem queryRewrite_clean (hg : CleanG S g) (allowed : List Name) (ha : ∀ s, labelListToString allowed = .ok s → S s) :
    ∀ l, Yields (CleanL S) (queryRewrite g allowed l)
  | [] => .ok cleanL_nil
  | v :: rest => by
    have ih := queryRewrite_clean hg allowed ha rest
    unfold queryRewrite
    refine .any (fun b => ?_)
    split
    · split_ifs
      · exact .bind (Q := S) ha (fun a h => .bind ih (fun r hr => .ok (cleanL_cons ⟨(hg _).1, (hg _).1, (hg _).2.1, h⟩ hr)))
      · exact ih
    · exact ih

theorem blackholeLoop_clean (hg : CleanG S g) (last : Nat) : ∀ l, Yields (CleanL S) (blackholeLoop g last l)
  | [] => .ok cleanL_nil
  | v :: rest => by
    have ih := blackholeLoop_clean hg last rest
    unfold blackholeLoop
    refine .any (fun b => ?_)
    split_ifs
    · exact .any (fun a => .ok (cleanL_ite (cleanL_one ⟨(hg _).1, (hg _).1, (hg _).2.1⟩) cleanL_nil))
    · exact .ok cleanL_nil
    · exact ih

/-- The strings of the job's functions are clean. -/
def CleanPF (S : Str → Prop) : PathFn → Prop
  | .queryRewrite d => ∀ s, labelListToString d = .ok s → S s
  | .nsContact d => ∀ s, labelListToString d = .ok s → S s
  | _ => True

/-- The strings of the job's functions are clean. -/
def CleanNF (S : Str → Prop) : NodeFn → Prop
  | .value _ vs => ∀ s ∈ vs, S s
  | _ => True

theorem pathFn_clean (hg : CleanG S g) (p : List Nat) (f : PathFn) (hf : CleanPF S f) : Yields (CleanL S) (f.run g p) := by
  cases f with
  | misfit b => cases b <;> (intro _ h; cases h)
  | hops n => exact hops_clean hg n p
  | rewrites n => exact rewrites_clean hg n p
  | delegation => exact delegation_clean hg p
  | infiniteDname => exact infiniteDname_clean hg p [] (fun _ h => nomatch h)
  | lame => exact lame_clean hg p
  | queryRewrite d => exact queryRewrite_clean hg d hf p
  | nsContact d => exact nsContact_clean hg d hf p
  | blackholing =>
    show Yields _ (blackholing g p)
    unfold blackholing
    split
    · exact .ok cleanL_nil
    · exact blackholeLoop_clean hg _ p
  | allAliases d => exact allAliases_clean hg d p
  | dnameLength => exact dnameLength_clean hg p

theorem nodeFn_clean (hs : Strings S) (hg : CleanG S g) (ends : List Nat) (f : NodeFn) (hf : CleanNF S f) : Yields (CleanL S) (f.run g ends) := by
  cases f with
  | consistency ts => exact responseConsistency_clean hg ts ends
  | returned ts => exact responseReturned_clean hs hg ts ends
  | value ts v =>
    show Yields _ (responseValue g ts v ends)
    unfold responseValue
    exact .bind (valueMismatches_clean hs hg ts v ends) (fun m hm => .ok (cleanL_ite cleanL_nil (cleanL_one ⟨hs.flatten v hf, hm⟩)))
  | zeroTTL ts =>
    show Yields _ (zeroTTL g ts ends)
    unfold zeroTTL
    split
    · exact .ok cleanL_nil
    · exact zeroLoop_clean hg ts _ _

theorem checkLoops_clean (hg : CleanG S g) : ∀ (fuel v : Nat) (p : List Nat), Yields (fun o => ∀ x, o = some x → Clean S x) (g.checkLoops fuel v p)
  | 0, _, _ => .oof
  | fuel + 1, v, p => by
    unfold IG.checkLoops
    split_ifs
    · refine .bind (Q := Clean S) ?_ (fun x hx => .ok (by rintro y hy; injection hy with hy; rw [← hy]; exact hx))
      unfold IG.prettyLoop
      refine .bind (Q := fun l : List LoopNode => ∀ n ∈ l, S n.ns ∧ S n.query) (.foldlM _ _ (fun b hb e _ => ?_) (by simp)) (fun ns hn => .ok hn)
      refine .bind (Q := fun n : LoopNode => S n.ns ∧ S n.query) ?_ (fun n hn => .ok ?_)
      · unfold IG.loopNode
        split
        · exact .ok ⟨(hg e).2.1, (hg e).1⟩
        · exact .ub
        · exact .ok ⟨(hg e).2.1, (hg e).1⟩
      · intro x hx
        rcases List.mem_append.mp hx with h | h
        · exact hb x h
        · rw [List.mem_singleton.mp h]; exact hn
    · refine .foldlM _ _ (fun b hb e _ => ?_) (fun x hx => nomatch hx)
      cases b with
      | some x => exact .ok hb
      | none =>
        dsimp only
        have next : ∀ o : Option Violation, (∀ x, o = some x → Clean S x) → Yields (fun o => ∀ x, o = some x → Clean S x)
            (match o with | some x => Res.ok (some x) | none => g.checkLoops fuel e.dst (p ++ [v])) := by
          intro o ho
          cases o with
          | some x => exact .ok ho
          | none => exact checkLoops_clean hg fuel _ _
        cases e.side with
        | some s => exact .bind (checkLoops_clean hg fuel s _) next
        | none => exact .bind (.ok (fun x hx => nomatch hx)) next

/-- The violations of a class are clean if its graph and the job are. -/
theorem checkProperties_clean (hs : Strings S) (hg : CleanG S g) (fuel : Nat) (pf : List PathFn) (nf : List NodeFn) (hp : ∀ f ∈ pf, CleanPF S f)
    (hn : ∀ f ∈ nf, CleanNF S f) : Yields (CleanL S) (checkProperties fuel g pf nf) := by
  unfold checkProperties
  refine .any (fun s => ?_)
  exact .bind (Q := CleanL S) (.concatM (fun p _ => .concatM (fun f hf => pathFn_clean hg p f (hp f hf))))
    (fun a ha => .bind (Q := CleanL S) (.concatM (fun f hf => nodeFn_clean hs hg _ f (hn f hf))) (fun b hb => .ok (cleanL_append ha hb)))

theorem processEC_clean (hs : Strings S) (fuel thr : Nat) (ctx : Context) (pf : List PathFn) (nf : List NodeFn) (q : EC) (hp : ∀ f ∈ pf, CleanPF S f)
    (hn : ∀ f ∈ nf, CleanNF S f) (hg : Yields (CleanG S) (buildIG fuel thr ctx q)) : Yields (fun r => CleanL S r.1) (processEC fuel thr ctx pf nf q) := by
  unfold processEC
  refine .bind hg (fun g hg => .bind (checkLoops_clean hg fuel 0 []) (fun l hl => .bind (checkProperties_clean hs hg fuel pf nf hp hn) (fun v hv => .ok ?_)))
  refine cleanL_append ?_ hv
  intro x hx
  exact hl x (by simpa using hx)

/-- A zone whose records satisfy `P`. -/
def ZoneHas (P : RR → Prop) (z : Zone) : Prop := ∀ v, ∀ r ∈ z.rrsAt v, P r

theorem compareRRs_mem (P : RR → Prop) : ∀ (a b : List RR), (∀ r ∈ a, P r) → (∀ r ∈ b, P r) →
    ∀ r ∈ (compareRRs a b).1 ++ (compareRRs a b).2.1 ++ (compareRRs a b).2.2, P r := by
  have er : ∀ (a : RR) (b b' : List RR), eraseFirst a b = some b' → ∀ r ∈ b', r ∈ b := by
    intro a b
    induction b with
    | nil => intro b' h; cases h
    | cons x b ih =>
      intro b' h
      unfold eraseFirst at h
      split_ifs at h
      · injection h with h
        rw [← h]
        exact fun r hr => by simp [hr]
      · obtain ⟨c, hc, rfl⟩ := Option.map_eq_some_iff.mp h
        intro r hr
        rcases List.mem_cons.mp hr with h | h
        · simp [h]
        · simp [ih c hc r h]
  intro a
  induction a with
  | nil =>
    intro b _ hb r hr
    unfold compareRRs at hr
    simpa using hb r (by simpa using hr)
  | cons x a ih =>
    intro b ha hb r hr
    unfold compareRRs at hr
    split at hr
    · rename_i b' he
      have := ih b' (fun r hr => ha r (by simp [hr])) (fun r hr => hb r (er _ _ _ he r hr))
      simp only [List.cons_append, List.mem_cons] at hr
      rcases hr with hr | hr
      · rw [hr]; exact ha x (by simp)
      · exact this r hr
    · have := ih b (fun r hr => ha r (by simp [hr])) hb
      simp only [List.append_assoc, List.mem_append, List.cons_append, List.mem_cons] at hr this
      rcases hr with hr | hr | hr | hr
      · exact this r (.inl hr)
      · rw [hr]; exact ha x (by simp)
      · exact this r (.inr (.inl hr))
      · exact this r (.inr (.inr hr))

theorem foldl_glue_mem {P : RR → Prop} {z : Zone} (hz : ZoneHas P z) (thr : Nat) (ns : List RR) : ∀ r ∈ z.lookUpGlue thr ns, P r := by
  unfold Zone.lookUpGlue
  have : ∀ (l acc : List RR), (∀ r ∈ acc, P r) → ∀ r ∈ l.foldl (fun ips record =>
      let nsName := stringToLabels record.rdata
      let r := z.ancestor thr nsName
      if nsName.length = r.2 then ips ++ (z.rrsAt r.1).filter (fun x => x.type == .A || x.type == .AAAA) else ips) acc, P r := by
    intro l
    induction l with
    | nil => intro acc h; exact h
    | cons x l ih =>
      intro acc h
      rw [List.foldl_cons]
      refine ih _ ?_
      dsimp only
      split_ifs
      · intro r hr
        rcases List.mem_append.mp hr with hr | hr
        · exact h r hr
        · exact hz _ r (List.mem_of_mem_filter hr)
      · exact h
  exact this ns [] (by simp)

/-- The records collected by the structural check satisfy `P`. -/
def StateHas (P : RR → Prop) (st : LGraph.SState) : Prop :=
  ∀ x ∈ st.parents ++ st.children, (∀ g, x.2.1 = some g → ∀ r ∈ g, P r) ∧ ∀ r ∈ x.2.2, P r

theorem structStep_has {P : RR → Prop} (thr : Nat) (ctx : Context) (hz : ∀ p ∈ ctx.zones, ZoneHas P p.2) (st : LGraph.SState) (hst : StateHas P st)
    (zv : Nat × Nat) : Yields (StateHas P) (LGraph.structStep thr ctx st zv) := by
  unfold LGraph.structStep
  split
  · exact .exit
  · rename_i z hl
    have hz' : ZoneHas P z := hz _ (mem_of_lookup hl)
    have hns : ∀ r ∈ (z.rrsAt zv.2).filter (fun r => r.type == .NS), P r := fun r hr => hz' _ r (List.mem_of_mem_filter hr)
    have hg := foldl_glue_mem hz' thr ((z.rrsAt zv.2).filter (fun r => r.type == .NS))
    dsimp only
    have hp : ∀ x ∈ st.parents, (∀ g, x.2.1 = some g → ∀ r ∈ g, P r) ∧ ∀ r ∈ x.2.2, P r := fun x hx => hst x (by simp [hx])
    have hc : ∀ x ∈ st.children, (∀ g, x.2.1 = some g → ∀ r ∈ g, P r) ∧ ∀ r ∈ x.2.2, P r := fun x hx => hst x (by simp [hx])
    have new : ∀ x : LGraph.ZGN, x = (zv.1, some (z.lookUpGlue thr ((z.rrsAt zv.2).filter (fun r => r.type == .NS))), (z.rrsAt zv.2).filter (fun r => r.type == .NS)) →
        (∀ g, x.2.1 = some g → ∀ r ∈ g, P r) ∧ ∀ r ∈ x.2.2, P r := by
      rintro x rfl
      refine ⟨fun g hg' => ?_, hns⟩
      injection hg' with hg'
      rw [← hg']; exact hg
    split_ifs
    · refine .ok ?_
      intro x hx
      simp only [List.mem_append, List.mem_singleton] at hx
      rcases hx with hx | hx | hx
      · exact hp x hx
      · exact hc x hx
      · exact new x hx
    · refine .ok ?_
      intro x hx
      simp only [List.mem_append, List.mem_singleton] at hx
      rcases hx with hx | hx | hx
      · exact hp x hx
      · exact hc x hx
      · rw [hx]
        exact ⟨fun g hg' => (nomatch hg'), hns⟩
    · refine .ok ?_
      intro x hx
      simp only [List.mem_append, List.mem_singleton] at hx
      rcases hx with (hx | hx) | hx
      · exact hp x hx
      · exact new x hx
      · exact hc x hx
    · refine .ok ?_
      intro x hx
      simp only [List.mem_append, List.mem_singleton] at hx
      rcases hx with hx | hx
      · exact new x hx
      · exact hc x hx
    · exact .ok hst
    · refine .ok ?_
      intro x hx
      simp only [List.mem_append, List.mem_singleton] at hx
      rcases hx with (hx | hx) | hx
      · exact hp x hx
      · exact new x hx
      · exact hc x hx

theorem outputNS_clean {nsDiff : List RR × List RR × List RR} {glueDiff : Option (List RR × List RR × List RR)} {a b ra rb : Str}
    (h1 : ∀ r ∈ nsDiff.1 ++ nsDiff.2.1 ++ nsDiff.2.2, S r.str) (h2 : ∀ g, glueDiff = some g → ∀ r ∈ g.1 ++ g.2.1 ++ g.2.2, S r.str)
    (ha : S a) (hb : S b) (hr : (ra, rb) ∈ roles) : ∀ p, LGraph.outputNS nsDiff glueDiff a b ra rb = some p → CleanPair S p := by
  intro p hp
  unfold LGraph.outputNS at hp
  dsimp only at hp
  split_ifs at hp
  injection hp with hp
  rw [← hp]
  refine ⟨hr, ha, hb, ?_, ?_⟩
  · intro s hs
    simp only [← List.map_append] at hs
    obtain ⟨r, hr, rfl⟩ := List.mem_map.mp hs
    exact h1 r hr
  · intro g hg s hs
    obtain ⟨g', hg', rfl⟩ := Option.map_eq_some_iff.mp hg
    simp only [← List.map_append] at hs
    obtain ⟨r, hr, rfl⟩ := List.mem_map.mp hs
    exact h2 g' hg' r hr

theorem comparePair_clean (ctx : Context) (hns : ∀ p ∈ ctx.zoneNs, S p.2) (kind : Nat) (p c : LGraph.ZGN)
    (hp : (∀ g, p.2.1 = some g → ∀ r ∈ g, S r.str) ∧ ∀ r ∈ p.2.2, S r.str) (hc : (∀ g, c.2.1 = some g → ∀ r ∈ g, S r.str) ∧ ∀ r ∈ c.2.2, S r.str) :
    Yields (fun o => ∀ x, o = some x → CleanPair S x) (LGraph.comparePair ctx kind p c) := by
  have hgl : ∀ (pg cg : List RR), (∀ r ∈ pg, S r.str) → (∀ r ∈ cg, S r.str) → ∀ g, some (compareRRs pg cg) = some g → ∀ r ∈ g.1 ++ g.2.1 ++ g.2.2, S r.str := by
    intro pg cg h1 h2 g hg
    injection hg with hg
    rw [← hg]
    exact compareRRs_mem (fun r => S r.str) _ _ h1 h2
  have hr : ∀ kind : Nat, ((if kind = 0 then ("parent".toList, "child".toList) else if kind = 1 then ("parent-a".toList, "parent-b".toList)
      else ("child-a".toList, "child-b".toList) : Str × Str).1, (if kind = 0 then ("parent".toList, "child".toList) else if kind = 1 then
      ("parent-a".toList, "parent-b".toList) else ("child-a".toList, "child-b".toList) : Str × Str).2) ∈ roles := by
    intro kind
    split_ifs <;> simp [roles]
  have fin : ∀ gd : Option (List RR × List RR × List RR), (∀ g, gd = some g → ∀ r ∈ g.1 ++ g.2.1 ++ g.2.2, S r.str) →
      Yields (fun o => ∀ x, o = some x → CleanPair S x) (match ctx.zoneNs.lookup p.1, ctx.zoneNs.lookup c.1 with
        | some a, some b => .ok (LGraph.outputNS (compareRRs p.2.2 c.2.2) gd a b
            (if kind = 0 then ("parent".toList, "child".toList) else if kind = 1 then ("parent-a".toList, "parent-b".toList)
              else ("child-a".toList, "child-b".toList) : Str × Str).1
            (if kind = 0 then ("parent".toList, "child".toList) else if kind = 1 then ("parent-a".toList, "parent-b".toList)
              else ("child-a".toList, "child-b".toList) : Str × Str).2)
        | _, _ => .throw) := by
    intro gd hgd
    split
    · rename_i a b ha hb
      exact .ok (outputNS_clean (compareRRs_mem (fun r => S r.str) _ _ hp.2 hc.2) hgd (hns _ (mem_of_lookup ha)) (hns _ (mem_of_lookup hb)) (hr kind))
    · exact .throw
  unfold LGraph.comparePair
  dsimp only
  by_cases h0 : kind = 0
  · rw [if_pos h0]
    split
    · rename_i cg pg h1 h2
      exact .bind (Q := fun gd => ∀ g, gd = some g → ∀ r ∈ g.1 ++ g.2.1 ++ g.2.2, S r.str) (.ok (hgl pg cg (hp.1 _ h2) (hc.1 _ h1))) fin
    · exact .bind (Q := fun gd => ∀ g, gd = some g → ∀ r ∈ g.1 ++ g.2.1 ++ g.2.2, S r.str) .ub fin
    · exact .bind (Q := fun gd => ∀ g, gd = some g → ∀ r ∈ g.1 ++ g.2.1 ++ g.2.2, S r.str) (.ok (fun g hg => nomatch hg)) fin
  · rw [if_neg h0]
    by_cases h1 : kind = 1
    · rw [if_pos h1]
      split
      · rename_i pg cg h1 h2
        exact .bind (Q := fun gd => ∀ g, gd = some g → ∀ r ∈ g.1 ++ g.2.1 ++ g.2.2, S r.str) (.ok (hgl pg cg (hp.1 _ h1) (hc.1 _ h2))) fin
      · exact .bind (Q := fun gd => ∀ g, gd = some g → ∀ r ∈ g.1 ++ g.2.1 ++ g.2.2, S r.str) .ub fin
    · rw [if_neg h1]
      refine .bind (Q := fun gd => ∀ g, gd = some g → ∀ r ∈ g.1 ++ g.2.1 ++ g.2.2, S r.str) (.ok (hgl _ _ ?_ ?_)) fin
      · intro r hr
        cases hx : p.2.1 with
        | none => rw [hx] at hr; cases hr
        | some g => rw [hx] at hr; exact hp.1 g hx r hr
      · intro r hr
        cases hx : c.2.1 with
        | none => rw [hx] at hr; cases hr
        | some g => rw [hx] at hr; exact hc.1 g hx r hr

theorem allPairs_mem {α : Type} : ∀ (l : List α) (x : α × α), x ∈ LGraph.allPairs l → x.1 ∈ l ∧ x.2 ∈ l
  | [], x, h => by cases h
  | a :: l, x, h => by
    unfold LGraph.allPairs at h
    rcases List.mem_append.mp h with h | h
    · obtain ⟨y, hy, rfl⟩ := List.mem_map.mp h
      exact ⟨by simp, by simp [hy]⟩
    · have := allPairs_mem l x h
      exact ⟨by simp [this.1], by simp [this.2]⟩

theorem structural_clean (thr : Nat) (lg : LGraph) (ctx : Context) (domain : Str) (node : Nat) (hd : S domain)
    (hns : ∀ p ∈ ctx.zoneNs, S p.2) (hz : ∀ p ∈ ctx.zones, ZoneHas (fun r => S r.str) p.2) :
    Yields (CleanL S) (LGraph.structuralCheck thr lg ctx domain node) := by
  unfold LGraph.structuralCheck
  dsimp only
  split_ifs
  · refine .bind (Q := StateHas (fun r => S r.str)) (.foldlM _ _ (fun b hb a _ => structStep_has thr ctx hz b hb a) (fun x hx => (nomatch hx))) (fun st hst => ?_)
    have hch : ∀ x ∈ st.children, (∀ g, x.2.1 = some g → ∀ r ∈ g, S r.str) ∧ ∀ r ∈ x.2.2, S r.str := fun x hx => hst x (by simp [hx])
    have hpa : ∀ x ∈ st.parents.map (LGraph.trimGlue st.childZone), (∀ g, x.2.1 = some g → ∀ r ∈ g, S r.str) ∧ ∀ r ∈ x.2.2, S r.str := by
      intro x hx
      obtain ⟨y, hy, rfl⟩ := List.mem_map.mp hx
      have := hst y (by simp [hy])
      unfold LGraph.trimGlue
      split_ifs
      · refine ⟨fun g hg => ?_, this.2⟩
        obtain ⟨g', hg', rfl⟩ := Option.map_eq_some_iff.mp hg
        exact fun r hr => this.1 g' hg' r (List.mem_of_mem_filter hr)
      · exact this
    refine .bind (Q := fun l : List PairDiff => ∀ p ∈ l, CleanPair S p) (.foldlM _ _ (fun b hb j hj => ?_) (by simp)) (fun pairs hps => ?_)
    · have hj' : ((∀ g, j.2.1.2.1 = some g → ∀ r ∈ g, S r.str) ∧ ∀ r ∈ j.2.1.2.2, S r.str) ∧ ((∀ g, j.2.2.2.1 = some g → ∀ r ∈ g, S r.str) ∧ ∀ r ∈ j.2.2.2.2, S r.str) := by
        rcases List.mem_append.mp hj with hj | hj
        · rcases List.mem_append.mp hj with hj | hj
          · obtain ⟨p, hp, hj⟩ := List.mem_flatMap.mp hj
            obtain ⟨c, hc, rfl⟩ := List.mem_map.mp hj
            exact ⟨hpa p hp, hch c hc⟩
          · obtain ⟨x, hx, rfl⟩ := List.mem_map.mp hj
            have := allPairs_mem _ _ hx
            exact ⟨hpa _ this.1, hpa _ this.2⟩
        · obtain ⟨x, hx, rfl⟩ := List.mem_map.mp hj
          have := allPairs_mem _ _ hx
          exact ⟨hch _ this.1, hch _ this.2⟩
      refine .bind (comparePair_clean ctx hns j.1 j.2.1 j.2.2 hj'.1 hj'.2) (fun o ho => .ok ?_)
      intro p hp
      rcases List.mem_append.mp hp with hp | hp
      · exact hb p hp
      · exact ho p (by simpa using hp)
    · split_ifs
      · exact .ok cleanL_nil
      · exact .ok (cleanL_one ⟨hd, hps⟩)
  · exact .ok cleanL_nil

theorem addAlias_clean {c q : Str} (hc : S c) (hq : S q) : ∀ {gs : List (Str × List Str)}, (∀ g ∈ gs, S g.1 ∧ ∀ a ∈ g.2, S a) →
    ∀ g ∈ Driver.addAlias c q gs, S g.1 ∧ ∀ a ∈ g.2, S a
  | [], _ => by
    intro g hg
    rw [List.mem_singleton.mp hg]
    exact ⟨hc, by simpa using hq⟩
  | (c', qs) :: gs, h => by
    unfold Driver.addAlias
    split_ifs
    · intro g hg
      rcases List.mem_cons.mp hg with e | e
      · rw [e]
        refine ⟨(h (c', qs) (by simp)).1, fun a ha => ?_⟩
        rcases setInsert_mem _ _ _ ha with e | e
        · rw [e]; exact hq
        · exact (h (c', qs) (by simp)).2 a e
      · exact h g (by simp [e])
    · intro g hg
      rcases List.mem_cons.mp hg with e | e
      · rw [e]; exact h _ (by simp)
      · exact addAlias_clean hc hq (fun g hg => h g (by simp [hg])) g e

theorem collectOne_clean {st : List Violation × List (Str × List Str)} (h1 : CleanL S st.1) (h2 : ∀ g ∈ st.2, S g.1 ∧ ∀ a ∈ g.2, S a)
    {v : Violation} (hv : Clean S v) :
    CleanL S (Driver.collectOne st v).1 ∧ ∀ g ∈ (Driver.collectOne st v).2, S g.1 ∧ ∀ a ∈ g.2, S a := by
  have other : ∀ v : Violation, Clean S v → CleanL S (if v ∈ st.1 then st.1 else st.1 ++ [v]) := fun v hv => by
    split_ifs
    · exact h1
    · exact cleanL_append h1 (cleanL_one hv)
  cases v with
  | «alias» q c => exact ⟨h1, addAlias_clean hv.2 hv.1 h2⟩
  | _ => exact ⟨other _ hv, h2⟩

theorem collect_clean {before items : List Violation} (hb : CleanL S before) (hi : CleanL S items) : CleanL S (Driver.collect before items) := by
  have : ∀ (items : List Violation) (st : List Violation × List (Str × List Str)), CleanL S items → CleanL S st.1 → (∀ g ∈ st.2, S g.1 ∧ ∀ a ∈ g.2, S a) →
      CleanL S (items.foldl Driver.collectOne st).1 ∧ ∀ g ∈ (items.foldl Driver.collectOne st).2, S g.1 ∧ ∀ a ∈ g.2, S a := by
    intro items
    induction items with
    | nil => intro st _ h1 h2; exact ⟨h1, h2⟩
    | cons v items ih =>
      intro st hi h1 h2
      obtain ⟨e1, e2⟩ := collectOne_clean h1 h2 (hi v (by simp))
      exact ih _ (fun w hw => hi w (by simp [hw])) e1 e2
  obtain ⟨e1, e2⟩ := this items (before, []) hi hb (by simp)
  unfold Driver.collect
  dsimp only
  split_ifs
  · exact e1
  · exact cleanL_append e1 (cleanL_one e2)
  · exact e1

end

end Groot
