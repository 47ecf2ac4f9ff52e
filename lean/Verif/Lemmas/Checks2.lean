import Verif.Lemmas.Show
import Verif.Lemmas.Checks

/-! # Characterisation of the loops of the property checks, continued -/

namespace Groot
open Spec

theorem Spec.ResolutionPath.answered {g : IG} {p : List Nat} (h : ResolutionPath g p) : ∀ v ∈ p, Answered g v := by
  obtain ⟨v0, rest, rfl, h1, h2, h3⟩ := h
  intro v hv
  rcases List.mem_cons.mp hv with rfl | hv
  · exact ⟨by simp [h2], fun x => absurd h1 x⟩
  · obtain ⟨_, hb⟩ := h3 v hv
    refine ⟨fun hc => hb (by simp [firstAns, hc]), fun _ hc => hb (by simp [firstAns, hc])⟩

theorem Spec.ResolutionPath.ne_nil {g : IG} {p : List Nat} (h : ResolutionPath g p) : p ≠ [] := by
  obtain ⟨v0, rest, rfl, _⟩ := h; simp

theorem mem_consecutive {p : List Nat} {x : Nat × Nat} : x ∈ consecutive p ↔ ∃ a b, p = a ++ x.1 :: x.2 :: b := by
  unfold consecutive
  induction p with
  | nil => simp
  | cons v p ih =>
    cases p with
    | nil =>
      simp only [List.tail_cons, List.zip_nil_right, List.not_mem_nil, false_iff]
      rintro ⟨a, b, h⟩
      have := congrArg List.length h
      simp at this
      omega
    | cons u p =>
      simp only [List.tail_cons, List.zip_cons_cons, List.mem_cons]
      simp only [List.tail_cons] at ih
      rw [ih]
      constructor
      · rintro (h | ⟨a, b, h⟩)
        · exact ⟨[], p, by rw [h]; rfl⟩
        · exact ⟨v :: a, b, by rw [h]; rfl⟩
      · rintro ⟨a, b, h⟩
        cases a with
        | nil =>
          simp only [List.nil_append, List.cons.injEq] at h
          exact Or.inl (Prod.ext h.1.symm h.2.1.symm)
        | cons c a =>
          simp only [List.cons_append, List.cons.injEq] at h
          exact Or.inr ⟨a, b, h.2⟩

theorem blackhole_eq {g : IG} {last : Nat} {p : List Nat} (h : ResolutionPath g p) (hl : p.getLast? = some last) :
    Check.blackholing g p = .ok (match p.dropLast.find? (fun v => decide (Answers g v .REWRITE)) with
      | none => []
      | some v => if Answers g last .NX then
          [.blackhole (g.vtx v).query.toStr (g.vtx last).query.toStr (g.vtx last).ns] else []) := by
  have han := h.answered
  obtain ⟨v0, rest, rfl, h1, h2, h3⟩ := h
  have hv0 : ∀ t, ¬ Answers g v0 t := by intro t; simp [Answers, firstAns, h2]
  unfold Check.blackholing
  rw [hl]
  dsimp only
  cases rest with
  | nil =>
    unfold Check.blackholeLoop
    rw [answerIs_eq (han v0 (by simp)).1]
    simp [hv0, Check.blackholeLoop]
  | cons u rest =>
    have hlm : last ∈ u :: rest := List.mem_of_getLast? (by simpa using hl)
    rw [blackholeLoop_eq _ hl han (h3 last hlm).1]
    congr 1
    have hd : (v0 :: u :: rest) = (v0 :: u :: rest).dropLast ++ [last] := by
      have := List.dropLast_append_getLast? last (by simpa using hl : last ∈ (v0 :: u :: rest).getLast?)
      exact this.symm
    generalize (v0 :: u :: rest).dropLast = d at hd ⊢
    rw [hd, List.find?_append]
    cases hf : List.find? (fun v => decide (Answers g v .REWRITE)) d with
    | some v => simp
    | none =>
      by_cases hr : Answers g last .REWRITE
      · simp [hr]
      · simp [hr]

theorem delegates_iff {g : IG} {n : Name} {v u : Nat} {a : Answer} {as : List Answer}
    (ha : (g.vtx u).answer = some (a :: as)) (hr : Answers g v .REF) :
    (a.tag = .ANS ∧ a.types.has .NS ∧ a.rrs.length > 0 ∧ n = (g.vtx u).query.name) ↔ Delegates g n (v, u) := by
  have hf := firstAns_of ha
  rw [show Delegates g n (v, u) ↔ (Answers g u .ANS ∧ (∃ a, firstAns g u = some a ∧ Member a.types .NS) ∧
    ansRecords g u ≠ [] ∧ (g.vtx u).query.name = n) from ⟨fun h => h.2, fun h => ⟨hr, h⟩⟩]
  simp only [Answers, hf, ansRecords, Option.map_some, Option.some.injEq, Option.getD_some,
    exists_eq_left', has_iff, List.length_pos_iff, ne_eq]
  simp only [eq_comm (a := n)]

theorem lastDelegation_eq {g : IG} {n : Name} (p : List Nat) (h : ∀ v ∈ p, Answered g v) : ∀ best,
    Check.lastDelegation g n best p =
      .ok ((((consecutive p).filter (fun x => decide (Delegates g n x))).getLast?).or best) := by
  induction p with
  | nil => intro best; rfl
  | cons v p ih =>
    intro best
    have ih := ih (fun x hx => h x (by simp [hx]))
    unfold Check.lastDelegation
    rw [answerIs_eq (h v (by simp)).1]
    simp only [Res.ok_bind]
    by_cases hr : Answers g v .REF
    · cases p with
      | nil => simp [hr, Check.lastDelegation, consecutive]
      | cons u p =>
        simp only [hr, decide_true]
        have e : consecutive (v :: u :: p) = (v, u) :: consecutive (u :: p) := rfl
        have hu := (h u (by simp)).1
        rcases ha : (g.vtx u).answer with _ | _ | ⟨a, as⟩
        · dsimp only
          have : ¬ Delegates g n (v, u) := by
            rintro ⟨_, h2, _⟩; simp [Answers, firstAns, ha] at h2
          rw [ih, e, List.filter_cons_of_neg (by simpa using this)]
        · exact absurd ha hu
        · dsimp only
          by_cases hd : Delegates g n (v, u)
          · rw [if_pos ((delegates_iff ha hr).mpr hd), ih, e, List.filter_cons_of_pos (by simpa using hd)]
            generalize List.filter (fun x => decide (Delegates g n x)) (consecutive (u :: p)) = l
            cases l with
            | nil => rfl
            | cons y l => simp [List.getLast?_cons]
          · rw [if_neg (fun x => hd ((delegates_iff ha hr).mp x)), ih, e, List.filter_cons_of_neg (by simpa using hd)]
    · rw [show decide (Answers g v .REF) = false by simp [hr]]
      dsimp only
      rw [ih]
      cases p with
      | nil => simp [consecutive]
      | cons u p =>
        have : ¬ Delegates g n (v, u) := fun x => hr x.1
        rw [show consecutive (v :: u :: p) = (v, u) :: consecutive (u :: p) from rfl,
          List.filter_cons_of_neg (by simpa using this)]

theorem compareDelegation_eq {g : IG} {q : EC} {v u : Nat} {a b : Answer} (hv : g.answer0 v = .ok a)
    (hu : g.answer0 u = .ok b) : Check.compareDelegation g q v u = .ok (
      if ¬ SameOwner (nsOf a.rrs) (nsOf b.rrs) then [] else
        (if SameRecords (nsOf a.rrs) (nsOf b.rrs) then [] else [.delegation q.toStr (g.vtx v).ns (g.vtx u).ns false]) ++
        (if SameRecords (within (nsOf b.rrs) (addressesOf a.rrs)) (addressesOf b.rrs) then []
          else [.delegation q.toStr (g.vtx v).ns (g.vtx u).ns true])) := by
  unfold Check.compareDelegation
  rw [hv]
  simp only [Res.ok_bind]
  rw [hu]
  simp only [Res.ok_bind]
  have e1 : ∀ l, (Check.nsGlue l).1 = nsOf l := by
    intro l; unfold Check.nsGlue nsOf; dsimp only; congr 1
  have e2 : ∀ l, (Check.nsGlue l).2 = addressesOf l := by
    intro l; unfold Check.nsGlue addressesOf; dsimp only; congr 1; funext r
    cases r.type <;> rfl
  simp only [e1, e2]
  have e5 : ∀ x y (w : List Violation), (if Check.differ x y then w else []) =
      if SameRecords x y then [] else w := by
    intro x y w
    by_cases h : SameRecords x y
    · rw [if_pos h, if_neg (by rw [differ_iff]; simpa using h)]
    · rw [if_neg h, if_pos ((differ_iff x y).mpr h)]
  have e6 : ∀ (y : RR) (l : List RR), l.filter (fun r => subDomainCheck y.name r.name) =
      l.filter (fun r => decide (AtOrBelow y.name r.name)) := by
    intro y l
    congr 1; funext r
    rw [Bool.eq_iff_iff, subDomainCheck_iff]; simp
  generalize nsOf a.rrs = P
  generalize nsOf b.rrs = C
  simp only [e5, e6, ite_not]
  cases P with
  | nil => cases C <;> simp [SameOwner, within] <;> congr
  | cons x P => cases C with
    | nil => simp [SameOwner, within]; congr
    | cons y C =>
      by_cases hxy : x.name = y.name
      · simp [SameOwner, within, hxy]; congr
      · simp [SameOwner, within, hxy]

/-! ### End-node checks -/

theorem count_ne_zero_iff (a b : TypeSet) : (TypeSet.count (a &&& b) != 0) = true ↔ ∃ t, Member a t ∧ Member b t := by
  rw [bne_iff_ne, ← Nat.pos_iff_ne_zero, show (0 < TypeSet.count (a &&& b)) ↔ _ from count_pos (a &&& b)]
  constructor
  · rintro ⟨t, ht⟩
    rw [← has_iff, has_and, Bool.and_eq_true, has_iff, has_iff] at ht
    exact ⟨t, ht⟩
  · rintro ⟨t, ht⟩
    refine ⟨t, ?_⟩
    rw [← has_iff, has_and, Bool.and_eq_true, has_iff, has_iff]
    exact ht

theorem relevant_iff (g : IG) (v : Nat) (ts : TypeSet) :
    (Check.asks g v ts && (g.vtx v).ns != []) = true ↔ AskedFor g v ts ∧ Server g v := by
  rw [Bool.and_eq_true, asks_iff, bne_iff_ne]; rfl

/-- A node is relevant and has an answer, informative or not. -/
theorem informative_iff {g : IG} {v : Nat} {ts : TypeSet} {a : Answer} {as : List Answer}
    (ha : (g.vtx v).answer = some (a :: as)) (hr : AskedFor g v ts ∧ Server g v) :
    Informative g ts v ↔ ¬ (a.tag = .REFUSED ∨ a.tag = .NSNOTFOUND) := by
  have hf := firstAns_of ha
  simp [Informative, hr.1, hr.2, Answers, hf]

theorem returnedAt_eq {g : IG} {ts : TypeSet} {v : Nat} {as : List Answer} (ha : (g.vtx v).answer = some as) :
    Check.returnedAt g v ts as = (missingTypes g ts v).map (fun a =>
      .responseReturned (g.vtx v).query.toStr (typesToString (a.types &&& ts)) (g.vtx v).ns) := by
  unfold Check.returnedAt missingTypes
  rw [ha, Option.getD_some]
  congr 2; funext a
  rw [Bool.eq_iff_iff, Bool.and_eq_true, count_ne_zero_iff, decide_eq_true_eq, List.isEmpty_iff]
  refine and_congr Iff.rfl ⟨?_, ?_⟩
  · rintro ⟨t, h⟩; exact ⟨t, (mem_supported t).mpr h.1.1, h⟩
  · rintro ⟨t, _, h⟩; exact ⟨t, h⟩

theorem responseReturned_eq {g : IG} {ts : TypeSet} (ends : List Nat) (h : ∀ v ∈ ends, Answered g v) :
    Check.responseReturned g ts ends = .ok (
      ((ends.takeWhile (fun v => !(g.vtx v).query.nonExistent)).filter (fun v => decide (Informative g ts v))).flatMap
        (fun v => (missingTypes g ts v).map (fun a =>
          .responseReturned (g.vtx v).query.toStr (typesToString (a.types &&& ts)) (g.vtx v).ns))) := by
  induction ends with
  | nil => rfl
  | cons v rest ih =>
    have ih := ih (fun x hx => h x (by simp [hx]))
    unfold Check.responseReturned
    by_cases hn : (g.vtx v).query.nonExistent
    · simp [hn]
    · rw [if_neg (by simpa using hn)]
      simp only [Bool.not_eq_true] at hn
      simp only [List.takeWhile_cons, hn, Bool.not_false, if_true]
      by_cases hr : AskedFor g v ts ∧ Server g v
      · rw [if_pos ((relevant_iff _ _ _).mpr hr)]
        obtain ⟨a0, h0, _⟩ := (h v (by simp)).ans hr.2
        rcases ha : (g.vtx v).answer with _ | _ | ⟨a, as⟩
        · simp [firstAns, ha] at h0
        · exact absurd ha (h v (by simp)).1
        · dsimp only
          rw [ih]
          simp only [Res.ok_bind]
          by_cases hi : Informative g ts v
          · rw [if_neg ((informative_iff ha hr).mp hi), returnedAt_eq ha, List.filter_cons_of_pos (by simpa using hi)]
            rfl
          · rw [if_pos (by by_contra hc; exact hi ((informative_iff ha hr).mpr hc)),
              List.filter_cons_of_neg (by simpa using hi)]
            rfl
      · rw [if_neg (fun x => hr ((relevant_iff _ _ _).mp x)), ih]
        have hi : ¬ Informative g ts v := fun x => hr ⟨x.2.1, x.1⟩
        rw [List.filter_cons_of_neg (by simpa using hi)]

theorem rdataSet_eq (ts : TypeSet) (rs : List RR) (h : ∀ r ∈ rs, r.type ≠ .N) :
    ∃ s, Check.rdataSet ts rs = .ok s ∧ s.Pairwise StrLt ∧
      ∀ x, x ∈ s ↔ ∃ r ∈ rs, Member ts r.type ∧ r.rdata = x := by
  induction rs with
  | nil => exact ⟨[], rfl, List.Pairwise.nil, by simp⟩
  | cons r rs ih =>
    obtain ⟨s, h1, h2, h3⟩ := ih (fun x hx => h x (by simp [hx]))
    unfold Check.rdataSet
    have hb : TypeSet.getBit ts r.type = .ok (ts.has r.type) := by simp [TypeSet.getBit, h r (by simp)]
    rw [hb, h1]
    simp only [Res.ok_bind]
    by_cases hm : ts.has r.type = true
    · refine ⟨setInsert r.rdata s, by simp [hm], setInsert_sorted _ _ h2, fun x => ?_⟩
      rw [mem_setInsert, h3]
      rw [has_iff] at hm
      constructor
      · rintro (rfl | ⟨r', a, b⟩)
        · exact ⟨r, by simp, hm, rfl⟩
        · exact ⟨r', by simp [a], b⟩
      · rintro ⟨r', a, b⟩
        rcases List.mem_cons.mp a with rfl | a
        · exact Or.inl b.2.symm
        · exact Or.inr ⟨r', a, b⟩
    · refine ⟨s, by simp [hm], h2, fun x => ?_⟩
      rw [h3]
      rw [has_iff] at hm
      constructor
      · rintro ⟨r', a, b⟩; exact ⟨r', by simp [a], b⟩
      · rintro ⟨r', a, b⟩
        rcases List.mem_cons.mp a with rfl | a
        · exact absurd b.1 hm
        · exact ⟨r', a, b⟩

open Classical in
theorem valueMismatches_eq {g : IG} {ts : TypeSet} {values : List Str} (hv : values.Pairwise StrLt) (ends : List Nat)
    (h : ∀ v ∈ ends, firstAns g v ≠ none) (hs : ∀ v ∈ ends, ∀ r ∈ ansRecords g v, r.type ≠ .N) :
    ∃ found : Nat → List Str,
      (∀ v ∈ ends, WrongValue g ts values v → (found v).Pairwise StrLt ∧ ∀ x, x ∈ found v ↔
        (¬ Answers g v .NX ∧ ¬ Answers g v .YX) ∧ ∃ r ∈ ansRecords g v, Member ts r.type ∧ r.rdata = x) ∧
      Check.valueMismatches g ts values ends = .ok ((ends.filter (fun v => decide (WrongValue g ts values v))).map
        (fun v => ((found v).flatten, (g.vtx v).query.toStr, (g.vtx v).ns))) := by
  have hrd : ∀ v ∈ ends, ∃ s, Check.rdataSet ts (ansRecords g v) = .ok s ∧ s.Pairwise StrLt ∧
      ∀ x, x ∈ s ↔ ∃ r ∈ ansRecords g v, Member ts r.type ∧ r.rdata = x :=
    fun v hv => rdataSet_eq ts _ (hs v hv)
  let found : Nat → List Str := fun v =>
    if Answers g v .NX ∨ Answers g v .YX then [] else
      match Check.rdataSet ts (ansRecords g v) with
      | .ok s => s
      | _ => []
  refine ⟨found, ?_, ?_⟩
  · intro v hvm _
    obtain ⟨s, h1, h2, h3⟩ := hrd v hvm
    by_cases hn : Answers g v .NX ∨ Answers g v .YX
    · refine ⟨by simp [found, hn], fun x => ?_⟩
      simp only [found, hn, if_true, List.not_mem_nil, false_iff]
      rintro ⟨⟨a, b⟩, _⟩
      exact hn.elim a b
    · have : found v = s := by simp [found, hn, h1]
      rw [this]
      refine ⟨h2, fun x => ?_⟩
      rw [h3]
      exact ⟨fun y => ⟨⟨fun a => hn (Or.inl a), fun a => hn (Or.inr a)⟩, y⟩, fun y => y.2⟩
  · have hf : ∀ v ∈ ends, ∀ s, Check.rdataSet ts (ansRecords g v) = .ok s →
        found v = if Answers g v .NX ∨ Answers g v .YX then [] else s := by
      intro v _ s hs; simp [found, hs]
    clear_value found
    clear hs
    induction ends with
    | nil => rfl
    | cons v rest ih =>
      have ih := ih (fun x hx => h x (by simp [hx])) (fun x hx => hrd x (by simp [hx])) (fun x hx => hf x (by simp [hx]))
      obtain ⟨s, h1, h2, h3⟩ := hrd v (by simp)
      have hfv := hf v (by simp) s h1
      unfold Check.valueMismatches
      by_cases hr : AskedFor g v ts
      · rw [if_pos ((asks_iff _ _ _).mpr hr)]
        obtain ⟨a, ha⟩ := Option.ne_none_iff_exists'.mp (h v (by simp))
        have ha0 : g.answer0 v = .ok a := by
          unfold firstAns at ha
          unfold IG.answer0
          rcases hx : (g.vtx v).answer with _ | _ | ⟨b, bs⟩ <;> simp_all
        rw [ha0]
        simp only [Res.ok_bind]
        have hans : ∀ t, Answers g v t ↔ a.tag = t := by intro t; simp [Answers, ha]
        have hrec : ansRecords g v = a.rrs := by simp [ansRecords, ha]
        rw [hrec] at h1 h3
        by_cases c1 : a.tag = .ANS ∨ a.tag = .REWRITE
        · rw [if_pos c1, h1, ih]
          simp only [Res.ok_bind]
          have hnx : ¬ (Answers g v .NX ∨ Answers g v .YX) := by
            rw [hans, hans]; rcases c1 with c | c <;> simp [c]
          rw [if_neg hnx] at hfv
          have hw : WrongValue g ts values v ↔ s ≠ values := by
            unfold WrongValue
            constructor
            · rintro ⟨_, h4 | h4 | ⟨_, h4⟩⟩ heq
              · exact hnx (Or.inl h4)
              · exact hnx (Or.inr h4)
              · subst heq; exact h4 (fun x => by rw [hrec]; exact h3 x)
            · intro hne
              refine ⟨hr, Or.inr (Or.inr ⟨by rw [hans, hans]; exact c1, fun hall => hne ?_⟩)⟩
              exact sorted_ext s values h2 hv (fun x => by rw [h3, hall, hrec])
          by_cases hsv : s = values
          · rw [if_neg (by simpa using hsv), List.filter_cons_of_neg (by simp [hw, hsv])]
          · rw [if_pos hsv, List.filter_cons_of_pos (by simp [hw, hsv]), List.map_cons, hfv]
        · rw [if_neg c1]
          by_cases c2 : a.tag = .NX ∨ a.tag = .YX
          · have hnx : Answers g v .NX ∨ Answers g v .YX := by rw [hans, hans]; exact c2
            rw [if_pos hnx] at hfv
            have hw : WrongValue g ts values v := ⟨hr, by rcases hnx with h4 | h4 <;> simp [h4]⟩
            rw [if_pos c2, ih, List.filter_cons_of_pos (by simpa using hw), List.map_cons, hfv]
            rfl
          · have hw : ¬ WrongValue g ts values v := by
              rintro ⟨_, h4 | h4 | ⟨h4, _⟩⟩
              · exact c2 (Or.inl ((hans _).mp h4))
              · exact c2 (Or.inr ((hans _).mp h4))
              · rw [hans, hans] at h4; exact c1 h4
            rw [if_neg c2, ih, List.filter_cons_of_neg (by simpa using hw)]
      · rw [if_neg (fun x => hr ((asks_iff _ _ _).mp x)), ih,
          List.filter_cons_of_neg (by simp only [decide_eq_true_eq]; exact fun x => hr x.1)]

/-! ### Consistency -/

theorem sameLoop_eq {g : IG} {ts : TypeSet} (ends : List Nat) (h : ∀ v ∈ ends, Answered g v) :
    ∀ (resp : Option Answer) (diff : Bool) (cn : List Nat),
    ∃ d, Check.sameLoop g ts ends resp diff cn =
        .ok (d, cn ++ (informative g ts ends).filter (fun v => decide (Member (g.vtx v).query.types .CNAME))) ∧
      (d = true ↔ diff = true ∨
        match resp with
        | some b => ∃ v ∈ informative g ts ends, ¬ SameRecords (ansRecords g v) b.rrs
        | none => ∃ v0, (informative g ts ends).head? = some v0 ∧
            ∃ v ∈ informative g ts ends, ¬ SameRecords (ansRecords g v) (ansRecords g v0)) := by
  induction ends with
  | nil =>
    intro resp diff cn
    refine ⟨diff, by simp [Check.sameLoop, informative], ?_⟩
    cases resp <;> simp [informative]
  | cons v rest ih =>
    intro resp diff cn
    have ih := ih (fun x hx => h x (by simp [hx]))
    unfold Check.sameLoop
    by_cases hr : AskedFor g v ts ∧ Server g v
    · rw [if_pos ((relevant_iff _ _ _).mpr hr)]
      obtain ⟨a0, h0, _⟩ := (h v (by simp)).ans hr.2
      rcases ha : (g.vtx v).answer with _ | _ | ⟨a, as⟩
      · simp [firstAns, ha] at h0
      · exact absurd ha (h v (by simp)).1
      · dsimp only
        by_cases hi : Informative g ts v
        · have e : informative g ts (v :: rest) = v :: informative g ts rest := by
            unfold informative; rw [List.filter_cons_of_pos (by simpa using hi)]
          have hrec : ansRecords g v = a.rrs := by simp [ansRecords, firstAns_of ha]
          rw [if_neg ((informative_iff ha hr).mp hi)]
          have ecn : ∀ l, (if TypeSet.has (g.vtx v).query.types .CNAME = true then cn ++ [v] else cn) ++ l =
              cn ++ (if Member (g.vtx v).query.types .CNAME then v :: l else l) := by
            intro l
            by_cases hm : Member (g.vtx v).query.types .CNAME
            · rw [if_pos ((has_iff _ _).mpr hm), if_pos hm]; simp
            · rw [if_neg (fun x => hm ((has_iff _ _).mp x)), if_neg hm]
          have ef : (informative g ts (v :: rest)).filter (fun v => decide (Member (g.vtx v).query.types .CNAME)) =
              if Member (g.vtx v).query.types .CNAME then
                v :: (informative g ts rest).filter (fun v => decide (Member (g.vtx v).query.types .CNAME))
              else (informative g ts rest).filter (fun v => decide (Member (g.vtx v).query.types .CNAME)) := by
            rw [e, List.filter_cons]; simp
          cases resp with
          | none =>
            dsimp only
            obtain ⟨d, h1, h2⟩ := ih (some a) diff
              (if TypeSet.has (g.vtx v).query.types .CNAME = true then cn ++ [v] else cn)
            refine ⟨d, by rw [h1, ecn, ef], ?_⟩
            rw [h2, e]
            simp only [List.head?_cons, Option.some.injEq, exists_eq_left', List.mem_cons, exists_eq_or_imp, hrec]
            simp [sameRecords_refl]
          | some b =>
            dsimp only
            obtain ⟨d, h1, h2⟩ := ih (some b) (diff || Check.differ a.rrs b.rrs)
              (if TypeSet.has (g.vtx v).query.types .CNAME = true then cn ++ [v] else cn)
            refine ⟨d, by rw [h1, ecn, ef], ?_⟩
            rw [h2, e, Bool.or_eq_true, differ_iff]
            simp only [List.mem_cons, exists_eq_or_imp, hrec, or_assoc]
        · have e : informative g ts (v :: rest) = informative g ts rest := by
            unfold informative; rw [List.filter_cons_of_neg (by simpa using hi)]
          rw [if_pos (by by_contra hc; exact hi ((informative_iff ha hr).mpr hc)), e]
          exact ih resp diff cn
    · have hi : ¬ Informative g ts v := fun x => hr ⟨x.2.1, x.1⟩
      have e : informative g ts (v :: rest) = informative g ts rest := by
        unfold informative; rw [List.filter_cons_of_neg (by simpa using hi)]
      rw [if_neg (fun x => hr ((relevant_iff _ _ _).mp x)), e]
      exact ih resp diff cn

theorem cnameLoop_eq {g : IG} (l : List Nat) (h : ∀ v ∈ l, Answered g v ∧ Server g v) :
    ∀ (resp : Option Answer) (diff : Bool),
    ∃ d, Check.cnameLoop g l resp diff = .ok d ∧
      (d = true ↔ diff = true ∨
        match resp with
        | some b => ∃ v ∈ l, ¬ (Answers g v b.tag ∧ SameRecords (ansRecords g v) b.rrs)
        | none => ∃ v0, l.head? = some v0 ∧ ∃ v ∈ l, ∃ a, firstAns g v0 = some a ∧
            ¬ (Answers g v a.tag ∧ SameRecords (ansRecords g v) a.rrs)) := by
  induction l with
  | nil =>
    intro resp diff
    refine ⟨diff, by simp [Check.cnameLoop], ?_⟩
    cases resp <;> simp
  | cons v rest ih =>
    intro resp diff
    have ih := ih (fun x hx => h x (by simp [hx]))
    obtain ⟨a, ha, ha'⟩ := (h v (by simp)).1.ans (h v (by simp)).2
    have hrec : ansRecords g v = a.rrs := by simp [ansRecords, ha]
    have hans : ∀ t, Answers g v t ↔ a.tag = t := by intro t; simp [Answers, ha]
    cases resp with
    | none =>
      unfold Check.cnameLoop
      rw [ha']
      simp only [Res.ok_bind]
      obtain ⟨d, h1, h2⟩ := ih (some a) diff
      refine ⟨d, h1, ?_⟩
      rw [h2]
      simp only [List.head?_cons, Option.some.injEq, exists_eq_left', List.mem_cons, exists_eq_or_imp, ha, hrec, hans]
      simp [sameRecords_refl]
    | some b =>
      unfold Check.cnameLoop
      rw [ha']
      simp only [Res.ok_bind]
      obtain ⟨d, h1, h2⟩ := ih (some b) (diff || (a.tag != b.tag || Check.differ a.rrs b.rrs))
      refine ⟨d, h1, ?_⟩
      rw [h2, Bool.or_eq_true, Bool.or_eq_true, differ_iff, bne_iff_ne]
      simp only [List.mem_cons, exists_eq_or_imp, hrec, hans, or_assoc]
      rw [show (¬ (a.tag = b.tag ∧ SameRecords a.rrs b.rrs)) ↔ (a.tag ≠ b.tag ∨ ¬ SameRecords a.rrs b.rrs) by tauto]
      simp only [or_assoc]

/-! ### Zero TTL -/

theorem zeroAt_eq {g : IG} {first v : Nat} (rs : List RR) (h : ∀ r ∈ rs, r.type ≠ .N) :
    Check.zeroAt g first v rs = .ok ((rs.filter (fun r => decide (r.ttl = 0))).map (fun r =>
      .zeroTTL (g.vtx first).query.toStr (g.vtx v).ns r.str)) := by
  induction rs with
  | nil => rfl
  | cons r rs ih =>
    unfold Check.zeroAt
    rw [ih (fun x hx => h x (by simp [hx]))]
    by_cases ht : r.ttl = 0
    · rw [if_pos ht, List.filter_cons_of_pos (by simp [ht])]
      have : r.toStr = .ok r.str := by simp [RR.toStr, h r (by simp)]
      rw [this]
      rfl
    · rw [if_neg ht, List.filter_cons_of_neg (by simp [ht])]

theorem zeroLoop_eq {g : IG} {ts : TypeSet} {first : Nat} (ends : List Nat) (h : ∀ v ∈ ends, Answered g v)
    (hs : ∀ v ∈ ends, ∀ r ∈ ansRecords g v, r.type ≠ .N) :
    Check.zeroLoop g ts first ends = .ok ((informative g ts ends).flatMap (fun v =>
      ((ansRecords g v).filter (fun r => decide (r.ttl = 0))).map (fun r =>
        .zeroTTL (g.vtx first).query.toStr (g.vtx v).ns r.str))) := by
  induction ends with
  | nil => rfl
  | cons v rest ih =>
    have ih := ih (fun x hx => h x (by simp [hx])) (fun x hx => hs x (by simp [hx]))
    unfold Check.zeroLoop
    by_cases hr : AskedFor g v ts ∧ Server g v
    · rw [if_pos ((relevant_iff _ _ _).mpr hr)]
      obtain ⟨a0, h0, _⟩ := (h v (by simp)).ans hr.2
      rcases ha : (g.vtx v).answer with _ | _ | ⟨a, as⟩
      · simp [firstAns, ha] at h0
      · exact absurd ha (h v (by simp)).1
      · dsimp only
        have hrec : ansRecords g v = a.rrs := by simp [ansRecords, firstAns_of ha]
        rw [ih]
        by_cases hi : Informative g ts v
        · have e : informative g ts (v :: rest) = v :: informative g ts rest := by
            unfold informative; rw [List.filter_cons_of_pos (by simpa using hi)]
          rw [if_neg ((informative_iff ha hr).mp hi), zeroAt_eq _ (by rw [← hrec]; exact hs v (by simp)), e,
            List.flatMap_cons, hrec]
          rfl
        · have e : informative g ts (v :: rest) = informative g ts rest := by
            unfold informative; rw [List.filter_cons_of_neg (by simpa using hi)]
          rw [if_pos (by by_contra hc; exact hi ((informative_iff ha hr).mpr hc)), e]
          rfl
    · have hi : ¬ Informative g ts v := fun x => hr ⟨x.2.1, x.1⟩
      have e : informative g ts (v :: rest) = informative g ts rest := by
        unfold informative; rw [List.filter_cons_of_neg (by simpa using hi)]
      rw [if_neg (fun x => hr ((relevant_iff _ _ _).mp x)), e, ih]

/-! ### Aliases -/

theorem allAliases_eq {g : IG} {names : List Name} (p : List Nat) (h : ∀ v ∈ p, Answered g v) :
    ∃ vs, Check.allAliases g names p = .ok vs ∧
      ∀ w, w ∈ vs ↔ ∃ a v b u c, p = a ++ v :: b ++ u :: c ∧ Answers g v .REWRITE ∧
        (g.vtx u).query.name ∈ names ∧ (g.vtx u).query.excluded = none ∧
        w = .alias (g.vtx v).query.toStr (g.vtx u).query.toStr := by
  induction p with
  | nil => exact ⟨[], rfl, by simp⟩
  | cons v p ih =>
    obtain ⟨vs, h1, h2⟩ := ih (fun x hx => h x (by simp [hx]))
    unfold Check.allAliases
    rw [answerIs_eq (h v (by simp)).1, h1]
    simp only [Res.ok_bind]
    refine ⟨_, rfl, fun w => ?_⟩
    rw [List.mem_append, h2]
    constructor
    · rintro (hw | ⟨a, v', b, u, c, e, hrest⟩)
      · by_cases hr : Answers g v .REWRITE
        · simp only [hr, decide_true, if_true, List.mem_map, List.mem_filter, Bool.and_eq_true] at hw
          obtain ⟨u, ⟨hu, hu1, hu2⟩, rfl⟩ := hw
          obtain ⟨b, c, rfl⟩ := List.append_of_mem hu
          exact ⟨[], v, b, u, c, by simp, hr, by simpa using hu1, by simpa using hu2, rfl⟩
        · simp [hr] at hw
      · exact ⟨v :: a, v', b, u, c, by rw [e]; simp, hrest⟩
    · rintro ⟨a, v', b, u, c, e, hr, h3, h4, rfl⟩
      cases a with
      | nil =>
        left
        simp only [List.nil_append, List.cons_append, List.cons.injEq] at e
        obtain ⟨rfl, rfl⟩ := e
        simp only [hr, decide_true, if_true, List.mem_map, List.mem_filter, Bool.and_eq_true]
        exact ⟨u, ⟨by simp, by simpa using h3, by simp [h4]⟩, rfl⟩
      | cons x a =>
        right
        simp only [List.cons_append, List.cons.injEq] at e
        exact ⟨a, v', b, u, c, by rw [e.2], hr, h3, h4, rfl⟩

/-! ### Infinite DNAME recursion -/

/-- The inner loops of `InfiniteDName` on the list of uses. -/
def dnameUses (g : IG) : Check.DMap → List (Nat × RR) → Res (List Violation)
  | _, [] => .ok []
  | m, x :: us => do
    let s ← Check.dnameStep g x.1 m x.2
    match s with
    | .inl w => .ok [w]
    | .inr m => dnameUses g m us

theorem dnameNode_uses (g : IG) (v : Nat) (p : List Nat) (rs : List RR) : ∀ m,
    (do let x ← Check.dnameNode g v m rs
        match x with
        | .inl w => .ok [w]
        | .inr m => Check.infiniteDnameLoop g m p) =
    (do let x ← Check.dnameNode g v m rs
        match x with
        | .inl w => .ok [w]
        | .inr m => dnameUses g m (uses g p)) →
    (∀ m, Check.infiniteDnameLoop g m p = dnameUses g m (uses g p)) →
    (do let x ← Check.dnameNode g v m rs
        match x with
        | .inl w => .ok [w]
        | .inr m => Check.infiniteDnameLoop g m p) =
    dnameUses g m (rs.map (fun r => (v, r)) ++ uses g p) := by
  intro m h hp
  rw [h]
  clear h
  induction rs generalizing m with
  | nil => simp [Check.dnameNode]
  | cons r rs ih =>
    unfold Check.dnameNode
    rw [List.map_cons, List.cons_append]
    conv_rhs => unfold dnameUses
    cases hs : Check.dnameStep g v m r with
    | ok x => cases x with
      | inl w => simp
      | inr m' => simp only [Res.ok_bind]; exact ih m'
    | _ => simp

theorem infiniteDname_uses {g : IG} (p : List Nat) (h : ∀ v ∈ p, Answered g v) : ∀ m,
    Check.infiniteDnameLoop g m p = dnameUses g m (uses g p) := by
  induction p with
  | nil => intro m; rfl
  | cons v p ih =>
    intro m
    have ih := ih (fun x hx => h x (by simp [hx]))
    unfold Check.infiniteDnameLoop
    rw [answerIs_eq (h v (by simp)).1]
    simp only [Res.ok_bind]
    by_cases hr : Answers g v .REWRITE
    · rw [if_pos (by simpa using hr)]
      have e : uses g (v :: p) = (((g.vtx v).answer.getD []).flatMap (·.rrs)).map (fun r => (v, r)) ++ uses g p := by
        unfold uses; rw [List.filter_cons_of_pos (by simpa using hr), List.flatMap_cons]
      rw [e]
      apply dnameNode_uses
      · simp only [ih]
      · exact ih
    · rw [if_neg (by simpa using hr), ih]
      unfold uses
      rw [List.filter_cons_of_neg (by simpa using hr)]

theorem dmap_find_set (m : Check.DMap) (r r' : RR) (x : Nat × Str) :
    (m.set r x).find r' = if key r = key r' ∧ (m.find r').isSome then some x else m.find r' := by
  unfold Check.DMap.set Check.DMap.find
  induction m with
  | nil => simp
  | cons e m ih =>
    rw [List.map_cons]
    have h1 : (if r.eqv e.1 then (e.1, x) else e).1 = e.1 := by split <;> rfl
    by_cases hr' : r'.eqv e.1 = true
    · have hk' := (eqv_iff _ _).mp hr'
      rw [List.find?_cons_of_pos (by rw [h1]; exact hr'), List.find?_cons_of_pos (by exact hr')]
      by_cases hr : r.eqv e.1 = true
      · have hk := (eqv_iff _ _).mp hr
        rw [if_pos hr, if_pos ⟨hk.trans hk'.symm, by simp⟩]
        rfl
      · rw [if_neg hr, if_neg (fun c => hr ((eqv_iff _ _).mpr (c.1.trans hk')))]
    · rw [List.find?_cons_of_neg (by rw [h1]; exact hr'), List.find?_cons_of_neg (by exact hr')]
      exact ih

theorem dmap_find_append (m : Check.DMap) (r r' : RR) (x : Nat × Str) (h : m.find r = none) :
    (Check.DMap.find (m ++ [(r, x)]) r') = if key r = key r' then some x else m.find r' := by
  unfold Check.DMap.find at h ⊢
  rw [List.find?_append]
  have h : List.find? (fun e => r.eqv e.1) m = none := by simpa using h
  by_cases hk : key r = key r'
  · have h2 : List.find? (fun e => r'.eqv e.1) m = none := by
      rw [List.find?_eq_none] at h ⊢
      intro e he hc
      exact h e he ((eqv_iff _ _).mpr (hk.trans ((eqv_iff _ _).mp hc)))
    have h3 : r'.eqv r = true := (eqv_iff _ _).mpr hk.symm
    simp [h2, h3, hk]
  · have h3 : ¬ r'.eqv r = true := fun c => hk ((eqv_iff _ _).mp c).symm
    simp [h3, hk]

theorem regrowth_snoc {g : IG} {done : List (Nat × RR)} {x a b : Nat × RR} (h : Regrowth g (done ++ [x]) a b)
    (hn : ∀ a b, ¬ Regrowth g done a b) :
    b = x ∧ (done.reverse.find? (fun z => decide (key z.2 = key x.2))) = some a ∧
      (g.vtx a.1).query.name.length ≤ (g.vtx x.1).query.name.length := by
  obtain ⟨p, q, c, e, h1, h2, h3⟩ := h
  rcases List.eq_nil_or_concat c with rfl | ⟨c', y, rfl⟩
  · have e' : done ++ [x] = (p ++ a :: q) ++ [b] := by rw [e]
    obtain ⟨e1, e2⟩ := List.append_inj' e' rfl
    have hb : b = x := by simpa using e2.symm
    subst hb
    refine ⟨rfl, ?_, h3⟩
    rw [e1, List.find?_eq_some_iff_append]
    refine ⟨by simpa using h1, q.reverse, p.reverse, by simp, ?_⟩
    intro z hz
    simpa using h2 z (by simpa using hz)
  · exfalso
    have e' : done ++ [x] = (p ++ a :: q ++ b :: c') ++ [y] := by rw [e]; simp
    obtain ⟨e1, _⟩ := List.append_inj' e' rfl
    exact hn a b ⟨p, q, c', e1, h1, h2, h3⟩

theorem Regrowth.append {g : IG} {us vs : List (Nat × RR)} {a b : Nat × RR} (h : Regrowth g us a b) :
    Regrowth g (us ++ vs) a b := by
  obtain ⟨p, q, c, rfl, h1, h2, h3⟩ := h
  exact ⟨p, q, c ++ vs, by simp, h1, h2, h3⟩

theorem dmap_strings (m : Check.DMap) (h : ∀ e ∈ m, e.1.type ≠ .N) : ∀ acc : List Str,
    m.foldlM (fun acc e => do
        let x ← e.1.toStr
        Res.ok (acc ++ [x])) acc = .ok (acc ++ m.map (fun e => e.1.str)) := by
  induction m with
  | nil => intro acc; simp
  | cons e m ih =>
    intro acc
    rw [List.foldlM_cons]
    have : e.1.toStr = .ok e.1.str := by simp [RR.toStr, h e (by simp)]
    rw [this]
    simp only [Res.ok_bind]
    rw [ih (fun x hx => h x (by simp [hx])) _]
    simp

theorem eraseDups_snoc {α : Type} [BEq α] [LawfulBEq α] (l : List α) (x : α) :
    (l ++ [x]).eraseDups = if x ∈ l then l.eraseDups else l.eraseDups ++ [x] := by
  rw [List.eraseDups_append]
  by_cases h : x ∈ l
  · rw [if_pos h, List.removeAll, List.filter_cons_of_neg (by simpa using h)]; simp
  · rw [if_neg h, List.removeAll, List.filter_cons_of_pos (by simpa using h)]; simp [List.eraseDups_cons]

theorem dnameUses_spec {g : IG} (us : List (Nat × RR)) : ∀ (done : List (Nat × RR)) (m : Check.DMap),
    (∀ x ∈ us, x.2.type ≠ .N) → (∀ e ∈ m, e.1.type ≠ .N) →
    (∀ r, m.find r = (done.reverse.find? (fun z => decide (key z.2 = key r))).map
      (fun z => ((g.vtx z.1).query.name.length, (g.vtx z.1).query.toStr))) →
    m.map (fun e => key e.1) = usedRecords done →
    (∀ a b, ¬ Regrowth g done a b) →
    (dnameUses g m us = .ok [] ∧ ∀ a b, ¬ Regrowth g (done ++ us) a b) ∨
    ∃ pre x y post, done ++ us = pre ++ y :: post ∧ Regrowth g (pre ++ [y]) x y ∧ (∀ a b, ¬ Regrowth g pre a b) ∧
      dnameUses g m us = .ok [.infiniteDname (g.vtx x.1).query.toStr (g.vtx y.1).query.toStr ((usedRecords pre).map showKey)] := by
  induction us with
  | nil => intro done m _ _ _ _ hn; exact Or.inl ⟨rfl, by simpa using hn⟩
  | cons x us ih =>
    intro done m hus hm hinv hkeys hn
    have hfx := hinv x.2
    have eapp : done ++ x :: us = (done ++ [x]) ++ us := by simp
    unfold dnameUses Check.dnameStep
    dsimp only
    cases hf : done.reverse.find? (fun z => decide (key z.2 = key x.2)) with
    | none =>
      rw [hf] at hfx
      rw [hfx]
      simp only [Option.map_none, Res.ok_bind]
      rw [eapp]
      apply ih (done ++ [x])
      · exact fun y hy => hus y (by simp [hy])
      · intro e he
        rcases List.mem_append.mp he with he | he
        · exact hm e he
        · rw [List.mem_singleton.mp he]; exact hus x (by simp)
      · intro r
        rw [dmap_find_append _ _ _ _ hfx, List.reverse_append, List.reverse_singleton,
          List.singleton_append]
        by_cases hk : key x.2 = key r
        · rw [if_pos hk, List.find?_cons_of_pos (by simpa using hk)]; rfl
        · rw [if_neg hk, List.find?_cons_of_neg (by simpa using hk), hinv]
      · unfold usedRecords at hkeys ⊢
        rw [List.map_append, List.map_append, List.map_singleton, List.map_singleton, hkeys, eraseDups_snoc, if_neg]
        intro hc
        obtain ⟨z, hz, hzk⟩ := List.mem_map.mp hc
        have := List.find?_eq_none.mp hf z (by simpa using hz)
        simp [hzk] at this
      · intro a b hreg
        have := (regrowth_snoc hreg hn).2.1
        rw [hf] at this
        simp at this
    | some z =>
      rw [hf] at hfx
      rw [hfx]
      simp only [Option.map_some]
      obtain ⟨hz, as, bs, he, hab⟩ := List.find?_eq_some_iff_append.mp hf
      have hdone : done = bs.reverse ++ z :: as.reverse := by
        have := congrArg List.reverse he; simpa using this
      by_cases hge : (g.vtx x.1).query.name.length ≥ (g.vtx z.1).query.name.length
      · rw [if_pos hge, dmap_strings m hm []]
        right
        refine ⟨done, z, x, us, rfl, ?_, hn, ?_⟩
        · refine ⟨bs.reverse, as.reverse, [], by rw [hdone], by simpa using hz, ?_, hge⟩
          intro y hy
          simpa using hab y (by simpa using hy)
        · rw [← hkeys, str_fun]
          simp only [Res.ok_bind, List.nil_append, List.map_map]
          rfl
      · rw [if_neg hge]
        simp only [Res.ok_bind]
        rw [eapp]
        apply ih (done ++ [x])
        · exact fun y hy => hus y (by simp [hy])
        · intro e he
          unfold Check.DMap.set at he
          obtain ⟨e', he', rfl⟩ := List.mem_map.mp he
          have := hm e' he'
          split <;> exact this
        · intro r
          rw [dmap_find_set, List.reverse_append, List.reverse_singleton, List.singleton_append]
          by_cases hk : key x.2 = key r
          · have : m.find r = m.find x.2 := by rw [hinv, hinv, hk]
            rw [this, hfx, if_pos ⟨hk, by simp⟩, List.find?_cons_of_pos (by simpa using hk)]; rfl
          · rw [if_neg (fun c => hk c.1), List.find?_cons_of_neg (by simpa using hk), hinv]
        · have h1 : (Check.DMap.set m x.2 ((g.vtx x.1).query.name.length, (g.vtx x.1).query.toStr)).map (fun e => key e.1) =
              m.map (fun e => key e.1) := by
            unfold Check.DMap.set
            rw [List.map_map]
            apply List.map_congr_left
            intro e _
            simp only [Function.comp_apply]
            split <;> rfl
          rw [h1, hkeys]
          unfold usedRecords
          rw [List.map_append, List.map_singleton, eraseDups_snoc, if_pos]
          exact List.mem_map.mpr ⟨z, by rw [hdone]; simp, by simpa using hz⟩
        · intro a b hreg
          obtain ⟨_, h1, h2⟩ := regrowth_snoc hreg hn
          rw [hf] at h1
          cases h1
          exact hge h2

end Groot
