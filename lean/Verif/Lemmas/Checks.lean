import Verif.Spec.Checks
import Verif.Lemmas.Compare
import Verif.Lemmas.Names

/-! # Characterisation of the loops of the property checks -/

namespace Groot
open Spec

theorem firstAns_of {g : IG} {v : Nat} {a : Answer} {as : List Answer} (h : (g.vtx v).answer = some (a :: as)) :
    firstAns g v = some a := by simp [firstAns, h]

theorem answerIs_eq {g : IG} {v : Nat} (h : (g.vtx v).answer ≠ some []) (t : Tag) :
    Check.answerIs g v t = .ok (decide (Answers g v t)) := by
  unfold Check.answerIs
  rcases ha : (g.vtx v).answer with _ | _ | ⟨a, as⟩
  · have : ¬ Answers g v t := by simp [Answers, firstAns, ha]
    simp [this]
  · exact absurd ha h
  · have e : Answers g v t ↔ a.tag = t := by simp [Answers, firstAns, ha]
    by_cases ht : a.tag = t
    · simp [e.mpr ht, ht]
    · have hn : ¬ Answers g v t := fun x => ht (e.mp x)
      simp [hn, ht]

theorem Spec.Answered.ans {g : IG} {v : Nat} (h : Answered g v) (hs : Server g v) :
    ∃ a, firstAns g v = some a ∧ g.answer0 v = .ok a := by
  unfold firstAns IG.answer0
  have h1 := h.1
  have h2 := h.2 hs
  cases ha : (g.vtx v).answer with
  | none => exact absurd ha h2
  | some as =>
    cases as with
    | nil => exact absurd ha h1
    | cons a as => exact ⟨a, rfl, rfl⟩

theorem asks_iff (g : IG) (v : Nat) (ts : TypeSet) : Check.asks g v ts = true ↔ AskedFor g v ts := by
  unfold Check.asks AskedFor
  rw [decide_eq_true_eq, count_pos]
  constructor
  · rintro ⟨t, ht⟩
    rw [← has_iff, has_and, Bool.and_eq_true, has_iff, has_iff] at ht
    exact ⟨t, (mem_supported t).mpr ht.1.1, ht⟩
  · rintro ⟨t, _, ht⟩
    refine ⟨t, ?_⟩
    rw [← has_iff, has_and, Bool.and_eq_true, has_iff, has_iff]
    exact ht

theorem printList_eq (ds : List Name) (h : ds ≠ []) : labelListToString ds = .ok (printList ds) := by
  unfold labelListToString printList
  have : ∀ acc : Str, ds.foldl (fun (acc : Str) d => acc ++ labelsToString d ++ [',', ' ']) acc =
      acc ++ [',', ' '].intercalate (ds.map present) ++ [',', ' '] := by
    induction ds with
    | nil => exact absurd rfl h
    | cons d ds ih =>
      intro acc
      rw [List.foldl_cons, labelsToString_eq]
      cases ds with
      | nil => simp
      | cons e ds =>
        rw [ih (by simp)]
        simp [List.intercalate_cons_cons]
  rw [this]
  dsimp only
  have e : ['['] ++ [',', ' '].intercalate (ds.map present) ++ [',', ' '] =
      (['['] ++ [',', ' '].intercalate (ds.map present) ++ [',']) ++ [' '] := by simp
  rw [e, if_neg (by simp), List.dropLast_concat, List.dropLast_concat]

/-! ### Hops -/

theorem hopServers_eq {g : IG} (p : List Nat) (h : ∀ v ∈ p, Answered g v) : ∀ acc : List Str,
    ∃ s, Check.hopServers g acc p = .ok s ∧
      s.length = acc.length + (match acc.getLast? with
        | none => runs (servers g p)
        | some x => runs (x :: servers g p) - 1) := by
  induction p with
  | nil =>
    intro acc
    refine ⟨acc, rfl, ?_⟩
    cases acc.getLast? <;> simp [servers, runs]
  | cons v p ih =>
    intro acc
    have ih := ih (fun x hx => h x (by simp [hx]))
    unfold Check.hopServers
    by_cases hs : (g.vtx v).ns = []
    · have e : servers g (v :: p) = servers g p := by simp [servers, hs]
      rw [if_neg (by simp [hs]), e]
      exact ih acc
    · have e : servers g (v :: p) = (g.vtx v).ns :: servers g p := by simp [servers, hs]
      obtain ⟨a, _, ha⟩ := (h v (by simp)).ans hs
      rw [e]
      cases hl : acc.getLast? with
      | none =>
        have hacc : acc = [] := by simpa using hl
        subst hacc
        rw [if_pos ⟨hs, Or.inl rfl⟩, ha]
        simp only [Res.ok_bind]
        obtain ⟨s, h1, h2⟩ := ih ([] ++ [(g.vtx v).ns])
        refine ⟨s, h1, ?_⟩
        rw [h2]
        simp [runs]
      | some x =>
        by_cases hx : (g.vtx v).ns = x
        · rw [if_neg (by
            rintro ⟨_, h1 | h1⟩
            · rw [List.length_eq_zero_iff] at h1; subst h1; simp at hl
            · exact h1 (by rw [hx]))]
          obtain ⟨s, h1, h2⟩ := ih acc
          refine ⟨s, h1, ?_⟩
          rw [h2, hl]
          simp [runs, hx]
        · rw [if_pos ⟨hs, Or.inr (by simpa using hx)⟩, ha]
          simp only [Res.ok_bind]
          obtain ⟨s, h1, h2⟩ := ih (acc ++ [(g.vtx v).ns])
          refine ⟨s, h1, ?_⟩
          rw [h2]
          simp [runs, Ne.symm hx]
          omega

theorem rewriteCount_eq {g : IG} (p : List Nat) (h : ∀ v ∈ p, Answered g v) :
    Check.rewriteCount g p =
      .ok (p.filter (fun v => decide (Server g v ∧ Answers g v .REWRITE))).length := by
  induction p with
  | nil => rfl
  | cons v p ih =>
    have ih := ih (fun x hx => h x (by simp [hx]))
    unfold Check.rewriteCount
    by_cases hs : (g.vtx v).ns = []
    · rw [if_neg (by simp [hs]), ih, List.filter_cons_of_neg (by simp [Server, hs])]
    · obtain ⟨a, ha, ha'⟩ := (h v (by simp)).ans hs
      rw [if_pos hs, ha']
      simp only [Res.ok_bind]
      rw [ih]
      simp only [Res.ok_bind]
      by_cases ht : a.tag = .REWRITE
      · rw [if_pos ht, List.filter_cons_of_pos (by simp [Server, hs, Answers, ha, ht])]
        simp
      · rw [if_neg ht, List.filter_cons_of_neg (by simp [Answers, ha, ht])]

theorem subDomainCheckAny_outside (ds : List Name) (n : Name) :
    (!subDomainCheckAny ds n) = true ↔ Outside ds n := by
  unfold Outside
  rw [Bool.not_eq_true', ← Bool.not_eq_true, subDomainCheckAny_iff]
  push Not
  rfl

theorem queryRewrite_eq {g : IG} {ds : List Name} (hd : ds ≠ []) (p : List Nat) (h : ∀ v ∈ p, Answered g v) :
    Check.queryRewrite g ds p = .ok (((consecutive p).filter (fun x =>
        decide (Answers g x.1 .REWRITE ∧ Outside ds (g.vtx x.2).query.name))).map (fun x =>
        .queryRewrite (g.vtx x.1).query.toStr (g.vtx x.2).query.toStr (g.vtx x.1).ns (printList ds))) := by
  induction p with
  | nil => rfl
  | cons v p ih =>
    have ih := ih (fun x hx => h x (by simp [hx]))
    unfold Check.queryRewrite
    rw [answerIs_eq (h v (by simp)).1]
    simp only [Res.ok_bind]
    by_cases hr : Answers g v .REWRITE
    · cases p with
      | nil => simp [hr, Check.queryRewrite, consecutive]
      | cons u p =>
        simp only [hr, decide_true]
        by_cases ho : Outside ds (g.vtx u).query.name
        · rw [if_pos ((subDomainCheckAny_outside _ _).mpr ho), printList_eq ds hd]
          simp only [Res.ok_bind]
          rw [ih]
          simp [consecutive, hr, ho]
        · rw [if_neg (fun x => ho ((subDomainCheckAny_outside _ _).mp x)), ih]
          simp [consecutive, ho]
    · rw [show decide (Answers g v .REWRITE) = false by simp [hr]]
      dsimp only
      rw [ih]
      cases p with
      | nil => simp [consecutive]
      | cons u p => simp [consecutive, hr]

theorem nsContact_eq {g : IG} {ds : List Name} (hd : ds ≠ []) (p : List Nat) :
    Check.nsContact g ds p = .ok ((p.filter (fun v =>
        decide (Server g v ∧ Outside ds (stringToLabels (g.vtx v).ns)))).map (fun v =>
        .nsContact (g.vtx v).query.toStr (g.vtx v).ns (printList ds))) := by
  induction p with
  | nil => rfl
  | cons v p ih =>
    unfold Check.nsContact
    have hiff : ((g.vtx v).ns ≠ [] ∧ !subDomainCheckAny ds (stringToLabels (g.vtx v).ns)) ↔
        (Server g v ∧ Outside ds (stringToLabels (g.vtx v).ns)) := by
      rw [subDomainCheckAny_outside]; rfl
    by_cases hc : Server g v ∧ Outside ds (stringToLabels (g.vtx v).ns)
    · rw [if_pos (hiff.mpr hc), printList_eq ds hd, ih, List.filter_cons_of_pos (by simpa using hc)]
      simp
    · rw [if_neg (fun x => hc (hiff.mp x)), ih, List.filter_cons_of_neg (by simpa using hc)]

/-- The first element satisfying a predicate splits the list. -/
theorem blackholeLoop_eq {g : IG} {last : Nat} (p : List Nat) (hl : p.getLast? = some last)
    (h : ∀ v ∈ p, Answered g v) (hs : Server g last) :
    Check.blackholeLoop g last p = .ok (match p.find? (fun v => decide (Answers g v .REWRITE)) with
      | none => []
      | some v => if p.dropLast.find? (fun v => decide (Answers g v .REWRITE)) = some v ∧ Answers g last .NX then
          [.blackhole (g.vtx v).query.toStr (g.vtx last).query.toStr (g.vtx last).ns] else []) := by
  induction p with
  | nil => simp at hl
  | cons v p ih =>
    unfold Check.blackholeLoop
    rw [answerIs_eq (h v (by simp)).1]
    simp only [Res.ok_bind]
    by_cases hr : Answers g v .REWRITE
    · rw [show decide (Answers g v .REWRITE) = true by simp [hr]]
      simp only [if_true]
      rw [List.find?_cons_of_pos (by simp [hr])]
      cases p with
      | nil => simp
      | cons u p =>
        have hlast : last ∈ v :: u :: p := List.mem_of_getLast? hl
        obtain ⟨a, ha, ha'⟩ := (h last hlast).ans hs
        rw [if_pos (by simp), ha']
        simp only [Res.ok_bind]
        have e : (Answers g last .NX) ↔ a.tag = .NX := by simp [Answers, ha]
        have e2 : List.find? (fun v => decide (Answers g v .REWRITE)) (v :: u :: p).dropLast = some v := by
          rw [List.dropLast_cons_of_ne_nil (by simp), List.find?_cons_of_pos (by simp [hr])]
        simp only [e2, e, true_and]
    · rw [show decide (Answers g v .REWRITE) = false by simp [hr]]
      simp only [Bool.false_eq_true, if_false]
      cases p with
      | nil => simp [Check.blackholeLoop, hr]
      | cons u p =>
        have e1 : List.find? (fun v => decide (Answers g v .REWRITE)) (v :: u :: p) =
            List.find? (fun v => decide (Answers g v .REWRITE)) (u :: p) :=
          List.find?_cons_of_neg (by simp [hr])
        have e2 : List.find? (fun v => decide (Answers g v .REWRITE)) (v :: u :: p).dropLast =
            List.find? (fun v => decide (Answers g v .REWRITE)) (u :: p).dropLast := by
          rw [List.dropLast_cons_of_ne_nil (by simp)]
          exact List.find?_cons_of_neg (by simp [hr])
        rw [ih (by simpa using hl) (fun x hx => h x (by simp [hx])), e1, e2]

theorem lameLoop_eq {g : IG} {q : EC} (p : List Nat) (h : ∀ v ∈ p, Answered g v) :
    Check.lameLoop g q p = .ok (((consecutive p).filter (fun x =>
        decide (Answers g x.1 .REF ∧ Answers g x.2 .REFUSED ∧ (g.vtx x.2).query.name = q.name))).map (fun x =>
        .lame q.toStr (g.vtx x.1).ns (g.vtx x.2).ns)) := by
  induction p with
  | nil => rfl
  | cons v p ih =>
    have ih := ih (fun x hx => h x (by simp [hx]))
    unfold Check.lameLoop
    rw [answerIs_eq (h v (by simp)).1]
    simp only [Res.ok_bind]
    by_cases hr : Answers g v .REF
    · cases p with
      | nil => simp [hr, Check.lameLoop, consecutive]
      | cons u p =>
        simp only [hr, decide_true]
        have hu := (h u (by simp)).1
        cases ha : (g.vtx u).answer with
        | none =>
          dsimp only
          rw [ih]
          simp [consecutive, Answers, firstAns, ha]
        | some as =>
          cases as with
          | nil => exact absurd ha hu
          | cons a as =>
            dsimp only
            rw [ih]
            simp only [Res.ok_bind]
            by_cases hc : a.tag = .REFUSED ∧ q.name = (g.vtx u).query.name
            · rw [if_pos hc]
              have hu' : Answers g u .REFUSED := by simp [Answers, firstAns, ha, hc.1]
              simp [consecutive, hr, hu', hc.2.symm]
            · rw [if_neg hc]
              have : ¬ (Answers g u .REFUSED ∧ (g.vtx u).query.name = q.name) := by
                rintro ⟨h1, h2⟩
                refine hc ⟨?_, h2.symm⟩
                simpa [Answers, firstAns, ha] using h1
              simp [consecutive, this]
    · rw [show decide (Answers g v .REF) = false by simp [hr]]
      dsimp only
      rw [ih]
      cases p with
      | nil => simp [consecutive]
      | cons u p => simp [consecutive, hr]

end Groot
