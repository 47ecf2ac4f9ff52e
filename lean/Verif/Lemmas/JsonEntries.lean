import Verif.Lemmas.JsonText
import Mathlib.Data.List.Forall2
import Mathlib.Data.List.Perm.Basic

/-!
# What the JSON object of a violation says
-/

namespace Groot

open Spec

namespace Json

theorem mapSet_spec (k : Str) (v : Json) (m : List (Str × Json)) (h : m.Pairwise (fun a b => StrLt a.1 b.1)) (hk : k ∉ m.map Prod.fst) :
    (mapSet k v m).Perm ((k, v) :: m) ∧ (mapSet k v m).Pairwise (fun a b => StrLt a.1 b.1) := by
  induction m with
  | nil => exact ⟨List.Perm.refl _, by simp [mapSet]⟩
  | cons a m ih =>
    obtain ⟨a, x⟩ := a
    rw [List.pairwise_cons] at h
    simp only [List.map_cons, List.mem_cons, not_or] at hk
    obtain ⟨i1, i2⟩ := ih h.2 hk.2
    unfold mapSet
    split_ifs with h1 h2
    · refine ⟨List.Perm.refl _, List.pairwise_cons.mpr ⟨?_, List.pairwise_cons.mpr h⟩⟩
      intro b hb
      rcases List.mem_cons.mp hb with rfl | hb
      · exact (strLt_iff _ _).mp h1
      · exact StrLt_trans ((strLt_iff _ _).mp h1) (h.1 b hb)
    · refine ⟨(List.Perm.cons _ i1).trans (List.Perm.swap _ _ _), List.pairwise_cons.mpr ⟨?_, i2⟩⟩
      intro b hb
      rcases List.mem_cons.mp (i1.mem_iff.mp hb) with rfl | hb
      · exact (strLt_iff _ _).mp h2
      · exact h.1 b hb
    · rcases StrLt_total k a with h3 | h3 | h3
      · exact absurd ((strLt_iff _ _).mpr h3) h1
      · exact absurd h3 hk.1
      · exact absurd ((strLt_iff _ _).mpr h3) h2

theorem assigned_spec (l : List (Str × Json)) (hne : l ≠ []) (hnd : (l.map Prod.fst).Nodup) :
    ∃ m, assigned l = .obj m ∧ m.Perm l ∧ m.Pairwise (fun a b => StrLt a.1 b.1) := by
  have key : ∀ (l : List (Str × Json)) (m : List (Str × Json)), m.Pairwise (fun a b => StrLt a.1 b.1) → ((m ++ l).map Prod.fst).Nodup →
      ∃ m' : List (Str × Json), l.foldl (fun (j : Json) p => j.set p.1 p.2) (Json.obj m) = Json.obj m' ∧ m'.Perm (m ++ l) ∧ m'.Pairwise (fun a b => StrLt a.1 b.1) := by
    intro l
    induction l with
    | nil => intro m hm _; exact ⟨m, rfl, by rw [List.append_nil], hm⟩
    | cons p l ih =>
      intro m hm hn
      have hp : p.1 ∉ m.map Prod.fst := by
        rw [List.map_append, List.map_cons, List.nodup_append] at hn
        intro h
        exact hn.2.2 _ h _ (by simp) rfl
      obtain ⟨h1, h2⟩ := mapSet_spec p.1 p.2 m hm hp
      have hperm : (mapSet p.1 p.2 m ++ l).Perm (m ++ p :: l) :=
        (h1.append_right l).trans (List.perm_middle.symm)
      obtain ⟨m', e1, e2, e3⟩ := ih _ h2 ((hperm.map Prod.fst).nodup_iff.mpr hn)
      exact ⟨m', e1, e2.trans hperm, e3⟩
  cases l with
  | nil => exact absurd rfl hne
  | cons p l =>
    obtain ⟨m, e1, e2, e3⟩ := key l [(p.1, p.2)] (by simp) hnd
    exact ⟨m, e1, e2, e3⟩

theorem leavesObj_eq (m : List (Str × Json)) : leavesObj m = m.flatMap (fun p => (leaves p.2).map (fun q => (.key p.1 :: q.1, q.2))) := by
  induction m with
  | nil => rfl
  | cons p m ih => rw [leavesObj, List.flatMap_cons, ih]

theorem leavesArr_eq (l : List Json) (i : Nat) : leavesArr i l = (l.zipIdx i).flatMap (fun p => (leaves p.1).map (fun q => (.idx p.2 :: q.1, q.2))) := by
  induction l generalizing i with
  | nil => rfl
  | cons p m ih => rw [leavesArr, List.zipIdx_cons, List.flatMap_cons, ih]

theorem leaves_obj {m : List (Str × Json)} (h : m ≠ []) : leaves (.obj m) = leavesObj m := by
  cases m with
  | nil => exact absurd rfl h
  | cons p m => rw [leaves]

theorem leaves_arr {m : List Json} (h : m ≠ []) : leaves (.arr m) = leavesArr 0 m := by
  cases m with
  | nil => exact absurd rfl h
  | cons p m => rw [leaves]

theorem leaves_assigned (l : List (Str × Json)) (hne : l ≠ []) (hnd : (l.map Prod.fst).Nodup) :
    (leaves (assigned l)).Perm (l.flatMap (fun p => (leaves p.2).map (fun q => (.key p.1 :: q.1, q.2)))) := by
  obtain ⟨m, e1, e2, -⟩ := assigned_spec l hne hnd
  rw [e1, leaves_obj (by rintro rfl; exact hne e2.nil_eq.symm), leavesObj_eq]
  exact e2.flatMap_right _

theorem pushed_ne {l : List Json} (h : l ≠ []) : pushed l = .arr l := by
  cases l with
  | nil => exact absurd rfl h
  | cons p m => rfl

theorem leaves_strs {l : List Str} (h : l ≠ []) (k : Str) :
    (leaves (.arr (Violation.strs l))).map (fun q => (JStep.key k :: q.1, q.2)) = listed k l := by
  unfold Violation.strs
  rw [leaves_arr (by simpa using h), leavesArr_eq]
  unfold listed
  rw [List.zipIdx_map, List.map_flatMap, List.flatMap_map]
  rw [List.flatMap_singleton' (l := l.zipIdx.map _) |>.symm, List.flatMap_map]
  rfl

/-- Arrays of values, each of which is known, under a key. -/
theorem leaves_pushed {α : Type} (k : String) (l : List α) (f : α → Json) (g : α → List (List JStep × Json))
    (h : ∀ a ∈ l, (leaves (f a)).Perm (g a)) :
    ((leaves (pushed (l.map f))).map (fun q => (JStep.key k.toList :: q.1, q.2))).Perm
      (orNull k l (l.zipIdx.flatMap (fun p => inElement k p.2 (g p.1)))) := by
  cases l with
  | nil => exact List.Perm.refl _
  | cons a l =>
    rw [pushed_ne (by simp), leaves_arr (by simp), leavesArr_eq, List.zipIdx_map, List.map_flatMap, List.flatMap_map]
    unfold orNull
    dsimp only
    refine List.Perm.flatMap_left _ ?_
    intro p hp
    have hp' : p.1 ∈ a :: l := by
      have := List.mem_map_of_mem (f := Prod.fst) hp
      rwa [List.zipIdx_map_fst] at this
    unfold inElement
    rw [List.map_map]
    exact ((h p.1 hp').map _)

theorem natText_eq (n : Nat) : natText n = Nat.toDigits 10 n := by
  have key : ∀ f n, n < f → digits f n = Nat.toDigits 10 n := by
    intro f
    induction f with
    | zero => intro n h; omega
    | succ f ih =>
      intro n h
      have hd : ∀ n, n < 10 → Char.ofNat (48 + n) = n.digitChar := by decide
      unfold digits
      split_ifs with hn
      · rw [Nat.toDigits_of_lt_base hn, hd n hn]
      · rw [ih (n / 10) (by omega), hd _ (by omega), ← Nat.toDigits_of_lt_base (b := 10) (n := n % 10) (by omega),
          Nat.toDigits_append_toDigits (by omega) (by omega) (by omega)]
        congr 1
        omega
  exact key _ _ (by omega)

theorem natText_inj {a b : Nat} (h : natText a = natText b) : a = b := by
  have h1 := (digits_spec (a + 1) a (by omega)).2.1
  have h2 := (digits_spec (b + 1) b (by omega)).2.1
  unfold natText at h
  rw [h] at h1
  omega

end Json

open Json Violation

theorem numbered_eq (l : List Str) (i : Nat) : numbered i l = (l.zipIdx i).map (fun r => ("RR".toList ++ natText r.2, Json.str r.1)) := by
  induction l generalizing i with
  | nil => rfl
  | cons r l ih => rw [numbered, List.zipIdx_cons, List.map_cons, ih]

theorem numbered_nodup (l : List Str) (i : Nat) : ((numbered i l).map Prod.fst).Nodup := by
  rw [numbered_eq, List.map_map]
  have h : ((l.zipIdx i).map Prod.snd).Nodup := by
    rw [List.zipIdx_map_snd]
    exact List.nodup_range'
  have : (l.zipIdx i).map (Prod.fst ∘ fun r : Str × Nat => ("RR".toList ++ natText r.2, Json.str r.1)) =
      ((l.zipIdx i).map Prod.snd).map (fun n => "RR".toList ++ natText n) := by
    rw [List.map_map]; rfl
  rw [this]
  unfold List.Nodup at h ⊢
  rw [List.pairwise_map]
  exact h.imp (fun hab e => hab (natText_inj (List.append_cancel_left e)))

theorem tag_number (t : Tag) : t.number = tagNumber t := by cases t <;> rfl

theorem loopNode_leaves (n : LoopNode) : (leaves (loopNode n)).Perm
    ((n.tag.map (fun t => ([JStep.key "AnswerTag".toList], Json.int (tagNumber t)))).toList ++ [field "NS" n.ns, field "Query" n.query]) := by
  obtain ⟨ns, q, tag⟩ := n
  cases tag with
  | none => exact List.Perm.refl _
  | some t =>
    show List.Perm _ ([([JStep.key "AnswerTag".toList], Json.int (tagNumber t))] ++ _)
    rw [← tag_number]
    exact List.Perm.refl _

/-- The members of the object of a pair, in the order of the code. -/
def pairFields (p : PairDiff) : List (Str × Json) :=
  [(p.roleA ++ " NS".toList, .str p.serverA), (p.roleB ++ " NS".toList, .str p.serverB)] ++
    (records "Common NS Records".toList p.nsDiff.1 ++
    records ("Exclusive ".toList ++ p.roleA ++ " NS Records".toList) p.nsDiff.2.1 ++
    records ("Exclusive ".toList ++ p.roleB ++ " NS Records".toList) p.nsDiff.2.2 ++
    (records "Common Glue Records".toList ((p.glueDiff.map (·.1)).getD []) ++
        records ("Exclusive ".toList ++ p.roleA ++ " Glue Records".toList) ((p.glueDiff.map (·.2.1)).getD []) ++
        records ("Exclusive ".toList ++ p.roleB ++ " Glue Records".toList) ((p.glueDiff.map (·.2.2)).getD [])))

theorem pairDiff_eq (p : PairDiff) : pairDiff p = assigned (pairFields p) := by
  unfold pairDiff pairFields
  simp only [List.append_assoc]
  congr 1
  cases p.glueDiff with
  | none => rfl
  | some g => rfl

theorem records_keys (k : Str) (l : List Str) : ((records k l).map Prod.fst).Sublist [k] := by
  unfold records
  split_ifs
  · exact List.nil_sublist _
  · exact List.Sublist.refl _

theorem pairFields_nodup {p : PairDiff} (h : (p.roleA, p.roleB) ∈ roles) : ((pairFields p).map Prod.fst).Nodup := by
  have hs : ((pairFields p).map Prod.fst).Sublist [p.roleA ++ " NS".toList, p.roleB ++ " NS".toList, "Common NS Records".toList,
      "Exclusive ".toList ++ p.roleA ++ " NS Records".toList, "Exclusive ".toList ++ p.roleB ++ " NS Records".toList, "Common Glue Records".toList,
      "Exclusive ".toList ++ p.roleA ++ " Glue Records".toList, "Exclusive ".toList ++ p.roleB ++ " Glue Records".toList] := by
    unfold pairFields
    simp only [List.map_append]
    exact List.Sublist.append (.refl _) (.append (.append (.append (records_keys _ _) (records_keys _ _)) (records_keys _ _))
      (.append (.append (records_keys _ _) (records_keys _ _)) (records_keys _ _)))
  refine hs.nodup ?_
  unfold roles at h
  simp only [List.mem_cons, List.not_mem_nil, or_false, Prod.mk.injEq] at h
  rcases h with ⟨h1, h2⟩ | ⟨h1, h2⟩ | ⟨h1, h2⟩ <;> (rw [h1, h2]; decide +kernel)

theorem records_leaves (k : Str) (l : List Str) :
    (records k l).flatMap (fun p => (leaves p.2).map (fun q => (JStep.key p.1 :: q.1, q.2))) = listed k l := by
  unfold records
  split_ifs with h
  · subst h; rfl
  · rw [List.flatMap_singleton, pushed_ne (by unfold strs; simpa using h)]
    exact leaves_strs h k

theorem pairDiff_leaves {p : PairDiff} (h : (p.roleA, p.roleB) ∈ roles) : (leaves (pairDiff p)).Perm (pairEntries p) := by
  rw [pairDiff_eq]
  refine (leaves_assigned _ (by unfold pairFields; simp) (pairFields_nodup h)).trans ?_
  unfold pairFields pairEntries
  simp only [List.flatMap_append, records_leaves, List.append_assoc]
  exact List.Perm.refl _

theorem group_leaves (g : Str × List Str) : (leaves (assigned [("Canonical Name".toList, .str g.1), ("Aliases".toList, .arr (strs g.2))])).Perm
    ((if g.2 = [] then [([JStep.key "Aliases".toList], .arr [])] else listed "Aliases".toList g.2) ++ [field "Canonical Name" g.1]) := by
  have e : leaves (assigned [("Canonical Name".toList, .str g.1), ("Aliases".toList, .arr (strs g.2))]) =
      (leaves (.arr (strs g.2))).map (fun q => (JStep.key "Aliases".toList :: q.1, q.2)) ++ [field "Canonical Name" g.1] := rfl
  rw [e]
  split_ifs with h
  · rw [h]; exact List.Perm.refl _
  · rw [leaves_strs h]

/-- The JSON object of a violation says what it should, no more and no less. -/
theorem toJson_leaves (ord : List Str → List Str) (hord : ∀ l, (ord l).Perm l) (v : Violation) (hv : RolesOk v) :
    (leaves (v.toJson ord)).Perm (entries ord v) := by
  cases v with
  | loop nodes =>
    have e : leaves (Violation.toJson ord (.loop nodes)) = (leaves (pushed (nodes.map loopNode))).map (fun q => (JStep.key "Loop".toList :: q.1, q.2)) ++
        [field "Property" "Cyclic Zone Dependency".toList] := rfl
    rw [e]
    exact (leaves_pushed "Loop" nodes _ _ (fun a _ => loopNode_leaves a)).append_right _
  | responseValue e ms =>
    have e : leaves (Violation.toJson ord (.responseValue e ms)) = field "Expected" e ::
        ((leaves (pushed (ms.map (fun m => assigned [("Found".toList, .str m.1), ("Query".toList, .str m.2.1), ("Nameserver".toList, .str m.2.2)])))).map
          (fun q => (JStep.key "Mismatches".toList :: q.1, q.2)) ++ [field "Property" "Response Value".toList]) := rfl
    rw [e]
    exact ((leaves_pushed "Mismatches" ms _ _ (fun a _ => List.Perm.refl _)).append_right _).cons _
  | infiniteDname q1 q2 used =>
    unfold Violation.toJson entries
    dsimp only
    by_cases hu : used = []
    · subst hu
      rw [if_pos rfl, if_pos rfl]
      exact List.Perm.refl _
    · rw [if_neg hu, if_neg hu]
      have e : leaves (assigned ([("Property".toList, Json.str "Infinite DName Recursion".toList), ("Query1".toList, .str q1), ("Query2".toList, .str q2)] ++
          [("RRsUsed".toList, assigned (numbered 1 (ord used)))])) = [field "Property" "Infinite DName Recursion".toList, field "Query1" q1, field "Query2" q2] ++
          (leaves (assigned (numbered 1 (ord used)))).map (fun q => (JStep.key "RRsUsed".toList :: q.1, q.2)) := by
        show _ ++ (_ ++ (_ ++ (_ ++ []))) = _
        rw [List.append_nil]
        rfl
      rw [e]
      refine List.Perm.append_left _ ?_
      have hn : numbered 1 (ord used) ≠ [] := by
        rw [numbered_eq]
        intro h
        rw [List.map_eq_nil_iff, List.zipIdx_eq_nil_iff] at h
        have := hord used
        rw [h] at this
        exact hu this.nil_eq.symm
      refine ((leaves_assigned _ hn (numbered_nodup _ _)).map _).trans ?_
      rw [numbered_eq, List.flatMap_map, List.map_flatMap, ← List.flatMap_singleton' (l := List.map _ _), List.flatMap_map]
      refine List.Perm.of_eq ?_
      congr 1
      funext r
      show [_] = [_]
      rw [natText_eq]
      rfl
  | structural d pairs =>
    have e : leaves (Violation.toJson ord (.structural d pairs)) = field "Domain Name" d ::
        ((leaves (pushed (pairs.map pairDiff))).map (fun q => (JStep.key "Inconsistent Pairs".toList :: q.1, q.2)) ++
          [field "Property" "Structural Delegation Consistency".toList]) := rfl
    rw [e]
    exact ((leaves_pushed "Inconsistent Pairs" pairs _ _ (fun a ha => pairDiff_leaves (hv a ha))).append_right _).cons _
  | allAliases groups =>
    have e : leaves (Violation.toJson ord (.allAliases groups)) =
        (leaves (pushed (groups.map (fun g => assigned [("Canonical Name".toList, .str g.1), ("Aliases".toList, .arr (strs g.2))])))).map
          (fun q => (JStep.key "Canonical Name and their Aliases".toList :: q.1, q.2)) ++ [field "Property" "All Aliases".toList] := rfl
    rw [e]
    exact (leaves_pushed "Canonical Name and their Aliases" groups _ _ (fun a _ => group_leaves a)).append_right _
  | _ => exact List.Perm.refl _

end Groot
