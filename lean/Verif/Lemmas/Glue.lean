import Verif.Lemmas.Same
import Verif.Lemmas.Traverse
import Verif.Lemmas.Lookup
import Verif.Model.Interp

/-! # Glue: presence lint and pairing -/

namespace Groot
open Spec

theorem flatMap_owner (r : RR) : ∀ names : List Name, names.Nodup → r.name ∈ names →
    names.flatMap (fun n => recordsAt [r] n) = [r] := by
  intro names
  induction names with
  | nil => intro _ h; simp at h
  | cons n names ih =>
    intro hnd hm
    rw [List.nodup_cons] at hnd
    rw [List.flatMap_cons]
    by_cases h : r.name = n
    · subst h
      rw [recordsAt_single_self]
      have : names.flatMap (fun n => recordsAt [r] n) = [] := by
        rw [List.flatMap_eq_nil_iff]
        intro m hm'
        exact recordsAt_single_other r m (fun e => hnd.1 (e ▸ hm'))
      rw [this]; rfl
    · rw [recordsAt_single_other r n h, List.nil_append]
      refine ih hnd.2 ?_
      rcases List.mem_cons.mp hm with h' | h'
      · exact absurd h' h
      · exact h'

theorem flatMap_append_perm' {α β : Type} (l : List α) (f g : α → List β) :
    (l.flatMap (fun x => f x ++ g x)).Perm (l.flatMap f ++ l.flatMap g) := by
  induction l with
  | nil => simp
  | cons a l ih =>
    simp only [List.flatMap_cons]
    calc (f a ++ g a) ++ l.flatMap (fun x => f x ++ g x)
        _ |>.Perm ((f a ++ g a) ++ (l.flatMap f ++ l.flatMap g)) := List.Perm.append_left _ ih
        _ |>.Perm ((f a ++ l.flatMap f) ++ (g a ++ l.flatMap g)) := by
          simp only [List.append_assoc]
          refine List.Perm.append_left _ ?_
          rw [← List.append_assoc, ← List.append_assoc]
          exact List.Perm.append_right _ List.perm_append_comm

/-- Splitting a log by owner. -/
theorem flatMap_recordsAt (log : List RR) (names : List Name) (hnd : names.Nodup) (hm : ∀ r ∈ log, r.name ∈ names) :
    (names.flatMap (recordsAt log)).Perm log := by
  induction log with
  | nil => simp [recordsAt]
  | cons r log ih =>
    have e : names.flatMap (recordsAt (r :: log)) =
        names.flatMap (fun n => recordsAt [r] n ++ recordsAt log n) := by
      congr 1; funext n; rw [← recordsAt_append]; rfl
    rw [e]
    refine (flatMap_append_perm' names _ _).trans ?_
    rw [flatMap_owner r names hnd (hm r (by simp))]
    exact List.Perm.cons _ (ih (fun x hx => hm x (by simp [hx])))

theorem requireGlue_iff (z : Zone) (r : RR) :
    z.requireGlue [r] = true ↔ AtOrBelow z.origin (stringToLabels r.rdata) := by
  rw [atOrBelow_iff_prefix]
  unfold Zone.requireGlue
  simp only [List.any_cons, List.any_nil, Bool.or_false]
  generalize stringToLabels r.rdata = m
  generalize z.origin = o
  by_cases h : m.length < o.length
  · simp only [h, if_true, Bool.false_eq_true, false_iff]
    intro hp; have := hp.length_le; omega
  · simp only [h, if_false, List.all_eq_true, List.mem_range, beq_iff_eq]
    constructor
    · intro hi
      rw [List.prefix_iff_getElem?]
      intro i hi'
      rw [← hi i hi', List.getElem?_eq_getElem hi']
    · rintro ⟨t, rfl⟩ i hi
      rw [List.getElem?_append_left hi]

theorem glueIssuesAt_eq {z : Zone} {names : List Name} {log : List RR} (h : z.Rep names log) (thr : Nat) (ns : Str)
    (P : RR → Bool) (hP : ∀ r, P r = true ↔ MissingGlue log r) (rrs : List RR) :
    z.glueIssuesAt thr ns rrs =
      .ok ((rrs.filter P).map (fun r => ⟨ns, labelsToString z.origin, r.str⟩)) := by
  unfold Zone.glueIssuesAt
  have : ∀ acc, rrs.foldlM (fun acc rr =>
      if rr.type = .NS ∧ z.requireGlue [rr] ∧ (z.addGlue thr [rr]).length = 1 then do
        let s ← rr.toStr
        .ok (acc ++ [(⟨ns, labelsToString z.origin, s⟩ : Zone.GlueIssue)])
      else .ok acc) acc =
      Res.ok (acc ++ (rrs.filter P).map (fun r => ⟨ns, labelsToString z.origin, r.str⟩)) := by
    induction rrs with
    | nil => intro acc; simp
    | cons r rrs ih =>
      intro acc
      rw [List.foldlM_cons]
      have hc : (r.type = .NS ∧ z.requireGlue [r] ∧ (z.addGlue thr [r]).length = 1) ↔ P r = true := by
        rw [hP, requireGlue_iff, h.addGlue, h.origin]
        unfold MissingGlue
        have : (withGlue log [r]).length = 1 ↔
            ¬ ∃ x ∈ log, x.name = stringToLabels r.rdata ∧ (x.type = .A ∨ x.type = .AAAA) := by
          simp [withGlue, glueFor]
        rw [this]
      by_cases hp : P r = true
      · have ht : r.type ≠ .N := by rw [(hc.mpr hp).1]; decide
        rw [if_pos (hc.mpr hp), RR.toStr, if_neg ht]
        simp only [Res.ok_bind]
        rw [ih, List.filter_cons_of_pos hp]
        simp
      · rw [if_neg (fun x => hp (hc.mp x))]
        simp only [Res.ok_bind]
        rw [ih, List.filter_cons_of_neg hp]
  simpa using this []

theorem glueIssuesFrom_eq {z : Zone} {names : List Name} {log : List RR} (h : z.Rep names log) (thr : Nat) (ns : Str)
    (P : RR → Bool) (hP : ∀ r, P r = true ↔ MissingGlue log r) (k : Nat) : ∀ v,
    z.glueIssuesFrom thr ns k v =
      .ok ((z.g.preorder k v).flatMap (fun u => ((z.rrsAt u).filter P).map (fun r => ⟨ns, labelsToString z.origin, r.str⟩))) := by
  induction k with
  | zero => intro v; rfl
  | succ k ih =>
    intro v
    unfold Zone.glueIssuesFrom Trie.preorder
    rw [glueIssuesAt_eq h thr ns P hP]
    simp only [Res.ok_bind, List.flatMap_cons]
    have hk : z.g.kids v = ((z.g.vtx v).edges).map (·.2) := by
      unfold Trie.kids
      rw [List.filter_eq_self.mpr]
      intro e he; simpa using h.norm v e he
    rw [hk]
    generalize (z.g.vtx v).edges = es
    generalize ((z.rrsAt v).filter P).map (fun r => (⟨ns, labelsToString z.origin, r.str⟩ : Zone.GlueIssue)) = acc
    induction es generalizing acc with
    | nil => simp
    | cons e es ihe =>
      rw [List.foldlM_cons, ih]
      simp only [Res.ok_bind]
      rw [ihe]
      simp [List.flatMap_append]

/-- The lint issues of a represented zone. -/
theorem glueIssues_perm {z : Zone} {names : List Name} {log : List RR} (h : z.Rep names log) (thr : Nat) (ns : Str)
    (P : RR → Bool) (hP : ∀ r, P r = true ↔ MissingGlue log r) :
    ∃ is, z.glueIssues thr ns = .ok is ∧
      is.Perm ((log.filter P).map (fun r => ⟨ns, labelsToString (soaOwner log), r.str⟩)) := by
  refine ⟨_, glueIssuesFrom_eq h thr ns P hP _ 0, ?_⟩
  rw [h.origin]
  have h1 := List.Perm.flatMap_right (fun u => ((z.rrsAt u).filter P).map
      (fun r => (⟨ns, labelsToString (soaOwner log), r.str⟩ : Zone.GlueIssue))) h.inv.preorder_perm
  refine h1.trans ?_
  have h2 : (List.range names.length).flatMap (fun u => ((z.rrsAt u).filter P).map
      (fun r => (⟨ns, labelsToString (soaOwner log), r.str⟩ : Zone.GlueIssue))) =
      ((names.flatMap (recordsAt log)).filter P).map (fun r => ⟨ns, labelsToString (soaOwner log), r.str⟩) := by
    have hn : names = (List.range names.length).map (fun u => names.getD u []) := by
      apply List.ext_getElem?
      intro i
      by_cases hi : i < names.length
      · simp [hi]
      · simp [hi]
    conv_rhs => rw [hn]
    rw [List.flatMap_map, List.filter_flatMap, List.map_flatMap]
    apply List.flatMap_congr
    intro u hu
    rw [List.mem_range] at hu
    have hv : names[u]? = some (names.getD u []) := by simp [hu]
    rw [h.data u _ hv]
  rw [h2]
  refine List.Perm.map _ (List.Perm.filter _ (flatMap_recordsAt log names h.inv.nodup ?_))
  intro r hr
  rw [h.mem]
  exact owner_exists ⟨r, hr, rfl⟩

/-! ### Pairing NS records with their glue -/

theorem matchNsGlue_glue (gl rest : List RR) (h : ∀ x ∈ gl, x.type = .A ∨ x.type = .AAAA) :
    matchNsGlue (gl ++ rest) = matchNsGlue rest := by
  induction gl with
  | nil => rfl
  | cons x gl ih =>
    have hx := h x (by simp)
    have : x.type ≠ .NS := by rcases hx with e | e <;> rw [e] <;> decide
    rw [List.cons_append, matchNsGlue, if_neg this, ih (fun y hy => h y (by simp [hy]))]

theorem matchNsGlue_withGlue (log ns : List RR) (h : ∀ r ∈ ns, r.type = .NS) :
    matchNsGlue (withGlue log ns) = ns.map (fun r => (r, glueFor log r)) := by
  induction ns with
  | nil => rfl
  | cons r ns ih =>
    have hg : ∀ x ∈ glueFor log r, x.type = .A ∨ x.type = .AAAA := by
      intro x hx
      simp only [glueFor, List.mem_filter, decide_eq_true_eq] at hx
      exact hx.2.2
    have ih := ih (fun x hx => h x (by simp [hx]))
    have hd : withGlue log (r :: ns) = r :: (glueFor log r ++ withGlue log ns) := by
      simp [withGlue]
    rw [hd, matchNsGlue, if_pos (h r (by simp)), matchNsGlue_glue _ _ hg, ih, List.map_cons]
    congr 2
    rw [List.takeWhile_append_of_pos]
    · have : (withGlue log ns).takeWhile (fun x => x.type == .A || x.type == .AAAA) = [] := by
        cases ns with
        | nil => rfl
        | cons s ns =>
          have hs := h s (by simp)
          simp [withGlue, hs]
      rw [this, List.append_nil]
    · intro x hx
      rcases hg x hx with e | e <;> simp [e]

end Groot
