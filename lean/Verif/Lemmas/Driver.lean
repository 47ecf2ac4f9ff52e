import Verif.Spec.Driver
import Verif.Lemmas.Types
import Verif.Lemmas.Budget
import Verif.Lemmas.Lookup
import Verif.Props.Names

/-! # `SetJob` -/

namespace Groot

open Spec Driver

theorem names_iff (s : Str) (t : RRType) (ht : t ≠ .N) : Names s t ↔ stringToType s = t := by
  constructor
  · rintro ⟨m, hm, rfl⟩
    exact (mnemonic_round t m hm).2
  · intro h
    exact stringToType_mnemonic s t h ht

theorem names_ne {s : Str} {t : RRType} (h : Names s t) : t ≠ .N := by
  obtain ⟨m, hm, -⟩ := h
  rintro rfl; simp [mnemonic] at hm

theorem exists_names_iff (s : Str) : (∃ t, Names s t) ↔ stringToType s ≠ .N := by
  constructor
  · rintro ⟨t, h⟩
    rw [(names_iff s t (names_ne h)).mp h]; exact names_ne h
  · intro h
    exact ⟨_, (names_iff s _ h).mpr rfl⟩

theorem member_add (s : TypeSet) (t t' : RRType) : Member (s.add t') t ↔ Member s t ∨ (t ≠ .N ∧ t' = t) := by
  unfold Member
  show t ≠ .N ∧ (s.add t').has t = true ↔ (t ≠ .N ∧ s.has t = true) ∨ _
  rw [has_add, Bool.or_eq_true, decide_eq_true_eq]
  constructor
  · rintro ⟨h1, h2 | h2⟩
    · exact Or.inl ⟨h1, h2⟩
    · exact Or.inr ⟨h1, h2.1⟩
  · rintro (⟨h1, h2⟩ | ⟨h1, h2⟩)
    · exact ⟨h1, Or.inl h2⟩
    · exact ⟨h1, Or.inr ⟨h2, fun c => h1 (h2 ▸ c)⟩⟩

theorem member_ext (a b : TypeSet) (h : ∀ t, Member a t ↔ Member b t) : a = b := by
  apply typeSet_ext
  intro t
  have := h t
  unfold Member at this
  by_cases ht : t = .N
  · subst ht
    have key : ∀ s : TypeSet, s.has .N = false := by
      intro s
      apply BitVec.getLsbD_of_ge
      decide
    rw [key, key]
  · have h2 : (a.has t = true ↔ b.has t = true) := by
      constructor
      · intro h3; exact (this.mp ⟨ht, h3⟩).2
      · intro h3; exact (this.mpr ⟨ht, h3⟩).2
    cases ha : a.has t <;> cases hb : b.has t <;> simp_all

theorem not_member_zero (t : RRType) : ¬ Member 0 t := by
  unfold Member
  simp

/-- The loop over "Types". -/
theorem addTypes_ok (l : List Str) (tr pt : TypeSet) (h : ∀ s ∈ l, ∃ t, Names s t) :
    ∃ tr' pt', addTypes tr pt l = .ok (tr', pt') ∧ (∀ t, Member tr' t ↔ Member tr t ∨ ∃ s ∈ l, Names s t) ∧
      (∀ t, Member pt' t ↔ Member pt t ∨ ∃ s ∈ l, Names s t) := by
  induction l generalizing tr pt with
  | nil => exact ⟨tr, pt, rfl, by simp, by simp⟩
  | cons s l ih =>
    have hs := (exists_names_iff s).mp (h s (by simp))
    obtain ⟨tr', pt', h1, h2, h3⟩ := ih (tr.add (stringToType s)) (pt.add (stringToType s)) (fun x hx => h x (by simp [hx]))
    have key : ∀ t, (t ≠ .N ∧ stringToType s = t) ↔ Names s t := by
      intro t
      constructor
      · rintro ⟨a, b⟩; exact (names_iff s t a).mpr b
      · intro a; exact ⟨names_ne a, (names_iff s t (names_ne a)).mp a⟩
    refine ⟨tr', pt', ?_, ?_, ?_⟩
    · unfold addTypes
      rw [setChecked_ok hs, setChecked_ok hs]
      exact h1
    · intro t
      rw [h2, member_add, key]
      simp only [List.mem_cons, exists_eq_or_imp, or_assoc]
    · intro t
      rw [h3, member_add, key]
      simp only [List.mem_cons, exists_eq_or_imp, or_assoc]

theorem addTypes_throw (l : List Str) (tr pt : TypeSet) (h : ¬ ∀ s ∈ l, ∃ t, Names s t) : addTypes tr pt l = .throw := by
  induction l generalizing tr pt with
  | nil => exact absurd (by simp) h
  | cons s l ih =>
    unfold addTypes
    by_cases hs : stringToType s = .N
    · simp [hs, TypeSet.setChecked]
    · rw [setChecked_ok hs, setChecked_ok hs]
      refine ih _ _ ?_
      intro hl
      refine h ?_
      intro x hx
      rcases List.mem_cons.mp hx with rfl | hx
      · exact (exists_names_iff _).mpr hs
      · exact hl x hx

def Spec.Wanted.isStructural : Wanted → Bool
  | .structural => true
  | _ => false

/-- What is stored for a property. -/
def applied (job : Job) (w : Wanted) (types : TypeSet) : Job :=
  { job with
    types := types
    structural := job.structural || w.isStructural
    pathFns := job.pathFns ++ w.path?.toList
    nodeFns := job.nodeFns ++ w.node?.toList }

/-- The part of `setProp` after the types. -/
def setNamed (job : Job) (pt : TypeSet) (p : UProp) : Res Job :=
  if p.name = "ResponseConsistency".toList then
    .ok { job with nodeFns := job.nodeFns ++ [.consistency pt] }
  else if p.name = "ResponseReturned".toList then
    .ok { job with nodeFns := job.nodeFns ++ [.returned pt] }
  else if p.name = "ResponseValue".toList then do
    let l ← strsOf p.value
    let values := Check.strSet l
    if values.length ≠ 0 then .ok { job with nodeFns := job.nodeFns ++ [.value pt values] } else .ok job
  else if p.name = "Hops".toList then do
    let f ← numFn .hops p.value
    .ok { job with pathFns := job.pathFns ++ [f] }
  else if p.name = "Rewrites".toList then do
    let f ← numFn .rewrites p.value
    .ok { job with pathFns := job.pathFns ++ [f] }
  else if p.name = "DelegationConsistency".toList then
    .ok { job with pathFns := job.pathFns ++ [.delegation] }
  else if p.name = "InfiniteDNameRec".toList then
    .ok { job with pathFns := job.pathFns ++ [.infiniteDname] }
  else if p.name = "LameDelegation".toList then
    .ok { job with pathFns := job.pathFns ++ [.lame] }
  else if p.name = "QueryRewrite".toList then do
    let d ← domainsOf p.value
    if d.length > 0 then .ok { job with pathFns := job.pathFns ++ [.queryRewrite d] } else .ok job
  else if p.name = "NameserverContact".toList then do
    let d ← domainsOf p.value
    if d.length > 0 then .ok { job with pathFns := job.pathFns ++ [.nsContact d] } else .ok job
  else if p.name = "RewriteBlackholing".toList then
    .ok { job with pathFns := job.pathFns ++ [.blackholing] }
  else if p.name = "AllAliases".toList then do
    let d ← domainsOf p.value
    if d.length > 0 then .ok { job with pathFns := job.pathFns ++ [.allAliases d] } else .ok job
  else if p.name = "ZeroTTL".toList then
    .ok { job with nodeFns := job.nodeFns ++ [.zeroTTL pt] }
  else if p.name = "StructuralDelegationConsistency".toList then
    .ok { job with structural := true }
  else if p.name = "DNAMESubstitutionCheck".toList then
    .ok { job with pathFns := job.pathFns ++ [.dnameLength] }
  else .ok job

theorem setProp_eq (job : Job) (p : UProp) : setProp job p =
    ((match p.types with
      | some ts => addTypes job.types 0 ts
      | none => .ok (job.types.add .NS, 0)) >>= fun x => setNamed { job with types := x.1 } x.2 p) := by
  unfold setProp
  rcases p.types with _ | ts
  · rfl
  · rfl

theorem strSet_spec (l : List Str) : (Check.strSet l).Pairwise StrLt ∧ ∀ x, x ∈ Check.strSet l ↔ x ∈ l := by
  unfold Check.strSet
  have : ∀ (l acc : List Str), acc.Pairwise StrLt →
      (l.foldl (fun acc x => setInsert x acc) acc).Pairwise StrLt ∧ ∀ x, x ∈ l.foldl (fun acc x => setInsert x acc) acc ↔ x ∈ acc ∨ x ∈ l := by
    intro l
    induction l with
    | nil => intro acc h; simpa using h
    | cons y l ih =>
      intro acc h
      obtain ⟨h1, h2⟩ := ih (setInsert y acc) (setInsert_sorted _ _ h)
      refine ⟨h1, fun x => ?_⟩
      rw [List.foldl_cons, h2, mem_setInsert, List.mem_cons]
      tauto
  have := this l [] (by simp)
  simpa using this

theorem strSet_length (l : List Str) : (Check.strSet l).length ≠ 0 ↔ l ≠ [] := by
  have h := (strSet_spec l).2
  rw [Ne, List.length_eq_zero_iff]
  constructor
  · rintro h1 rfl; exact h1 rfl
  · intro h1 h2
    obtain ⟨x, l', rfl⟩ := List.exists_cons_of_ne_nil h1
    have := (h x).mpr (by simp)
    rw [h2] at this; simp at this

theorem setNamed_asks {job j : Job} {pt : TypeSet} {p : UProp} (ht : TypesListed p pt) (h : setNamed job pt p = .ok j) :
    ∃ w, Asks p w ∧ j = applied job w job.types := by
  unfold setNamed at h
  by_cases n0 : p.name = "ResponseConsistency".toList
  · rw [if_pos n0] at h
    have h1 := n0
    injection h with h; exact ⟨_, .consistency pt h1 ht, by simp [← h, applied, Wanted.path?, Wanted.node?, Wanted.isStructural]⟩
  rw [if_neg n0] at h
  by_cases n1 : p.name = "ResponseReturned".toList
  · rw [if_pos n1] at h
    have h1 := n1
    injection h with h; exact ⟨_, .returned pt h1 ht, by simp [← h, applied, Wanted.path?, Wanted.node?, Wanted.isStructural]⟩
  rw [if_neg n1] at h
  by_cases n2 : p.name = "ResponseValue".toList
  · rw [if_pos n2] at h
    have h1 := n2
    obtain ⟨l, hl, h⟩ := bind_ok_iff.mp h
    dsimp only at h
    have hv : p.value = .strs l := by
      revert hl; cases p.value <;> simp [strsOf]
    by_cases hne : l = []
    · subst hne
      rw [if_neg (by rw [strSet_length]; simp)] at h
      injection h with h
      exact ⟨_, .skipped (by rw [h1]; decide) hv, by simp [← h, applied, Wanted.path?, Wanted.node?, Wanted.isStructural]⟩
    · rw [if_pos ((strSet_length l).mpr hne)] at h
      injection h with h
      exact ⟨_, .value pt l _ h1 ht hv hne (strSet_spec l).1 (strSet_spec l).2, by simp [← h, applied, Wanted.path?, Wanted.node?, Wanted.isStructural]⟩
  rw [if_neg n2] at h
  by_cases n3 : p.name = "Hops".toList
  · rw [if_pos n3] at h
    have h1 := n3
    obtain ⟨f, hl, h⟩ := bind_ok_iff.mp h
    injection h with h
    have ha : Asks p (.path f) := by
      revert hl
      cases hv : p.value with
      | int n => intro hl; injection hl with hl; rw [← hl]; exact .hops n h1 hv
      | missing => intro hl; cases hl
      | huge => intro hl; injection hl with hl; rw [← hl]; exact .misfit true (.inl h1) (.inl ⟨rfl, hv⟩)
      | strs l => intro hl; injection hl with hl; rw [← hl]; exact .misfit false (.inl h1) (.inr ⟨rfl, .inr ⟨l, hv⟩⟩)
      | other => intro hl; injection hl with hl; rw [← hl]; exact .misfit false (.inl h1) (.inr ⟨rfl, .inl hv⟩)
    exact ⟨_, ha, by simp [← h, applied, Wanted.path?, Wanted.node?, Wanted.isStructural]⟩
  rw [if_neg n3] at h
  by_cases n4 : p.name = "Rewrites".toList
  · rw [if_pos n4] at h
    have h1 := n4
    obtain ⟨f, hl, h⟩ := bind_ok_iff.mp h
    injection h with h
    have ha : Asks p (.path f) := by
      revert hl
      cases hv : p.value with
      | int n => intro hl; injection hl with hl; rw [← hl]; exact .rewrites n h1 hv
      | missing => intro hl; cases hl
      | huge => intro hl; injection hl with hl; rw [← hl]; exact .misfit true (.inr h1) (.inl ⟨rfl, hv⟩)
      | strs l => intro hl; injection hl with hl; rw [← hl]; exact .misfit false (.inr h1) (.inr ⟨rfl, .inr ⟨l, hv⟩⟩)
      | other => intro hl; injection hl with hl; rw [← hl]; exact .misfit false (.inr h1) (.inr ⟨rfl, .inl hv⟩)
    exact ⟨_, ha, by simp [← h, applied, Wanted.path?, Wanted.node?, Wanted.isStructural]⟩
  rw [if_neg n4] at h
  by_cases n5 : p.name = "DelegationConsistency".toList
  · rw [if_pos n5] at h
    have h1 := n5
    injection h with h; exact ⟨_, .delegation h1, by simp [← h, applied, Wanted.path?, Wanted.node?, Wanted.isStructural]⟩
  rw [if_neg n5] at h
  by_cases n6 : p.name = "InfiniteDNameRec".toList
  · rw [if_pos n6] at h
    have h1 := n6
    injection h with h; exact ⟨_, .infiniteDname h1, by simp [← h, applied, Wanted.path?, Wanted.node?, Wanted.isStructural]⟩
  rw [if_neg n6] at h
  by_cases n7 : p.name = "LameDelegation".toList
  · rw [if_pos n7] at h
    have h1 := n7
    injection h with h; exact ⟨_, .lame h1, by simp [← h, applied, Wanted.path?, Wanted.node?, Wanted.isStructural]⟩
  rw [if_neg n7] at h
  by_cases n8 : p.name = "QueryRewrite".toList
  · rw [if_pos n8] at h
    have h1 := n8
    obtain ⟨d, hd, h⟩ := bind_ok_iff.mp h
    obtain ⟨l, hl, hd⟩ := bind_ok_iff.mp hd
    have hv : p.value = .strs l := by revert hl; cases p.value <;> simp [strsOf]
    injection hd with hd
    subst hd
    by_cases hne : l = []
    · subst hne
      rw [if_neg (by simp)] at h
      injection h with h
      exact ⟨_, .skipped (by rw [h1]; decide) hv, by simp [← h, applied, Wanted.path?, Wanted.node?, Wanted.isStructural]⟩
    · rw [if_pos (by simpa using List.length_pos_iff.mpr hne)] at h
      injection h with h
      exact ⟨_, .queryRewrite l h1 hv hne, by simp [← h, applied, Wanted.path?, Wanted.node?, Wanted.isStructural, domains]⟩
  rw [if_neg n8] at h
  by_cases n9 : p.name = "NameserverContact".toList
  · rw [if_pos n9] at h
    have h1 := n9
    obtain ⟨d, hd, h⟩ := bind_ok_iff.mp h
    obtain ⟨l, hl, hd⟩ := bind_ok_iff.mp hd
    have hv : p.value = .strs l := by revert hl; cases p.value <;> simp [strsOf]
    injection hd with hd
    subst hd
    by_cases hne : l = []
    · subst hne
      rw [if_neg (by simp)] at h
      injection h with h
      exact ⟨_, .skipped (by rw [h1]; decide) hv, by simp [← h, applied, Wanted.path?, Wanted.node?, Wanted.isStructural]⟩
    · rw [if_pos (by simpa using List.length_pos_iff.mpr hne)] at h
      injection h with h
      exact ⟨_, .nsContact l h1 hv hne, by simp [← h, applied, Wanted.path?, Wanted.node?, Wanted.isStructural, domains]⟩
  rw [if_neg n9] at h
  by_cases n10 : p.name = "RewriteBlackholing".toList
  · rw [if_pos n10] at h
    have h1 := n10
    injection h with h; exact ⟨_, .blackholing h1, by simp [← h, applied, Wanted.path?, Wanted.node?, Wanted.isStructural]⟩
  rw [if_neg n10] at h
  by_cases n11 : p.name = "AllAliases".toList
  · rw [if_pos n11] at h
    have h1 := n11
    obtain ⟨d, hd, h⟩ := bind_ok_iff.mp h
    obtain ⟨l, hl, hd⟩ := bind_ok_iff.mp hd
    have hv : p.value = .strs l := by revert hl; cases p.value <;> simp [strsOf]
    injection hd with hd
    subst hd
    by_cases hne : l = []
    · subst hne
      rw [if_neg (by simp)] at h
      injection h with h
      exact ⟨_, .skipped (by rw [h1]; decide) hv, by simp [← h, applied, Wanted.path?, Wanted.node?, Wanted.isStructural]⟩
    · rw [if_pos (by simpa using List.length_pos_iff.mpr hne)] at h
      injection h with h
      exact ⟨_, .allAliases l h1 hv hne, by simp [← h, applied, Wanted.path?, Wanted.node?, Wanted.isStructural, domains]⟩
  rw [if_neg n11] at h
  by_cases n12 : p.name = "ZeroTTL".toList
  · rw [if_pos n12] at h
    have h1 := n12
    injection h with h; exact ⟨_, .zeroTTL pt h1 ht, by simp [← h, applied, Wanted.path?, Wanted.node?, Wanted.isStructural]⟩
  rw [if_neg n12] at h
  by_cases n13 : p.name = "StructuralDelegationConsistency".toList
  · rw [if_pos n13] at h
    have h1 := n13
    injection h with h; exact ⟨_, .structural h1, by simp [← h, applied, Wanted.path?, Wanted.node?, Wanted.isStructural]⟩
  rw [if_neg n13] at h
  by_cases n14 : p.name = "DNAMESubstitutionCheck".toList
  · rw [if_pos n14] at h
    have h1 := n14
    injection h with h; exact ⟨_, .dnameLength h1, by simp [← h, applied, Wanted.path?, Wanted.node?, Wanted.isStructural]⟩
  rw [if_neg n14] at h
  injection h with h
  refine ⟨_, .unknown ?_, by simp [← h, applied, Wanted.path?, Wanted.node?, Wanted.isStructural]⟩
  intro hm
  simp only [propertyNames, List.map_cons, List.map_nil, List.mem_cons, List.not_mem_nil, or_false] at hm
  rcases hm with e | e | e | e | e | e | e | e | e | e | e | e | e | e | e
  · exact n0 e
  · exact n1 e
  · exact n2 e
  · exact n3 e
  · exact n4 e
  · exact n5 e
  · exact n6 e
  · exact n7 e
  · exact n8 e
  · exact n9 e
  · exact n10 e
  · exact n11 e
  · exact n12 e
  · exact n13 e
  · exact n14 e

theorem setNamed_of_asks {job : Job} {pt : TypeSet} {p : UProp} (ht : TypesListed p pt) {w : Wanted} (h : Asks p w) :
    setNamed job pt p = .ok (applied job w job.types) := by
  have same : ∀ ts, TypesListed p ts → ts = pt := fun ts h => member_ext _ _ (fun t => (h t).trans (ht t).symm)
  have key : ∀ s : String, p.name = s.toList → ∀ (s' : String) (a b : Res Job), s.toList ≠ s'.toList →
      (if p.name = s'.toList then a else b) = b := by
    intro s h s' a b hne
    rw [if_neg (by rw [h]; exact hne)]
  unfold setNamed
  cases h with
  | consistency ts h ht2 =>
    rw [if_pos h]
    rw [same ts ht2]
    simp [applied, Wanted.path?, Wanted.node?, Wanted.isStructural]
  | returned ts h ht2 =>
    rw [key "ResponseReturned" h _ _ _ (by decide)]
    rw [if_pos h]
    rw [same ts ht2]
    simp [applied, Wanted.path?, Wanted.node?, Wanted.isStructural]
  | value ts l vs h ht2 hv hl hs hm =>
    rw [key "ResponseValue" h _ _ _ (by decide)]
    rw [key "ResponseValue" h _ _ _ (by decide)]
    rw [if_pos h]
    rw [same ts ht2, hv]
    have e : Check.strSet l = vs := sorted_ext _ _ (strSet_spec l).1 hs (fun x => by rw [(strSet_spec l).2, hm])
    show (if (Check.strSet l).length ≠ 0 then _ else _) = _
    rw [if_pos ((strSet_length l).mpr hl), e]
    simp [applied, Wanted.path?, Wanted.node?, Wanted.isStructural]
  | hops n h hv =>
    rw [key "Hops" h _ _ _ (by decide)]
    rw [key "Hops" h _ _ _ (by decide)]
    rw [key "Hops" h _ _ _ (by decide)]
    rw [if_pos h]
    rw [hv]
    show Res.ok _ = _
    simp [applied, Wanted.path?, Wanted.node?, Wanted.isStructural]
  | rewrites n h hv =>
    rw [key "Rewrites" h _ _ _ (by decide)]
    rw [key "Rewrites" h _ _ _ (by decide)]
    rw [key "Rewrites" h _ _ _ (by decide)]
    rw [key "Rewrites" h _ _ _ (by decide)]
    rw [if_pos h]
    rw [hv]
    show Res.ok _ = _
    simp [applied, Wanted.path?, Wanted.node?, Wanted.isStructural]
  | misfit b h hv =>
    have e : ∀ f : Int → PathFn, numFn f p.value = .ok (.misfit b) := by
      intro f
      rcases hv with ⟨rfl, hv⟩ | ⟨rfl, hv | ⟨l, hv⟩⟩ <;> rw [hv] <;> rfl
    rcases h with h | h
    · rw [key "Hops" h _ _ _ (by decide), key "Hops" h _ _ _ (by decide), key "Hops" h _ _ _ (by decide), if_pos h, e]
      show Res.ok _ = _
      simp [applied, Wanted.path?, Wanted.node?, Wanted.isStructural]
    · rw [key "Rewrites" h _ _ _ (by decide), key "Rewrites" h _ _ _ (by decide), key "Rewrites" h _ _ _ (by decide),
        key "Rewrites" h _ _ _ (by decide), if_pos h, e]
      show Res.ok _ = _
      simp [applied, Wanted.path?, Wanted.node?, Wanted.isStructural]
  | delegation h =>
    rw [key "DelegationConsistency" h _ _ _ (by decide)]
    rw [key "DelegationConsistency" h _ _ _ (by decide)]
    rw [key "DelegationConsistency" h _ _ _ (by decide)]
    rw [key "DelegationConsistency" h _ _ _ (by decide)]
    rw [key "DelegationConsistency" h _ _ _ (by decide)]
    rw [if_pos h]
    simp [applied, Wanted.path?, Wanted.node?, Wanted.isStructural]
  | infiniteDname h =>
    rw [key "InfiniteDNameRec" h _ _ _ (by decide)]
    rw [key "InfiniteDNameRec" h _ _ _ (by decide)]
    rw [key "InfiniteDNameRec" h _ _ _ (by decide)]
    rw [key "InfiniteDNameRec" h _ _ _ (by decide)]
    rw [key "InfiniteDNameRec" h _ _ _ (by decide)]
    rw [key "InfiniteDNameRec" h _ _ _ (by decide)]
    rw [if_pos h]
    simp [applied, Wanted.path?, Wanted.node?, Wanted.isStructural]
  | lame h =>
    rw [key "LameDelegation" h _ _ _ (by decide)]
    rw [key "LameDelegation" h _ _ _ (by decide)]
    rw [key "LameDelegation" h _ _ _ (by decide)]
    rw [key "LameDelegation" h _ _ _ (by decide)]
    rw [key "LameDelegation" h _ _ _ (by decide)]
    rw [key "LameDelegation" h _ _ _ (by decide)]
    rw [key "LameDelegation" h _ _ _ (by decide)]
    rw [if_pos h]
    simp [applied, Wanted.path?, Wanted.node?, Wanted.isStructural]
  | queryRewrite l h hv hl =>
    rw [key "QueryRewrite" h _ _ _ (by decide)]
    rw [key "QueryRewrite" h _ _ _ (by decide)]
    rw [key "QueryRewrite" h _ _ _ (by decide)]
    rw [key "QueryRewrite" h _ _ _ (by decide)]
    rw [key "QueryRewrite" h _ _ _ (by decide)]
    rw [key "QueryRewrite" h _ _ _ (by decide)]
    rw [key "QueryRewrite" h _ _ _ (by decide)]
    rw [key "QueryRewrite" h _ _ _ (by decide)]
    rw [if_pos h]
    rw [hv]
    show (if (domains l).length > 0 then _ else _) = _
    rw [if_pos (by simpa [domains] using List.length_pos_iff.mpr hl)]
    simp [domains, applied, Wanted.path?, Wanted.node?, Wanted.isStructural]
  | nsContact l h hv hl =>
    rw [key "NameserverContact" h _ _ _ (by decide)]
    rw [key "NameserverContact" h _ _ _ (by decide)]
    rw [key "NameserverContact" h _ _ _ (by decide)]
    rw [key "NameserverContact" h _ _ _ (by decide)]
    rw [key "NameserverContact" h _ _ _ (by decide)]
    rw [key "NameserverContact" h _ _ _ (by decide)]
    rw [key "NameserverContact" h _ _ _ (by decide)]
    rw [key "NameserverContact" h _ _ _ (by decide)]
    rw [key "NameserverContact" h _ _ _ (by decide)]
    rw [if_pos h]
    rw [hv]
    show (if (domains l).length > 0 then _ else _) = _
    rw [if_pos (by simpa [domains] using List.length_pos_iff.mpr hl)]
    simp [domains, applied, Wanted.path?, Wanted.node?, Wanted.isStructural]
  | blackholing h =>
    rw [key "RewriteBlackholing" h _ _ _ (by decide)]
    rw [key "RewriteBlackholing" h _ _ _ (by decide)]
    rw [key "RewriteBlackholing" h _ _ _ (by decide)]
    rw [key "RewriteBlackholing" h _ _ _ (by decide)]
    rw [key "RewriteBlackholing" h _ _ _ (by decide)]
    rw [key "RewriteBlackholing" h _ _ _ (by decide)]
    rw [key "RewriteBlackholing" h _ _ _ (by decide)]
    rw [key "RewriteBlackholing" h _ _ _ (by decide)]
    rw [key "RewriteBlackholing" h _ _ _ (by decide)]
    rw [key "RewriteBlackholing" h _ _ _ (by decide)]
    rw [if_pos h]
    simp [applied, Wanted.path?, Wanted.node?, Wanted.isStructural]
  | allAliases l h hv hl =>
    rw [key "AllAliases" h _ _ _ (by decide)]
    rw [key "AllAliases" h _ _ _ (by decide)]
    rw [key "AllAliases" h _ _ _ (by decide)]
    rw [key "AllAliases" h _ _ _ (by decide)]
    rw [key "AllAliases" h _ _ _ (by decide)]
    rw [key "AllAliases" h _ _ _ (by decide)]
    rw [key "AllAliases" h _ _ _ (by decide)]
    rw [key "AllAliases" h _ _ _ (by decide)]
    rw [key "AllAliases" h _ _ _ (by decide)]
    rw [key "AllAliases" h _ _ _ (by decide)]
    rw [key "AllAliases" h _ _ _ (by decide)]
    rw [if_pos h]
    rw [hv]
    show (if (domains l).length > 0 then _ else _) = _
    rw [if_pos (by simpa [domains] using List.length_pos_iff.mpr hl)]
    simp [domains, applied, Wanted.path?, Wanted.node?, Wanted.isStructural]
  | zeroTTL ts h ht2 =>
    rw [key "ZeroTTL" h _ _ _ (by decide)]
    rw [key "ZeroTTL" h _ _ _ (by decide)]
    rw [key "ZeroTTL" h _ _ _ (by decide)]
    rw [key "ZeroTTL" h _ _ _ (by decide)]
    rw [key "ZeroTTL" h _ _ _ (by decide)]
    rw [key "ZeroTTL" h _ _ _ (by decide)]
    rw [key "ZeroTTL" h _ _ _ (by decide)]
    rw [key "ZeroTTL" h _ _ _ (by decide)]
    rw [key "ZeroTTL" h _ _ _ (by decide)]
    rw [key "ZeroTTL" h _ _ _ (by decide)]
    rw [key "ZeroTTL" h _ _ _ (by decide)]
    rw [key "ZeroTTL" h _ _ _ (by decide)]
    rw [if_pos h]
    rw [same ts ht2]
    simp [applied, Wanted.path?, Wanted.node?, Wanted.isStructural]
  | structural h =>
    rw [key "StructuralDelegationConsistency" h _ _ _ (by decide)]
    rw [key "StructuralDelegationConsistency" h _ _ _ (by decide)]
    rw [key "StructuralDelegationConsistency" h _ _ _ (by decide)]
    rw [key "StructuralDelegationConsistency" h _ _ _ (by decide)]
    rw [key "StructuralDelegationConsistency" h _ _ _ (by decide)]
    rw [key "StructuralDelegationConsistency" h _ _ _ (by decide)]
    rw [key "StructuralDelegationConsistency" h _ _ _ (by decide)]
    rw [key "StructuralDelegationConsistency" h _ _ _ (by decide)]
    rw [key "StructuralDelegationConsistency" h _ _ _ (by decide)]
    rw [key "StructuralDelegationConsistency" h _ _ _ (by decide)]
    rw [key "StructuralDelegationConsistency" h _ _ _ (by decide)]
    rw [key "StructuralDelegationConsistency" h _ _ _ (by decide)]
    rw [key "StructuralDelegationConsistency" h _ _ _ (by decide)]
    rw [if_pos h]
    simp [applied, Wanted.path?, Wanted.node?, Wanted.isStructural]
  | dnameLength h =>
    rw [key "DNAMESubstitutionCheck" h _ _ _ (by decide)]
    rw [key "DNAMESubstitutionCheck" h _ _ _ (by decide)]
    rw [key "DNAMESubstitutionCheck" h _ _ _ (by decide)]
    rw [key "DNAMESubstitutionCheck" h _ _ _ (by decide)]
    rw [key "DNAMESubstitutionCheck" h _ _ _ (by decide)]
    rw [key "DNAMESubstitutionCheck" h _ _ _ (by decide)]
    rw [key "DNAMESubstitutionCheck" h _ _ _ (by decide)]
    rw [key "DNAMESubstitutionCheck" h _ _ _ (by decide)]
    rw [key "DNAMESubstitutionCheck" h _ _ _ (by decide)]
    rw [key "DNAMESubstitutionCheck" h _ _ _ (by decide)]
    rw [key "DNAMESubstitutionCheck" h _ _ _ (by decide)]
    rw [key "DNAMESubstitutionCheck" h _ _ _ (by decide)]
    rw [key "DNAMESubstitutionCheck" h _ _ _ (by decide)]
    rw [key "DNAMESubstitutionCheck" h _ _ _ (by decide)]
    rw [if_pos h]
    simp [applied, Wanted.path?, Wanted.node?, Wanted.isStructural]
  | skipped h hv =>
    simp only [List.map_cons, List.map_nil, List.mem_cons, List.not_mem_nil, or_false] at h
    rcases h with h | h | h | h
    · rw [key "ResponseValue" h _ _ _ (by decide)]
      rw [key "ResponseValue" h _ _ _ (by decide)]
      rw [if_pos h]
      rw [hv]
      simp [strsOf, domainsOf, Check.strSet, applied, Wanted.path?, Wanted.node?, Wanted.isStructural]
    · rw [key "QueryRewrite" h _ _ _ (by decide)]
      rw [key "QueryRewrite" h _ _ _ (by decide)]
      rw [key "QueryRewrite" h _ _ _ (by decide)]
      rw [key "QueryRewrite" h _ _ _ (by decide)]
      rw [key "QueryRewrite" h _ _ _ (by decide)]
      rw [key "QueryRewrite" h _ _ _ (by decide)]
      rw [key "QueryRewrite" h _ _ _ (by decide)]
      rw [key "QueryRewrite" h _ _ _ (by decide)]
      rw [if_pos h]
      rw [hv]
      simp [strsOf, domainsOf, Check.strSet, applied, Wanted.path?, Wanted.node?, Wanted.isStructural]
    · rw [key "NameserverContact" h _ _ _ (by decide)]
      rw [key "NameserverContact" h _ _ _ (by decide)]
      rw [key "NameserverContact" h _ _ _ (by decide)]
      rw [key "NameserverContact" h _ _ _ (by decide)]
      rw [key "NameserverContact" h _ _ _ (by decide)]
      rw [key "NameserverContact" h _ _ _ (by decide)]
      rw [key "NameserverContact" h _ _ _ (by decide)]
      rw [key "NameserverContact" h _ _ _ (by decide)]
      rw [key "NameserverContact" h _ _ _ (by decide)]
      rw [if_pos h]
      rw [hv]
      simp [strsOf, domainsOf, Check.strSet, applied, Wanted.path?, Wanted.node?, Wanted.isStructural]
    · rw [key "AllAliases" h _ _ _ (by decide)]
      rw [key "AllAliases" h _ _ _ (by decide)]
      rw [key "AllAliases" h _ _ _ (by decide)]
      rw [key "AllAliases" h _ _ _ (by decide)]
      rw [key "AllAliases" h _ _ _ (by decide)]
      rw [key "AllAliases" h _ _ _ (by decide)]
      rw [key "AllAliases" h _ _ _ (by decide)]
      rw [key "AllAliases" h _ _ _ (by decide)]
      rw [key "AllAliases" h _ _ _ (by decide)]
      rw [key "AllAliases" h _ _ _ (by decide)]
      rw [key "AllAliases" h _ _ _ (by decide)]
      rw [if_pos h]
      rw [hv]
      simp [strsOf, domainsOf, Check.strSet, applied, Wanted.path?, Wanted.node?, Wanted.isStructural]
  | unknown h =>
    have hn : ∀ s : String, s.toList ∈ propertyNames → ∀ a b : Res Job, (if p.name = s.toList then a else b) = b := by
      intro s hs a b
      rw [if_neg (fun e => h (by rw [e]; exact hs))]
    rw [hn "ResponseConsistency" (by decide)]
    rw [hn "ResponseReturned" (by decide)]
    rw [hn "ResponseValue" (by decide)]
    rw [hn "Hops" (by decide)]
    rw [hn "Rewrites" (by decide)]
    rw [hn "DelegationConsistency" (by decide)]
    rw [hn "InfiniteDNameRec" (by decide)]
    rw [hn "LameDelegation" (by decide)]
    rw [hn "QueryRewrite" (by decide)]
    rw [hn "NameserverContact" (by decide)]
    rw [hn "RewriteBlackholing" (by decide)]
    rw [hn "AllAliases" (by decide)]
    rw [hn "ZeroTTL" (by decide)]
    rw [hn "StructuralDelegationConsistency" (by decide)]
    rw [hn "DNAMESubstitutionCheck" (by decide)]
    simp [applied, Wanted.path?, Wanted.node?, Wanted.isStructural]

theorem setProp_ok_iff (job j : Job) (p : UProp) : setProp job p = .ok j ↔ ValidTypes p ∧ ∃ w ts, Asks p w ∧
    (∀ t, Member ts t ↔ Member job.types t ∨ (∃ l, p.types = some l ∧ ∃ s ∈ l, Names s t) ∨ (t = .NS ∧ p.types = none)) ∧
    j = applied job w ts := by
  rw [setProp_eq]
  rcases htypes : p.types with _ | l
  · have hlist : TypesListed p 0 := fun t => ⟨fun h => absurd h (not_member_zero t), fun ⟨l, hl, _⟩ => by rw [htypes] at hl; cases hl⟩
    have hm : ∀ t, Member (job.types.add .NS) t ↔ Member job.types t ∨ (t = .NS) := by
      intro t
      rw [member_add]
      constructor
      · rintro (h | ⟨_, h⟩)
        · exact .inl h
        · exact .inr h.symm
      · rintro (h | h)
        · exact .inl h
        · exact .inr ⟨by rw [h]; decide, h.symm⟩
    have hval : ValidTypes p := fun l hl => by rw [htypes] at hl; cases hl
    dsimp only
    rw [Res.ok_bind]
    constructor
    · intro h
      obtain ⟨w, hw, e⟩ := setNamed_asks hlist h
      exact ⟨hval, w, _, hw, fun t => by rw [hm]; simp, e⟩
    · rintro ⟨-, w, ts, hw, hts, rfl⟩
      have : ts = job.types.add .NS := member_ext _ _ (fun t => by rw [hts, hm]; simp)
      rw [setNamed_of_asks hlist hw, this]
      rfl
  · by_cases hv : ∀ s ∈ l, ∃ t, Names s t
    · obtain ⟨tr, pt, e, h1, h2⟩ := addTypes_ok l job.types 0 hv
      have hlist : TypesListed p pt := fun t => (h2 t).trans ⟨fun h => ⟨l, htypes, h.resolve_left (not_member_zero t)⟩,
        fun ⟨l', hl, h⟩ => by rw [htypes] at hl; cases hl; exact .inr h⟩
      have hval : ValidTypes p := fun l' hl => by rw [htypes] at hl; cases hl; exact hv
      dsimp only
      rw [e, Res.ok_bind]
      constructor
      · intro h
        obtain ⟨w, hw, e⟩ := setNamed_asks hlist h
        exact ⟨hval, w, _, hw, fun t => by rw [h1]; simp, e⟩
      · rintro ⟨-, w, ts, hw, hts, rfl⟩
        have : ts = tr := member_ext _ _ (fun t => by rw [hts, h1]; simp)
        rw [setNamed_of_asks hlist hw, this]
        rfl
    · dsimp only
      rw [addTypes_throw _ _ _ hv, Res.throw_bind]
      constructor
      · intro h; cases h
      · rintro ⟨h, -⟩
        exact absurd (h l htypes) hv

theorem regroup {a b c d e n : Prop} : (a ∨ b ∨ (n ∧ c)) ∨ d ∨ (n ∧ e) ↔ a ∨ (b ∨ d) ∨ (n ∧ (c ∨ e)) := by
  tauto

theorem setProps_ok_iff (ps : List UProp) (job j : Job) : ps.foldlM setProp job = .ok j ↔ (∀ p ∈ ps, ValidTypes p) ∧
    ∃ ws ts, List.Forall₂ Asks ps ws ∧
    (∀ t, Member ts t ↔ Member job.types t ∨ (∃ p ∈ ps, ∃ l, p.types = some l ∧ ∃ s ∈ l, Names s t) ∨
      (t = .NS ∧ ∃ p ∈ ps, p.types = none)) ∧
    j = { job with types := ts, structural := job.structural || ws.any Wanted.isStructural,
                   pathFns := job.pathFns ++ ws.filterMap Wanted.path?, nodeFns := job.nodeFns ++ ws.filterMap Wanted.node? } := by
  induction ps generalizing job with
  | nil =>
    rw [List.foldlM_nil]
    constructor
    · intro h
      have h : Res.ok job = .ok j := h
      injection h with h
      refine ⟨by simp, [], job.types, .nil, by simp, by simp [h]⟩
    · rintro ⟨-, ws, ts, hw, hts, rfl⟩
      cases hw
      have : ts = job.types := member_ext _ _ (fun t => by rw [hts]; simp)
      show Res.ok _ = Res.ok _
      simp [this]
  | cons p ps ih =>
    rw [List.foldlM_cons, bind_ok_iff]
    constructor
    · rintro ⟨j1, h1, h2⟩
      obtain ⟨hv, w, ts1, hw, ht1, rfl⟩ := (setProp_ok_iff _ _ _).mp h1
      obtain ⟨hvs, ws, ts, hws, hts, rfl⟩ := (ih _).mp h2
      refine ⟨?_, w :: ws, ts, .cons hw hws, ?_, ?_⟩
      · intro q hq
        rcases List.mem_cons.mp hq with rfl | hq
        · exact hv
        · exact hvs q hq
      · intro t
        rw [hts]
        show Member ts1 t ∨ _ ↔ _
        rw [ht1]
        simp only [List.mem_cons, exists_eq_or_imp]
        exact regroup
      · simp only [applied, List.any_cons, List.filterMap_cons, Bool.or_assoc, Job.mk.injEq, true_and, and_true]
        refine ⟨?_, ?_⟩ <;> · rw [List.append_assoc]; congr 1; rcases w with _ | _ | _ | _ <;> rfl
    · rintro ⟨hv, ws', ts, hws, hts, rfl⟩
      cases hws with
      | @cons _ w _ ws hw hws =>
        obtain ⟨ts1, ht1⟩ : ∃ ts1, ∀ t, Member ts1 t ↔ Member job.types t ∨ (∃ l, p.types = some l ∧ ∃ s ∈ l, Names s t) ∨
            (t = .NS ∧ p.types = none) := by
          rcases htypes : p.types with _ | l
          · refine ⟨job.types.add .NS, fun t => ?_⟩
            rw [member_add]
            constructor
            · rintro (h | ⟨_, h⟩)
              · exact .inl h
              · exact .inr (.inr ⟨h.symm, rfl⟩)
            · rintro (h | ⟨l, h, _⟩ | h)
              · exact .inl h
              · cases h
              · exact .inr ⟨by rw [h.1]; decide, h.1.symm⟩
          · obtain ⟨tr, pt, e, h1, h2⟩ := addTypes_ok l job.types 0 (hv p (by simp) l htypes)
            exact ⟨tr, fun t => by rw [h1]; simp⟩
        refine ⟨applied job w ts1, (setProp_ok_iff _ _ _).mpr ⟨hv p (by simp), w, ts1, hw, ht1, rfl⟩, ?_⟩
        refine (ih _).mpr ⟨fun q hq => hv q (by simp [hq]), ws, ts, hws, ?_, ?_⟩
        · intro t
          rw [hts]
          show _ ↔ Member ts1 t ∨ _
          rw [ht1]
          simp only [List.mem_cons, exists_eq_or_imp]
          exact regroup.symm
        · simp only [applied, List.any_cons, List.filterMap_cons, Bool.or_assoc, Job.mk.injEq, true_and, and_true]
          refine ⟨?_, ?_⟩ <;> · rw [List.append_assoc]; congr 1; rcases w with _ | _ | _ | _ <;> rfl

theorem asks_structural_iff {ps : List UProp} {ws : List Wanted} (h : List.Forall₂ Asks ps ws) :
    ws.any Wanted.isStructural = true ↔ ∃ p ∈ ps, p.name = "StructuralDelegationConsistency".toList := by
  induction h with
  | nil => simp
  | @cons p w ps ws hw _ ih =>
    rw [List.any_cons, Bool.or_eq_true, ih]
    simp only [List.mem_cons, exists_eq_or_imp]
    have : w.isStructural = true ↔ p.name = "StructuralDelegationConsistency".toList := by
      constructor
      · intro h1
        cases hw <;> first | assumption | (simp [Wanted.isStructural] at h1)
      · intro h1
        cases hw with
        | structural h => rfl
        | skipped h hv => rw [h1] at h; exact absurd h (by decide)
        | unknown h => rw [h1] at h; exact absurd (by decide) h
        | consistency _ h _ => rw [h1] at h; exact absurd h (by decide)
        | returned _ h _ => rw [h1] at h; exact absurd h (by decide)
        | value _ _ _ h _ _ _ _ _ => rw [h1] at h; exact absurd h (by decide)
        | hops _ h _ => rw [h1] at h; exact absurd h (by decide)
        | rewrites _ h _ => rw [h1] at h; exact absurd h (by decide)
        | misfit _ h _ => rw [h1] at h; exact absurd h (by decide)
        | delegation h => rw [h1] at h; exact absurd h (by decide)
        | infiniteDname h => rw [h1] at h; exact absurd h (by decide)
        | lame h => rw [h1] at h; exact absurd h (by decide)
        | queryRewrite _ h _ _ => rw [h1] at h; exact absurd h (by decide)
        | nsContact _ h _ _ => rw [h1] at h; exact absurd h (by decide)
        | blackholing h => rw [h1] at h; exact absurd h (by decide)
        | allAliases _ h _ _ => rw [h1] at h; exact absurd h (by decide)
        | zeroTTL _ h _ => rw [h1] at h; exact absurd h (by decide)
        | dnameLength h => rw [h1] at h; exact absurd h (by decide)
    rw [this]

end Groot
