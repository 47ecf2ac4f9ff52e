import Verif.Model.Parser
import Verif.Lemmas.Assemble
import Verif.Lemmas.Names
import Verif.Spec.Stats
import Mathlib.Tactic.SplitIfs

/-! # The counters of loaded records -/

namespace Groot

open Parser Spec

/-- The sum of the counters whose keys satisfy `p`. -/
def sumOf (p : Str → Bool) (m : List (Str × Nat)) : Nat := ((m.filter (fun e => p e.1)).map (·.2)).sum

theorem sumOf_nil (p : Str → Bool) : sumOf p [] = 0 := rfl

theorem sumOf_cons (p : Str → Bool) (e : Str × Nat) (m : List (Str × Nat)) : sumOf p (e :: m) = (if p e.1 then e.2 else 0) + sumOf p m := by
  unfold sumOf
  rw [List.filter_cons]
  split_ifs <;> simp

theorem sumOf_addCount (p : Str → Bool) (k : Str) (v : Nat) (m : List (Str × Nat)) :
    sumOf p (addCount k v m) = sumOf p m + if p k then v else 0 := by
  induction m with
  | nil => unfold addCount; rw [sumOf_cons, sumOf_nil]; dsimp only; omega
  | cons e m ih =>
    obtain ⟨a, n⟩ := e
    unfold addCount
    split_ifs with h1 h2 h2
    · rw [sumOf_cons, sumOf_cons]; dsimp only; rw [h1, if_pos h2, if_pos h2]; omega
    · rw [sumOf_cons, sumOf_cons]; dsimp only; rw [h1, if_neg h2, if_neg h2, Nat.add_zero]
    · rw [sumOf_cons, ih, sumOf_cons, if_pos h2]; omega
    · rw [sumOf_cons, ih, sumOf_cons, if_neg h2]; omega

theorem sumOf_merge (p : Str → Bool) (file : List (Str × Nat)) : ∀ total, sumOf p (mergeCounts total file) = sumOf p total + sumOf p file := by
  unfold mergeCounts
  induction file with
  | nil => intro t; rw [List.foldl_nil, sumOf_nil]; rfl
  | cons e file ih => intro t; rw [List.foldl_cons, ih, sumOf_addCount, sumOf_cons]; omega

theorem sumOf_tally (p : Str → Bool) (ks : List Str) : sumOf p (tally ks) = ks.countP p := by
  have : ∀ (ks : List Str) m, sumOf p (ks.foldl (fun m k => addCount k 1 m) m) = sumOf p m + ks.countP p := by
    intro ks
    induction ks with
    | nil => intro m; simp
    | cons k ks ih => intro m; rw [List.foldl_cons, ih, sumOf_addCount, List.countP_cons]; omega
  unfold tally
  rw [this, sumOf_nil, Nat.zero_add]

/-- A map of counters: every key once, and none is zero. -/
def Counters (m : List (Str × Nat)) : Prop := (m.map (·.1)).Nodup ∧ ∀ e ∈ m, 0 < e.2

theorem mem_addCount {k a : Str} {v : Nat} {m : List (Str × Nat)} (h : a ∈ (addCount k v m).map (·.1)) : a = k ∨ a ∈ m.map (·.1) := by
  induction m with
  | nil => unfold addCount at h; simp only [List.map_cons, List.map_nil, List.mem_singleton] at h; exact .inl h
  | cons e m ih =>
    obtain ⟨b, n⟩ := e
    unfold addCount at h
    split_ifs at h with h1
    · exact .inr h
    · rw [List.map_cons, List.mem_cons] at h ⊢
      rcases h with h | h
      · exact .inr (.inl h)
      · rcases ih h with h | h
        · exact .inl h
        · exact .inr (.inr h)

theorem Counters.add {k : Str} {v : Nat} (hv : 0 < v) {m : List (Str × Nat)} (h : Counters m) : Counters (addCount k v m) := by
  induction m with
  | nil => exact ⟨by unfold addCount; simp, by unfold addCount; simp [hv]⟩
  | cons e m ih =>
    obtain ⟨b, n⟩ := e
    obtain ⟨h1, h2⟩ := h
    rw [List.map_cons, List.nodup_cons] at h1
    obtain ⟨i1, i2⟩ := ih ⟨h1.2, fun e he => h2 e (List.mem_cons_of_mem _ he)⟩
    unfold addCount
    split_ifs with hk
    · refine ⟨by rw [List.map_cons, List.nodup_cons]; exact h1, fun e he => ?_⟩
      rcases List.mem_cons.mp he with rfl | he
      · have := h2 (b, n) List.mem_cons_self
        dsimp only at this ⊢
        omega
      · exact h2 e (List.mem_cons_of_mem _ he)
    · refine ⟨?_, fun e he => ?_⟩
      · rw [List.map_cons, List.nodup_cons]
        refine ⟨fun hm => ?_, i1⟩
        rcases mem_addCount hm with e | e
        · exact hk e
        · exact h1.1 e
      · rcases List.mem_cons.mp he with rfl | he
        · exact h2 _ List.mem_cons_self
        · exact i2 e he

theorem Counters.nil : Counters [] := ⟨List.nodup_nil, by simp⟩

theorem Counters.tally (ks : List Str) : Counters (tally ks) := by
  have : ∀ (ks : List Str) m, Counters m → Counters (ks.foldl (fun m k => addCount k 1 m) m) := by
    intro ks
    induction ks with
    | nil => intro m h; exact h
    | cons k ks ih => intro m h; exact ih _ (h.add (by omega))
  exact this ks [] .nil

theorem Counters.merge {file : List (Str × Nat)} (hf : ∀ e ∈ file, 0 < e.2) : ∀ {total : List (Str × Nat)}, Counters total → Counters (mergeCounts total file) := by
  unfold mergeCounts
  induction file with
  | nil => intro t h; exact h
  | cons e file ih =>
    intro t h
    exact ih (fun e he => hf e (List.mem_cons_of_mem _ he)) (h.add (hf e List.mem_cons_self))

theorem Counters.lookup {m : List (Str × Nat)} (h : Counters m) (k : Str) :
    m.lookup k = if sumOf (fun a => decide (a = k)) m = 0 then none else some (sumOf (fun a => decide (a = k)) m) := by
  induction m with
  | nil => rfl
  | cons e m ih =>
    obtain ⟨b, n⟩ := e
    obtain ⟨h1, h2⟩ := h
    rw [List.map_cons, List.nodup_cons] at h1
    have ih := ih ⟨h1.2, fun e he => h2 e (List.mem_cons_of_mem _ he)⟩
    rw [sumOf_cons, List.lookup_cons]
    dsimp only
    by_cases hk : b = k
    · subst hk
      have hz : sumOf (fun a => decide (a = b)) m = 0 := by
        unfold sumOf
        rw [List.filter_eq_nil_iff.mpr]
        · rfl
        · intro e he
          simp only [decide_eq_true_eq]
          intro hb
          exact h1.1 (List.mem_map.mpr ⟨e, he, hb⟩)
      have := h2 (b, n) List.mem_cons_self
      dsimp only at this
      rw [hz, beq_self_eq_true, if_pos (decide_eq_true rfl), if_neg (by omega)]
      rfl
    · have h0 : (if decide (b = k) = true then n else 0) = 0 := if_neg (by simpa using hk)
      rw [h0, Nat.zero_add, beq_eq_false_iff_ne.mpr (fun e => hk e.symm)]
      exact ih

/-! ### The counters of one file -/

/-- The keys under which records are counted that are not kept. -/
def refusalKeys : List Str :=
  ["Label Length Exceeded", "Domain Length Exceeded", "Duplicate-Records", "CNAME/DNAME Errors", "Out-of-Zone-Records"].map String.toList

/-- The keys incremented are those of the records kept, and one for each of the others. -/
def Tallied (ks : List Str) (n : Nat) (log : List RR) : Prop :=
  (∀ k, k ∉ refusalKeys → ks.count k = (log.flatMap keptKeys).count k) ∧ ks.countP (fun k => decide (k ≠ "Wildcard".toList)) = n

theorem Tallied.nil : Tallied [] 0 [] := ⟨fun _ _ => rfl, rfl⟩

theorem Tallied.refused {ks : List Str} {n : Nat} {log : List RR} (h : Tallied ks n log) {k : Str} (hk : k ∈ refusalKeys) :
    Tallied (ks ++ [k]) (n + 1) log := by
  refine ⟨fun a ha => ?_, ?_⟩
  · rw [List.count_append, h.1 a ha, List.count_singleton, if_neg]
    · rfl
    · intro e
      rw [beq_iff_eq] at e
      exact ha (e ▸ hk)
  · rw [List.countP_append, h.2]
    have : ∀ k ∈ refusalKeys, k ≠ "Wildcard".toList := by decide +kernel
    simp only [List.countP_cons, List.countP_nil, this k hk, ne_eq, not_false_eq_true, decide_true, if_true]

theorem keptKeys_one (r : RR) : (keptKeys r).countP (fun k => decide (k ≠ "Wildcard".toList)) = 1 := by
  have : ∀ t, typeKey t ≠ "Wildcard".toList := by intro t; cases t <;> decide +kernel
  unfold keptKeys
  rw [List.countP_cons, if_pos (decide_eq_true (this _))]
  split_ifs <;> rfl

theorem Tallied.kept {ks : List Str} {n : Nat} {log : List RR} (h : Tallied ks n log) (r : RR) : Tallied (ks ++ keptKeys r) (n + 1) (log ++ [r]) := by
  refine ⟨fun a ha => ?_, ?_⟩
  · rw [List.count_append, h.1 a ha, List.flatMap_append, List.count_append, List.flatMap_singleton]
  · rw [List.countP_append, h.2, keptKeys_one]

/-! ### The keys are the texts the program looks at -/

theorem typeKey_text {fld : Str} (h : isTypeField fld = true) : typeKey (stringToType (toUpper fld)) = toUpper fld := by
  unfold isTypeField at h
  have h2 : toUpper fld ∈ typeNames := by
    have := (Bool.and_eq_true _ _ ▸ h).2
    simpa using this
  revert h2
  generalize toUpper fld = u
  intro h
  have : ∀ u ∈ typeNames, typeKey (stringToType u) = u := by decide +kernel
  exact this u h

theorem typeKey_field (t : RRType) : typeKey t = typeField t := by cases t <;> rfl

theorem typeField_inj {t t' : RRType} (h : typeField t = typeField t') : t = t' := by
  revert h; cases t <;> cases t' <;> decide +kernel

/-- The name read from a text ends in the label `*` iff the text begins with a star and a dot. -/
theorem wildcard_text {s : Str} (hs : s ≠ ['*']) : "*.".toList <+: s ↔ (stringToLabels s).getLast? = some ['*'] := by
  have hd : "*.".toList <+: s ↔ "*.".toList <+: dotted s := by
    unfold dotted
    split_ifs with h
    · exact Iff.rfl
    · constructor
      · intro hp; exact hp.trans (List.prefix_append _ _)
      · rintro ⟨t, ht⟩
        match s, hs, h, ht with
        | [], _, h, _ => simp at h
        | [c], hs, _, ht =>
          have : c = '*' := by
            have := congrArg List.head? ht
            simpa using this.symm
          exact absurd (by rw [this]) hs
        | c :: c' :: s, _, _, ht =>
          refine ⟨s, ?_⟩
          have e1 := congrArg (·[0]?) ht
          have e2 := congrArg (·[1]?) ht
          simp at e1 e2
          rw [← e1, ← e2]; rfl
  rw [hd, stringToLabels_dotted, List.getLast?_reverse]
  constructor
  · rintro ⟨t, ht⟩
    rw [← ht, List.foldl_append]
    have : ("*.".toList).foldl scanStep ([], []) = ([['*']], []) := by decide
    rw [this]
    have hk : ∀ (t : Str) (st : List Str × Str), st.1.head? = some ['*'] → (t.foldl scanStep st).1.head? = some ['*'] := by
      intro t
      induction t with
      | nil => intro st h; exact h
      | cons c t ih =>
        intro st h
        refine ih _ ?_
        unfold scanStep
        split_ifs <;> first | exact h | (rw [List.head?_append, h]; rfl)
    exact hk t _ rfl
  · intro h
    have hf := scan_flatten (dotted s) ([], [])
    simp only [List.map_nil, List.flatten_nil, List.nil_append] at hf
    cases hl : ((dotted s).foldl scanStep ([], [])).1 with
    | nil => rw [hl] at h; simp at h
    | cons a ls =>
      rw [hl] at h hf
      have : a = ['*'] := by simpa using h
      subst this
      rw [← hf]
      refine ⟨(ls.map (fun l => l ++ ['.'])).flatten ++ ((dotted s).foldl scanStep ([], [])).2, ?_⟩
      simp

/-- The counters of a record as the program sees it: the type field, and the beginning of the completed owner. -/
theorem keptKeys_text {fld : Str} (h : isTypeField fld = true) {n : Str} (hn : n ≠ ['*']) (cls ttl : Nat) (rdata : Str) :
    keptKeys (mkRR n (toUpper fld) cls ttl rdata) = toUpper fld :: (if "*.".toList <+: n then ["Wildcard".toList] else []) := by
  unfold keptKeys mkRR
  dsimp only
  rw [typeKey_text h]
  congr 1
  by_cases hw : "*.".toList <+: n
  · rw [if_pos hw, if_pos ((wildcard_text hn).mp hw)]
  · rw [if_neg hw, if_neg (fun e => hw ((wildcard_text hn).mpr e))]

/-- A completed owner is not a lone star. -/
theorem complete_owner (st : PState) (type : Str) (f : FState) : ∃ n, n ≠ ['*'] ∧ ∃ cls ttl rdata, (complete st type f).2 = mkRR n type cls ttl rdata := by
  have hdot : ∀ s : Str, '.' ∈ s → toLower s ≠ ['*'] := by
    intro s hs e
    have : '.' ∈ toLower s := List.mem_map.mpr ⟨'.', hs, rfl⟩
    rw [e] at this
    revert this; decide
  have hend : ∀ s : Str, endsDot s = true → '.' ∈ s := by
    intro s hs
    unfold endsDot at hs
    rw [beq_iff_eq] at hs
    exact List.mem_of_getLast? hs
  unfold complete
  dsimp only
  split_ifs <;> refine ⟨_, hdot _ ?_, _, _, _, rfl⟩ <;> first | (simp; done) | (apply hend; simp_all; done)

theorem Counters.table {m : List (Str × Nat)} (h : Counters m) : Table m := ⟨h.1, fun e he => by have := h.2 e he; omega⟩

theorem Counters.noted {m : List (Str × Nat)} (h : Counters m) (k : Str) : noted m k = sumOf (fun a => decide (a = k)) m := by
  unfold Spec.noted
  rw [h.lookup]
  split_ifs with e
  · rw [e]; rfl
  · rfl

end Groot
