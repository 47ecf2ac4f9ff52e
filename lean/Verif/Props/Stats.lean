import Verif.Lemmas.Stats
import Verif.Spec.Stats
import Verif.Props.File

/-!
# C92: the statistics of loaded records ("RR Stats")
-/

namespace Groot

open Spec Parser Lexer

/-- The counter of a type among the counters of kept records. -/
theorem count_kept_type (t : RRType) (rs : List RR) : (rs.flatMap keptKeys).count (typeField t) = rs.countP (fun r => decide (r.type = t)) := by
  induction rs with
  | nil => rfl
  | cons r rs ih =>
    rw [List.flatMap_cons, List.count_append, ih, List.countP_cons, Nat.add_comm]
    congr 1
    have hw : typeField t ≠ "Wildcard".toList := by cases t <;> decide +kernel
    unfold keptKeys
    rw [List.count_cons, typeKey_field]
    have h0 : (if r.name.getLast? = some ['*'] then ["Wildcard".toList] else ([] : List Str)).count (typeField t) = 0 := by
      rw [List.count_eq_zero]
      split
      · simpa using hw
      · simp
    rw [h0, Nat.zero_add]
    by_cases e : r.type = t
    · rw [e]; simp
    · have : typeField r.type ≠ typeField t := fun h => e (typeField_inj h)
      simp [this, e]

theorem ownsWildcard_iff (r : RR) : OwnsWildcard r ↔ r.name.getLast? = some ['*'] := by
  unfold OwnsWildcard
  rw [List.getLast?_eq_some_iff]
  rfl

/-- The counter of wildcards among the counters of kept records. -/
theorem count_kept_wildcard (rs : List RR) : (rs.flatMap keptKeys).count "Wildcard".toList = rs.countP (fun r => decide (OwnsWildcard r)) := by
  induction rs with
  | nil => rfl
  | cons r rs ih =>
    rw [List.flatMap_cons, List.count_append, ih, List.countP_cons, Nat.add_comm]
    congr 1
    have hw : ∀ t, typeField t ≠ "Wildcard".toList := by intro t; cases t <;> decide +kernel
    unfold keptKeys
    rw [List.count_cons, typeKey_field]
    have hz : (if (typeField r.type == "Wildcard".toList) = true then 1 else 0) = 0 := if_neg (by rw [beq_iff_eq]; exact hw _)
    rw [hz, Nat.add_zero]
    by_cases e : r.name.getLast? = some ['*']
    · rw [if_pos e, if_pos (decide_eq_true ((ownsWildcard_iff r).mpr e)), List.count_singleton_self]
    · rw [if_neg e, if_neg (by rw [decide_eq_true_eq, ownsWildcard_iff]; exact e), List.count_nil]

/-- **C92** Whatever the files contain: the table of counters names every key once and no counter is zero, and apart from the
wildcards — which are counted in addition — the counters add up to the number of records parsed.  The counter of each type is the number
of records of this type that went into the graphs, and the counter of wildcards that of records owned by wildcards. -/
theorem C92_accounted (thr : Nat) (lint : Bool) (read : Str → Str) (exists_ : Str → Bool) (m : Driver.Meta) (d : Loaded)
    (h : setContext thr lint read exists_ m = .ok d) :
    Table d.counts ∧ ((d.counts.filter (fun e => decide (e.1 ≠ "Wildcard".toList))).map (·.2)).sum = d.rrCount ∧
    ∃ w xs, Represents d.ctx w ∧ d.lg = labelGraph thr xs ∧ Coherent d w xs ∧
      (∀ t, noted d.counts (typeField t) = (xs.map (·.1)).countP (fun r => decide (r.type = t))) ∧
      noted d.counts "Wildcard".toList = (xs.map (·.1)).countP (fun r => decide (OwnsWildcard r)) := by
  obtain ⟨w, xs, h1, -, -⟩ := setContext_loading h
  refine ⟨h1.counters.table, h1.total, w, xs, represents_of h1.ns (h1.top.1.trans h1.top.2.symm) h1.zones, h1.lg, h1.coherent, fun t => ?_, ?_⟩
  · rw [h1.counters.noted, h1.counted _ (by cases t <;> decide +kernel), count_kept_type]
  · rw [h1.counters.noted, h1.counted _ (by decide +kernel), count_kept_wildcard]

theorem noted_merge {m : List (Str × Nat)} (h : Counters m) (ks : List Str) (k : Str) :
    noted (mergeCounts m (tally ks)) k = noted m k + ks.count k := by
  rw [(h.merge (Counters.tally _).2).noted, h.noted, sumOf_merge, sumOf_tally]
  congr 1
  unfold List.count
  refine List.countP_congr (fun a _ => ?_)
  simp

/-- **C92** Files of standard lines: every counter is exactly the number of the records of all files it stands for, as
`counters` says it of a single record. -/
theorem C92_counts (thr : Nat) (lint : Bool) (read : Str → Str) (exists_ : Str → Bool) (m : Driver.Meta) (ess : List (List (Entry × Nat)))
    (hm : Driver.sanityCheck exists_ m = .ok ())
    (h : List.Forall₂ (fun z es => GoodFile (read (z.fileName.getD [])) (toLower (z.origin.getD [])) es) (filesOf m) ess) :
    ∃ d, setContext thr lint read exists_ m = .ok d ∧ Table d.counts ∧
      ∀ k, noted d.counts k =
        (List.zipWith (fun z es => (countersFrom [] (offeredBy (toLower (z.origin.getD [])) es)).count k) (filesOf m) ess).sum := by
  have key : ∀ (fs : List Driver.UZone) (ess : List (List (Entry × Nat))),
      List.Forall₂ (fun z es => GoodFile (read (z.fileName.getD [])) (toLower (z.origin.getD [])) es) fs ess →
      ∀ d0 : Loaded, Counters d0.counts →
      ∃ d, fs.foldlM (fun d z => loadZone thr lint d (z.fileName.getD []) (read (z.fileName.getD [])) (toLower (z.nameServer.getD []))
          (toLower (z.origin.getD []))) d0 = .ok d ∧ Counters d.counts ∧
        ∀ k, noted d.counts k = noted d0.counts k +
          (List.zipWith (fun z es => (countersFrom [] (offeredBy (toLower (z.origin.getD [])) es)).count k) fs ess).sum := by
    intro fs ess h
    induction h with
    | nil => intro d0 h0; exact ⟨d0, rfl, h0, fun k => rfl⟩
    | @cons z es fs ess hz hrest ih =>
      intro d0 h0
      obtain ⟨-, h2⟩ := run_entries (thr := thr) (lint := lint) (lg0 := d0.lg) (id := d0.ctx.counter + 1) hz.read hz.standard hz.supported
      obtain ⟨st, rs, xs, e1, -, -, -, -, -, e2⟩ := h2 hz.noOrphan
      have hl : ∃ d1, loadZone thr lint d0 (z.fileName.getD []) (read (z.fileName.getD [])) (toLower (z.nameServer.getD [])) (toLower (z.origin.getD [])) = .ok d1 ∧
          d1.counts = mergeCounts d0.counts (tally st.counts) := by
        unfold loadZone
        dsimp only
        rw [e1, Res.ok_bind]
        exact ⟨_, rfl, rfl⟩
      obtain ⟨d1, e3, e4⟩ := hl
      have hc1 : Counters d1.counts := by rw [e4]; exact h0.merge (Counters.tally _).2
      obtain ⟨d, f1, f2, f3⟩ := ih d1 hc1
      refine ⟨d, ?_, f2, fun k => ?_⟩
      · rw [List.foldlM_cons, e3, Res.ok_bind]; exact f1
      · rw [f3 k, e4, noted_merge h0, e2, List.zipWith_cons_cons, List.sum_cons, Nat.add_assoc]
        rfl
  unfold setContext
  rw [hm, Res.ok_bind]
  dsimp only
  obtain ⟨d, f1, f2, f3⟩ := key (filesOf m) ess h { ctx := { top := (m.topNameServers.getD []).map toLower } } .nil
  refine ⟨d, f1, f2.table, fun k => ?_⟩
  rw [f3 k]
  show 0 + _ = _
  rw [Nat.zero_add]

theorem counters_cases (log : List RR) (r : RR) (ht : r.type ≠ .N) :
    refusal log r = none ∧ counters log r = keptKeys r ∨ refusal log r ≠ none ∧ ∃ k ∈ refusalKeys, counters log r = [k] := by
  have htl : ∀ n, tooLongKey n ∈ refusalKeys := by
    intro n
    unfold tooLongKey
    split <;> decide +kernel
  unfold counters
  by_cases h1 : Short r.name
  · rw [if_neg (not_not_intro h1)]
    by_cases h2 : Pointing r ∧ ¬ Short (stringToLabels r.rdata)
    · rw [if_pos h2]
      exact .inr ⟨fun h => h2.2 (((refusal_none _ _).mp h).2.1 h2.1), _, htl _, rfl⟩
    · rw [if_neg h2]
      by_cases h3 : Belongs log r
      · rw [if_neg (not_not_intro h3)]
        by_cases h4 : Duplicate log r
        · rw [if_pos h4]
          exact .inr ⟨fun h => ((refusal_none _ _).mp h).2.2.2.1 h4, _, by decide +kernel, rfl⟩
        · rw [if_neg h4]
          by_cases h5 : Admissible log r
          · rw [if_neg (not_not_intro h5)]
            refine .inl ⟨(refusal_none _ _).mpr ⟨h1, fun hp => ?_, h3, h5⟩, (keptKeys_eq ht).symm⟩
            by_contra hc
            exact h2 ⟨hp, hc⟩
          · rw [if_pos h5]
            exact .inr ⟨fun h => h5 ((refusal_none _ _).mp h).2.2.2, _, by decide +kernel, rfl⟩
      · rw [if_pos h3]
        exact .inr ⟨fun h => h3 ((refusal_none _ _).mp h).2.2.1, _, by decide +kernel, rfl⟩
  · rw [if_pos h1]
    exact .inr ⟨fun h => h1 ((refusal_none _ _).mp h).1, _, htl _, rfl⟩

theorem tallied_counters (offered : List (Nat × RR)) : ∀ (ks : List Str) (n : Nat) (log : List RR), (∀ x ∈ offered, x.2.type ≠ .N) → Tallied ks n log →
    Tallied (ks ++ countersFrom log offered) (n + offered.length) (keepFrom log (offered.map (·.2))) := by
  induction offered with
  | nil => intro ks n log _ h; simpa [countersFrom, keepFrom] using h
  | cons x offered ih =>
    obtain ⟨l, r⟩ := x
    intro ks n log hN h
    have hrest : ∀ x ∈ offered, x.2.type ≠ .N := fun x hx => hN x (List.mem_cons_of_mem _ hx)
    unfold countersFrom
    rw [List.map_cons, keepFrom_cons, ← List.append_assoc, List.length_cons, ← Nat.add_assoc, Nat.add_right_comm]
    rcases counters_cases log r (hN _ List.mem_cons_self) with ⟨h1, h2⟩ | ⟨h1, k, hk, h2⟩
    · rw [if_pos h1, h2]; exact ih _ _ _ hrest (h.kept r)
    · rw [if_neg h1, h2]; exact ih _ _ _ hrest (h.refused hk)

/-- **C92** What the specification of the counters says: of the records offered, those kept are counted under their types and, if owned by a
wildcard, once more; and apart from that every record offered is counted once. -/
theorem C92_meaning (offered : List (Nat × RR)) (hN : ∀ x ∈ offered, x.2.type ≠ .N) :
    (∀ t, t ≠ .N → (countersFrom [] offered).count (typeText t) = (kept offered).countP (fun r => decide (r.type = t))) ∧
    (countersFrom [] offered).count "Wildcard".toList = (kept offered).countP (fun r => decide (OwnsWildcard r)) ∧
    (countersFrom [] offered).countP (fun k => decide (k ≠ "Wildcard".toList)) = offered.length := by
  have h := tallied_counters offered [] 0 [] hN .nil
  rw [List.nil_append, Nat.zero_add] at h
  refine ⟨fun t ht => ?_, ?_, h.2⟩
  · have e : typeText t = typeField t := by unfold typeField; rw [if_neg ht]
    rw [e, h.1 _ (by cases t <;> decide +kernel), count_kept_type]; rfl
  · rw [h.1 _ (by decide +kernel), count_kept_wildcard]; rfl

/-- The sample file of C80: two records are refused, one is a duplicate. -/
example : countersFrom [] (offeredBy "x.".toList sampleEntries) =
    ["SOA", "NS", "A", "CNAME", "CNAME/DNAME Errors", "TXT", "Out-of-Zone-Records", "Duplicate-Records"].map String.toList := by
  decide +kernel

/-- The counters of the two sample files: a zone with a wildcard, and one with an out-of-zone and a duplicate record. -/
def wildContents (f : Str) : Str :=
  if f = "f1".toList then "com. SOA x\n*.com. A 1.1.1.1\n*.a.com. TXT t\n".toList
  else "@ SOA x\nwww A 2.2.2.2\nnet. A 3.3.3.3\nwww A 2.2.2.2\n".toList

example : ∃ d, setContext 500 true wildContents (fun _ => true) twoFiles = .ok d ∧ d.rrCount = 7 ∧
    d.counts = [("SOA".toList, 2), ("A".toList, 2), ("Wildcard".toList, 2), ("TXT".toList, 1), ("Out-of-Zone-Records".toList, 1),
      ("Duplicate-Records".toList, 1)] := by
  have h : ∀ r : Res Loaded, (match r with
      | .ok d => decide (d.rrCount = 7 ∧ d.counts = [("SOA".toList, 2), ("A".toList, 2), ("Wildcard".toList, 2), ("TXT".toList, 1),
          ("Out-of-Zone-Records".toList, 1), ("Duplicate-Records".toList, 1)])
      | _ => false) = true → ∃ d, r = .ok d ∧ d.rrCount = 7 ∧ d.counts = [("SOA".toList, 2), ("A".toList, 2), ("Wildcard".toList, 2), ("TXT".toList, 1),
          ("Out-of-Zone-Records".toList, 1), ("Duplicate-Records".toList, 1)] := by
    intro r hr
    cases r with
    | ok d => exact ⟨d, rfl, of_decide_eq_true hr⟩
    | _ => cases hr
  exact h _ (by decide +kernel)

/-- **C92** (disagreement) The counters are no statistics of the zones: the records of a file that is not loaded as a zone (its SOA line begins
with a blank, see `C64_disagreement_blank_soa`) are counted as if they were. -/
theorem C92_disagreement_no_zone :
    (match loadZone 500 false {} "f".toList "x. 1d TXT t\n SOA a\nx. NS n.\n".toList "s.".toList [] with
      | .ok d => d.ctx.zones.isEmpty && decide (d.counts = [("SOA".toList, 1), ("NS".toList, 1)])
      | _ => false) = true := by
  decide +kernel

end Groot
