import Verif.Lemmas.Loader
import Verif.Lemmas.LineText
import Verif.Lemmas.Codes
import Verif.Lemmas.Show
import Verif.Lemmas.Lexer
import Verif.Spec.Stats

/-! # Files of standard lines -/

namespace Groot

open Spec Parser

theorem toStr_supported {r : RR} (h : r.type ≠ .N) : r.toStr = .ok (showRecord r) := by
  unfold RR.toStr
  rw [if_neg h, str_fun]

theorem addIssue_eq (st : PState) (a b c : Str) :
    addIssue st a b c = { st with issues := st.issues ++ (if st.lint then [⟨st.line, a, b, c⟩] else []) } := by
  unfold addIssue
  obtain ⟨_, _, _, _, _, _, _, _, _, _, lint, _⟩ := st
  cases lint <;> simp

theorem lengthIssue_eq (st : PState) {r : RR} (h : r.type ≠ .N) (n : Name) (long total : String) :
    lengthIssue st r (lengthCheck n).2 long.toList total.toList = .ok (addIssue (st.count (tooLongKey n)) (showRecord r) (tooLong n long total) []) := by
  unfold lengthIssue tooLong
  rw [toStr_supported h, Res.ok_bind]
  have hl : (lengthCheck n).2 = ((n.find? (fun l => decide (l.length > 63))).getD []) := lengthCheckLoop_label n 0
  rw [hl]
  cases hf : n.find? (fun l => decide (63 < l.length)) with
  | none =>
    have hk : tooLongKey n = "Domain Length Exceeded".toList := by
      unfold tooLongKey
      rw [if_neg]
      rintro ⟨l, h1, h2⟩
      have := List.find?_eq_none.mp hf l h1
      simp [h2] at this
    rw [hk]
    rfl
  | some l =>
    have hk : tooLongKey n = "Label Length Exceeded".toList := by
      unfold tooLongKey
      exact if_pos ⟨l, List.mem_of_find?_eq_some hf, by simpa using List.find?_some hf⟩
    rw [hk]
    have : 63 < l.length := by simpa using List.find?_some hf
    have h0 : 0 < l.length := by omega
    rw [Option.getD_some, if_pos h0]

/-- The report on an offered record. -/
def reportOn (log : List RR) (n : Nat) (r : RR) : List Issue :=
  match refusal log r with
  | some p => [⟨n, showRecord r, p.1, p.2⟩]
  | none => []

theorem refusal_none (log : List RR) (r : RR) :
    refusal log r = none ↔ Short r.name ∧ (Pointing r → Short (stringToLabels r.rdata)) ∧ Belongs log r ∧ Admissible log r := by
  unfold refusal Admissible
  by_cases h1 : Short r.name
  · by_cases h2 : Pointing r ∧ ¬ Short (stringToLabels r.rdata)
    · simp [h1, h2]
    · by_cases h3 : Belongs log r
      · by_cases h4 : Duplicate log r
        · simp [h1, h2, h3, h4]
        · rw [if_neg (by simpa using h1), if_neg h2, if_neg (by simpa using h3), if_neg h4]
          by_cases h5 : HasType log r.name .CNAME
          · by_cases h6 : r.type = .CNAME <;> simp [h5, h6]
          · by_cases h6 : r.type = .CNAME ∧ Owner log r.name
            · simp [h5, h6]
            · by_cases h7 : r.type = .DNAME ∧ HasType log r.name .DNAME
              · simp [h5, h6, h7]
              · simp only [h5, h6, h7, and_false, false_or, or_false, if_false, true_iff, not_false_eq_true, h1, h3, h4, and_true, true_and]
                intro hp
                by_contra hs
                exact h2 ⟨hp, hs⟩
      · simp [h1, h2, h3]
  · simp [h1]

/-- What the report says of a conflict. -/
def conflictText : AddCode → Str
  | .CNAME_MULTIPLE => "MULTIPLE CNAMEs".toList
  | .CNAME_OTHER => "CNAME AND OTHER TYPES".toList
  | _ => "MULTIPLE DNAMEs".toList

theorem rejected_eq {st : PState} {v : Nat} {c : AddCode} {r first : RR} {more : List RR} (hz : st.zone.rrsAt v = first :: more) (hf : first.type ≠ .N)
    (hN : r.type ≠ .N) (h1 : c ≠ .SUCCESS) (h2 : c ≠ .DUPLICATE) :
    rejected st r c (some v) = .ok (addIssue (st.count "CNAME/DNAME Errors".toList) (showRecord r) (conflictText c) (showRecord first)) := by
  unfold rejected
  cases c with
  | SUCCESS => exact absurd rfl h1
  | DUPLICATE => exact absurd rfl h2
  | _ =>
    dsimp only
    rw [hz]
    dsimp only
    rw [toStr_supported hf, Res.ok_bind, toStr_supported hN, Res.ok_bind]
    rfl

theorem conflict_cases {log : List RR} {r : RR} {c : AddCode} {o : Option (Str × Str)} (hd : ¬ Duplicate log r) (ha : ¬ Admissible log r)
    (hc : c = if Duplicate log r then .DUPLICATE
      else if HasType log r.name .CNAME then (if r.type = .CNAME then .CNAME_MULTIPLE else .CNAME_OTHER)
      else if r.type = .CNAME ∧ Owner log r.name then .CNAME_OTHER
      else if r.type = .DNAME ∧ HasType log r.name .DNAME then .DNAME_MULTIPLE
      else .SUCCESS)
    (ho : o = if Duplicate log r then some ("Duplicate Record".toList, [])
      else if r.type = .CNAME ∧ HasType log r.name .CNAME then some ("MULTIPLE CNAMEs".toList, firstAt log r.name)
      else if r.type = .CNAME ∧ Owner log r.name ∨ HasType log r.name .CNAME then some ("CNAME AND OTHER TYPES".toList, firstAt log r.name)
      else if r.type = .DNAME ∧ HasType log r.name .DNAME then some ("MULTIPLE DNAMEs".toList, firstAt log r.name)
      else none) :
    (c = .CNAME_MULTIPLE ∧ o = some ("MULTIPLE CNAMEs".toList, firstAt log r.name)) ∨
    (c = .CNAME_OTHER ∧ o = some ("CNAME AND OTHER TYPES".toList, firstAt log r.name)) ∨
    (c = .DNAME_MULTIPLE ∧ o = some ("MULTIPLE DNAMEs".toList, firstAt log r.name)) := by
  rw [if_neg hd] at hc ho
  by_cases h5 : HasType log r.name .CNAME
  · rw [if_pos h5] at hc
    by_cases h6 : r.type = .CNAME
    · rw [if_pos h6] at hc
      rw [if_pos ⟨h6, h5⟩] at ho
      exact .inl ⟨hc, ho⟩
    · rw [if_neg h6] at hc
      rw [if_neg (fun hh => h6 hh.1), if_pos (.inr h5)] at ho
      exact .inr (.inl ⟨hc, ho⟩)
  · rw [if_neg h5] at hc
    rw [if_neg (fun hh => h5 hh.2)] at ho
    by_cases h6 : r.type = .CNAME ∧ Owner log r.name
    · rw [if_pos h6] at hc
      rw [if_pos (.inl h6)] at ho
      exact .inr (.inl ⟨hc, ho⟩)
    · rw [if_neg h6] at hc
      rw [if_neg (by rintro (hh | hh); exacts [h6 hh, h5 hh])] at ho
      by_cases h7 : r.type = .DNAME ∧ HasType log r.name .DNAME
      · rw [if_pos h7] at hc ho
        exact .inr (.inr ⟨hc, ho⟩)
      · exact absurd ⟨hd, h5, h6, h7⟩ ha

theorem typeKey_eq {t : RRType} (h : t ≠ .N) : typeKey t = typeText t := by
  cases t <;> first | exact absurd rfl h | rfl

theorem keptKeys_eq {r : RR} (h : r.type ≠ .N) : keptKeys r = typeText r.type :: (if OwnsWildcard r then ["Wildcard".toList] else []) := by
  unfold keptKeys
  rw [typeKey_eq h]
  congr 1
  by_cases hw : OwnsWildcard r
  · rw [if_pos hw]
    obtain ⟨m, e⟩ := hw
    rw [e]
    simp
  · rw [if_neg hw, if_neg]
    intro e
    exact hw (List.getLast?_eq_some_iff.mp e)

/-- What happens to a record offered to a zone: it aborts the run, is kept, or is refused with a report. -/
theorem addRR_judged {thr : Nat} {st : PState} {names : List Name} {log : List RR} (hrep : st.zone.Rep names log) (hsup : Supported log) {r : RR}
    (hN : r.type ≠ .N) :
    (Orphan log r → addRR thr st r = .exit) ∧
    (¬ Orphan log r → ∃ st', addRR thr st r = .ok st' ∧ st'.rrsParsed = st.rrsParsed + 1 ∧
      st'.issues = st.issues ++ (if st.lint then reportOn log st.line r else []) ∧
      (refusal log r = none ∧ st'.zone = (st.zone.addRecord thr r).1 ∧ (st.zone.addRecord thr r).2.1 = .SUCCESS ∧
          (∃ v, (st.zone.addRecord thr r).2.2 = some v ∧ st'.lg = st.lg.addRecord thr r st'.zone.id v) ∨
       refusal log r ≠ none ∧ st'.zone = st.zone ∧ st'.lg = st.lg ∨
       refusal log r ≠ none ∧ Short r.name ∧ (Pointing r → Short (stringToLabels r.rdata)) ∧ Belongs log r ∧ ¬ Admissible log r ∧
          st'.zone = (st.zone.addRecord thr r).1 ∧ st'.lg = st.lg) ∧ st'.counts = st.counts ++ counters log r) := by
  unfold addRR
  dsimp only
  by_cases h1 : Short r.name
  · rw [if_neg (by simpa using (short_iff _).mpr h1)]
    by_cases h2 : Pointing r ∧ ¬ Short (stringToLabels r.rdata)
    · have hb : (decide (r.type = .NS ∨ r.type = .CNAME ∨ r.type = .DNAME) && !(lengthCheck (stringToLabels r.rdata)).1) = true := by
        rw [Bool.and_eq_true, decide_eq_true_eq]
        refine ⟨h2.1, ?_⟩
        have := fun hh => h2.2 ((short_iff _).mp hh)
        simpa using this
      have hr : refusal log r = some (tooLong (stringToLabels r.rdata) " - length exceedes 63" "Target domain length exceedes max length (255)", []) := by
        unfold refusal; rw [if_neg (by simpa using h1), if_pos h2]
      refine ⟨fun ho => absurd (ho.2.1 h2.1) h2.2, fun _ => ?_⟩
      rw [if_pos hb, lengthIssue_eq _ hN, addIssue_eq]
      refine ⟨_, rfl, rfl, ?_, .inr (.inl ⟨by simp [hr], rfl, rfl⟩), ?_⟩
      · unfold reportOn
        rw [hr]; rfl
      · have hk : counters log r = [tooLongKey (stringToLabels r.rdata)] := by
          unfold counters
          rw [if_neg (by simpa using h1), if_pos h2]
        rw [hk]; rfl
    · have h2' : Pointing r → Short (stringToLabels r.rdata) := by
        intro hp
        by_contra hs
        exact h2 ⟨hp, hs⟩
      have hb : ¬ (decide (r.type = .NS ∨ r.type = .CNAME ∨ r.type = .DNAME) && !(lengthCheck (stringToLabels r.rdata)).1) = true := by
        rw [Bool.and_eq_true, decide_eq_true_eq]
        rintro ⟨a, b⟩
        rw [(short_iff _).mpr (h2' a)] at b
        cases b
      rw [if_neg hb]
      by_cases ho : soaOwner log = [] ∧ r.type ≠ .SOA
      · have hm : st.zone.membership r = .exit := by
          unfold Zone.membership
          rw [hrep.origin, if_neg (by simp [ho.2]), if_pos (by simp [ho.1])]
        refine ⟨fun _ => ?_, fun hn => absurd ⟨h1, h2', ho⟩ hn⟩
        rw [hm]; rfl
      · have hmb : st.zone.membership r = .ok (decide (Belongs log r)) := by
          by_cases hbl : Belongs log r
          · rw [(Zone.membership_iff hrep.origin r).mpr hbl, decide_eq_true hbl]
          · have hne := fun hh => hbl ((Zone.membership_iff hrep.origin r).mp hh)
            have hs0 : soaOwner log ≠ [] := by
              intro hs
              by_cases ht : r.type = .SOA
              · exact hbl (.inl ⟨ht, hs⟩)
              · exact ho ⟨hs, ht⟩
            unfold Zone.membership at hne ⊢
            rw [hrep.origin] at hne ⊢
            have hl : (soaOwner log).length ≠ 0 := by rwa [Ne, List.length_eq_zero_iff]
            rw [if_neg (by simp [hl]), if_neg hl] at hne ⊢
            rw [decide_eq_false hbl]
            cases hc : subDomainCheck (soaOwner log) r.name with
            | false => rfl
            | true => exact absurd (congrArg Res.ok hc) hne
        refine ⟨fun hh => absurd ⟨hh.2.2.1, hh.2.2.2⟩ ho, fun _ => ?_⟩
        rw [hmb, Res.ok_bind]
        by_cases hbl : Belongs log r
        · rw [if_pos (decide_eq_true hbl)]
          obtain ⟨names', v, r1, r2, r3, r4, r5⟩ := hrep.add thr r
          have hcode := addCheck_eq hrep.excl r
          rw [← r2] at hcode
          have hadm : (st.zone.addRecord thr r).2.1 = .SUCCESS ↔ Admissible log r := by rw [r2, admissible_iff]
          by_cases ha : Admissible log r
          · have hs := hadm.mpr ha
            rw [hs, if_neg (by simp)] at r5
            rw [hs, r5]
            have hr : refusal log r = none := (refusal_none _ _).mpr ⟨h1, h2', hbl, ha⟩
            refine ⟨_, rfl, rfl, ?_, .inl ⟨hr, rfl, rfl, v, rfl, rfl⟩, ?_⟩
            · unfold reportOn
              rw [hr]; simp
            · unfold counters
              rw [if_neg (by simpa using h1), if_neg h2, if_neg (by simpa using hbl), if_neg ha.1, if_neg (by simpa using ha), keptKeys_eq hN]
          · have hs := fun hh => ha (hadm.mp hh)
            have hr : refusal log r ≠ none := fun hh => ha ((refusal_none _ _).mp hh).2.2.2
            have hr' : refusal log r = if Duplicate log r then some ("Duplicate Record".toList, [])
                else if r.type = .CNAME ∧ HasType log r.name .CNAME then some ("MULTIPLE CNAMEs".toList, firstAt log r.name)
                else if r.type = .CNAME ∧ Owner log r.name ∨ HasType log r.name .CNAME then some ("CNAME AND OTHER TYPES".toList, firstAt log r.name)
                else if r.type = .DNAME ∧ HasType log r.name .DNAME then some ("MULTIPLE DNAMEs".toList, firstAt log r.name)
                else none := by
              unfold refusal; rw [if_neg (by simpa using h1), if_neg h2, if_neg (by simpa using hbl)]
            by_cases hd : Duplicate log r
            · rw [if_pos hd] at hcode hr'
              rw [hcode]
              rw [hcode, if_pos rfl] at r5
              rw [r5]
              dsimp only
              unfold rejected
              dsimp only
              rw [toStr_supported hN, Res.ok_bind, addIssue_eq]
              refine ⟨_, rfl, rfl, ?_, .inr (.inr ⟨hr, h1, h2', hbl, ha, rfl, rfl⟩), ?_⟩
              · unfold reportOn
                rw [hr']; rfl
              · have hk : counters log r = ["Duplicate-Records".toList] := by
                  unfold counters
                  rw [if_neg (by simpa using h1), if_neg h2, if_neg (by simpa using hbl), if_pos hd]
                rw [hk]; rfl
            · have hown : Owner log r.name := by
                by_contra hno
                exact ha ⟨hd, fun ⟨x, a, b, _⟩ => hno ⟨x, a, b⟩, fun hh => hno hh.2, fun ⟨_, x, a, b, _⟩ => hno ⟨x, a, b⟩⟩
              have hne : recordsAt log r.name ≠ [] := by
                obtain ⟨x, a, b⟩ := hown
                exact List.ne_nil_of_mem (mem_recordsAt.mpr ⟨a, b⟩)
              obtain ⟨first, more, hf⟩ := List.exists_cons_of_ne_nil hne
              have hfst : first.type ≠ .N := hsup first (mem_recordsAt.mp (by rw [hf]; exact List.mem_cons_self : first ∈ recordsAt log r.name)).1
              have hfa : firstAt log r.name = showRecord first := by unfold firstAt; rw [hf]; rfl
              have hdat : names'[v]? = some r.name → (st.zone.addRecord thr r).1.rrsAt v = first :: more := by
                intro r3
                have := r1.data v _ r3
                rwa [if_neg ha, hf] at this
              have hrej := fun c h1 h2 => rejected_eq (st := { st with rrsParsed := st.rrsParsed + 1, zone := (st.zone.addRecord thr r).1 }) (v := v) (c := c)
                (hdat r3) hfst hN h1 h2
              rcases conflict_cases hd ha hcode hr' with ⟨e1, e2⟩ | ⟨e1, e2⟩ | ⟨e1, e2⟩
              all_goals
                rw [e1, if_neg (by simp)] at r5
                rw [e1, r5]
                dsimp only
                rw [hrej _ (by simp) (by simp), addIssue_eq]
                refine ⟨_, rfl, rfl, ?_, .inr (.inr ⟨hr, h1, h2', hbl, ha, rfl, rfl⟩), ?_⟩
                · unfold reportOn
                  rw [e2, hfa]
                  rfl
                · have hk : counters log r = ["CNAME/DNAME Errors".toList] := by
                    unfold counters
                    rw [if_neg (by simpa using h1), if_neg h2, if_neg (by simpa using hbl), if_neg hd, if_pos (by simpa using ha)]
                  rw [hk]; rfl
        · rw [if_neg (by simpa using hbl), toStr_supported hN, Res.ok_bind, addIssue_eq]
          have hr : refusal log r = some ("OUT OF ZONE RECORD".toList, []) := by
            unfold refusal; rw [if_neg (by simpa using h1), if_neg h2, if_pos hbl]
          refine ⟨_, rfl, rfl, ?_, .inr (.inl ⟨by simp [hr], rfl, rfl⟩), ?_⟩
          · unfold reportOn
            rw [hr]; rfl
          · have hk : counters log r = ["Out-of-Zone-Records".toList] := by
              unfold counters
              rw [if_neg (by simpa using h1), if_neg h2, if_pos hbl]
            rw [hk]; rfl
  · have hr : refusal log r = some (tooLong r.name " - length exceedes max length (63)" "Domain length exceedes max length (255)", []) := by
      unfold refusal; rw [if_pos h1]
    refine ⟨fun ho => absurd ho.1 h1, fun _ => ?_⟩
    rw [if_pos (by simpa using fun hh => h1 ((short_iff _).mp hh)), lengthIssue_eq _ hN, addIssue_eq]
    refine ⟨_, rfl, rfl, ?_, .inr (.inl ⟨by simp [hr], rfl, rfl⟩), ?_⟩
    · unfold reportOn
      rw [hr]; rfl
    · have hk : counters log r = [tooLongKey r.name] := by
        unfold counters
        rw [if_pos h1]
      rw [hk]; rfl

theorem keepFrom_cons (log : List RR) (r : RR) (rs : List RR) :
    keepFrom log (r :: rs) = keepFrom (if refusal log r = none then log ++ [r] else log) rs := rfl

theorem reportsFrom_cons (log : List RR) (n : Nat) (r : RR) (rs : List (Nat × RR)) :
    reportsFrom log ((n, r) :: rs) = reportOn log n r ++ reportsFrom (if refusal log r = none then log ++ [r] else log) rs := by
  unfold reportOn
  rw [reportsFrom]
  cases h : refusal log r with
  | none => simp
  | some p => simp

/-- Offering a record to a zone. -/
theorem LInv.judged {thr : Nat} {lg0 : LGraph} {id : Nat} {st : PState} {rs : List RR} {es : List (RR × Nat × Nat)} {r : RR}
    (h : LInv True thr lg0 id st rs es) (hns : r.type = .NS → r.rdata ≠ []) (hN : r.type ≠ .N) :
    (Orphan (stored rs) r → addRR thr st r = .exit) ∧
    (¬ Orphan (stored rs) r → ∃ st' rs' es', addRR thr st r = .ok st' ∧ LInv True thr lg0 id st' rs' es' ∧
      stored rs' = (if refusal (stored rs) r = none then stored rs ++ [r] else stored rs) ∧ st'.rrsParsed = st.rrsParsed + 1 ∧
      st'.issues = st.issues ++ (if st.lint then reportOn (stored rs) st.line r else []) ∧ st'.counts = st.counts ++ counters (stored rs) r) := by
  obtain ⟨names, hrep, -⟩ := h.vertex
  obtain ⟨h1, h2⟩ := addRR_judged (thr := thr) hrep (fun x hx => h.supp trivial x (stored_subset rs x hx)) hN
  refine ⟨h1, fun ho => ?_⟩
  obtain ⟨st', e1, e2, e3, e4, e5⟩ := h2 ho
  rcases e4 with ⟨a1, a2, a3, a4⟩ | ⟨a1, a2, a3⟩ | ⟨a1, a2, a3, a4, a5, a6, a7⟩
  · obtain ⟨b1, b2, b3, b4⟩ := (refusal_none _ _).mp a1
    obtain ⟨es', hl⟩ := h.offered (st' := st') hns (fun _ => hN) b1 b2 b3 a2 (.inl ⟨a3, a4⟩)
    refine ⟨st', rs ++ [r], es', e1, hl, ?_, e2, e3, e5⟩
    rw [stored_append, if_pos b4, if_pos a1]
  · exact ⟨st', rs, es, e1, h.same a2 a3, by rw [if_neg a1], e2, e3, e5⟩
  · have hc : (st.zone.addRecord thr r).2.1 ≠ .SUCCESS := by
      obtain ⟨_, _, _, r2, _⟩ := hrep.add thr r
      rw [r2]
      exact fun hh => a5 ((admissible_iff _ _).mpr hh)
    obtain ⟨es', hl⟩ := h.offered (st' := st') hns (fun _ => hN) a2 a3 a4 a6 (.inr ⟨hc, a7⟩)
    refine ⟨st', rs ++ [r], es', e1, hl, ?_, e2, e3, e5⟩
    rw [stored_append, if_neg a5, if_neg a1]

theorem record_ns (l : Line) (d : Defaults) (h : (l.record d).type = .NS) : (l.record d).rdata ≠ [] := by
  have ht : toUpper l.type = "NS".toList := by
    have : stringToType (toUpper l.type) = .NS := h
    obtain ⟨m, h1, h2⟩ := stringToType_mnemonic _ _ this (by simp)
    cases h1
    exact h2
  unfold Line.record
  dsimp only
  rw [ht, if_pos (by decide)]
  unfold absolute toLower
  intro hc
  rw [List.map_eq_nil_iff] at hc
  split at hc
  · rename_i hl
    rw [hc] at hl; cases hl
  · simp at hc

/-- No record is an orphan, when the zone holds `log` to begin with. -/
def NoOrphanFrom (log : List RR) : List (Nat × RR) → Prop
  | [] => True
  | x :: xs => ¬ Orphan log x.2 ∧ NoOrphanFrom (if refusal log x.2 = none then log ++ [x.2] else log) xs

theorem noOrphanFrom_iff (log : List RR) (xs : List (Nat × RR)) :
    NoOrphanFrom log xs ↔ ∀ pre x post, xs = pre ++ x :: post → ¬ Orphan (keepFrom log (pre.map (·.2))) x.2 := by
  induction xs generalizing log with
  | nil => simp [NoOrphanFrom]
  | cons y ys ih =>
    rw [NoOrphanFrom, ih]
    constructor
    · rintro ⟨h1, h2⟩ pre x post e
      cases pre with
      | nil => cases e; exact h1
      | cons z pre =>
        injection e with e1 e2
        subst e1
        exact h2 pre x post e2
    · intro h
      refine ⟨h [] y ys rfl, fun pre x post e => ?_⟩
      exact h (y :: pre) x post (by rw [e]; rfl)

theorem isTypeField_false {f : Str} (h : ¬ LooksLikeType f) : isTypeField f = false := by
  cases hc : isTypeField f with
  | false => rfl
  | true => exact absurd ((looksLike_iff f).mp hc) h

theorem silent_end (thr : Nat) (st : PState) (ws : List Str) (hne : ws ≠ []) (h1 : ∀ w ∈ ws.take 1, w ∉ ["$ORIGIN", "$INCLUDE", "$TTL", "@"].map String.toList)
    (h2 : ∀ w ∈ ws.take 4, ¬ LooksLikeType w) : endOfRecord thr { st with cur := ws } = .ok ({ st with cur := [] }, true) := by
  obtain ⟨w, rest, rfl⟩ := List.exists_cons_of_ne_nil hne
  have hn := h1 w (by simp)
  simp only [List.map_cons, List.map_nil, List.mem_cons, List.not_mem_nil, or_false, not_or] at hn
  unfold endOfRecord
  dsimp only
  rw [if_neg hn.1, if_neg hn.2.1, if_neg hn.2.2.1, if_neg hn.2.2.2]
  unfold processRecord typeIndex
  dsimp only
  cases hi : (w :: rest).findIdx? isTypeField with
  | none => rfl
  | some i =>
    dsimp only
    rw [List.findIdx?_eq_some_iff_getElem] at hi
    obtain ⟨hl, hp, -⟩ := hi
    by_cases hlt : i > 3
    · rw [if_pos hlt]; rfl
    · exfalso
      have hm : (w :: rest)[i] ∈ (w :: rest).take 4 := by
        rw [List.mem_take_iff_getElem]
        exact ⟨i, by omega, rfl⟩
      rw [isTypeField_false (h2 _ hm)] at hp
      cases hp

/-- A line that offers a record. -/
theorem offering_end (thr : Nat) (st : PState) (l : Line) (h : l.Standard) (e : Entry) (he : e.line st.defaults = some l) (hs : e.Standard st.defaults) :
    ∃ fs, endOfRecord thr { st with cur := e.words } =
      addRR thr (withDefaults { st with cur := fs } (l.next st.defaults)
        (st.foundSOA || decide (l.owner ≠ [] ∧ toUpper l.type = "SOA".toList))) (l.record st.defaults) >>= fun st' =>
      .ok ({ st' with cur := [] }, true) := by
  cases e with
  | silent ws => cases he
  | origin s => cases he
  | ttl t => cases he
  | record l' =>
    injection he with he
    subst he
    refine ⟨l'.owner :: (l'.middle ++ l'.type :: l'.rdata), ?_⟩
    have hn := h.notControl
    simp only [List.map_cons, List.map_nil, List.mem_cons, List.not_mem_nil, or_false, not_or] at hn
    unfold Entry.words Line.afterOwner endOfRecord
    dsimp only
    rw [if_neg hn.1, if_neg hn.2.1, if_neg hn.2.2.1, if_neg hn.2.2.2, line_process thr l' h st]
    rcases addRR thr _ (l'.record st.defaults) with x | _ | _ | _ | _ <;> rfl
  | atSign l' =>
    obtain ⟨hsf, -⟩ := hs
    have hsf : st.suffix ≠ [] := hsf
    injection he with he
    have ho : l.owner = st.suffix := by rw [← he]; rfl
    refine ⟨st.suffix :: (l.middle ++ l.type :: l.rdata), ?_⟩
    have hw : l'.afterOwner = l.middle ++ l.type :: l.rdata := by rw [← he]; rfl
    unfold Entry.words endOfRecord
    dsimp only
    rw [if_neg (by decide), if_neg (by decide), if_neg (by decide), if_pos rfl, if_pos (List.length_pos_iff.mpr hsf), hw]
    have hne : l.owner ≠ [] := by rw [ho]; exact hsf
    have := line_process thr l h { st with defName := stringToLabels st.suffix }
    rw [ho] at this
    change processRecord thr { st with defName := stringToLabels st.suffix, cur := _ } = _ at this
    rw [this, ho]
    have en : l.next { st.defaults with owner := stringToLabels st.suffix } = l.next st.defaults := by
      unfold Line.next Line.ownerText Line.suffix Line.ttlValue
      simp [hne]
    have er : l.record { st.defaults with owner := stringToLabels st.suffix } = l.record st.defaults := by
      unfold Line.record Line.ownerText Line.suffix Line.ttlValue
      simp [hne]
    change (addRR thr (withDefaults { st with cur := _ , defName := stringToLabels st.suffix } (l.next { st.defaults with owner := stringToLabels st.suffix }) _) (l.record { st.defaults with owner := stringToLabels st.suffix }) >>= _) >>= _ = _
    rw [en, er]
    unfold withDefaults
    dsimp only
    rcases addRR thr _ (l.record st.defaults) with x | _ | _ | _ | _ <;> rfl

theorem words_ne {d : Defaults} {e : Entry} {l : Line} (h : e.line d = some l) : e.words ≠ [] := by
  cases e with
  | silent ws => cases h
  | origin s => cases h
  | ttl t => cases h
  | record l => exact List.cons_ne_nil _ _
  | atSign l => exact List.cons_ne_nil _ _

theorem line_standard {d : Defaults} {e : Entry} {l : Line} (h : e.line d = some l) (hs : e.Standard d) : l.Standard := by
  cases e with
  | silent ws => cases h
  | origin s => cases h
  | ttl t => cases h
  | record l' => injection h with h; rw [← h]; exact hs
  | atSign l' => injection h with h; rw [← h]; exact hs.2

theorem line_next {d : Defaults} {e : Entry} {l : Line} (h : e.line d = some l) : e.next d = l.next d := by
  cases e with
  | silent ws => cases h
  | origin s => cases h
  | ttl t => cases h
  | record l' => injection h with h; rw [← h]; rfl
  | atSign l' => injection h with h; rw [← h]; rfl

theorem line_soa {d : Defaults} {e : Entry} {l : Line} (h : e.line d = some l) (hs : e.Standard d) :
    (l.owner ≠ [] ∧ toUpper l.type = "SOA".toList) ↔ e.namesSOA := by
  cases e with
  | silent ws => cases h
  | origin s => cases h
  | ttl t => cases h
  | record l' => injection h with h; rw [← h]; exact Iff.rfl
  | atSign l' =>
    injection h with h; rw [← h]
    exact ⟨fun hh => hh.2, fun hh => ⟨hs.1, hh⟩⟩

/-- A line that offers no record. -/
theorem quiet_end (thr : Nat) (st : PState) (e : Entry) (he : e.line st.defaults = none) (hs : e.Standard st.defaults) (hw : e.words ≠ []) :
    ∃ st', endOfRecord thr { st with cur := e.words } = .ok (st', true) ∧ st'.defaults = e.next st.defaults ∧ st'.zone = st.zone ∧ st'.lg = st.lg ∧
      st'.line = st.line ∧ st'.lint = st.lint ∧ st'.issues = st.issues ∧ st'.foundSOA = st.foundSOA ∧ st'.rrsParsed = st.rrsParsed ∧
      st'.counts = st.counts := by
  cases e with
  | silent ws => exact ⟨_, silent_end thr st ws hw hs.1 hs.2, rfl, rfl, rfl, rfl, rfl, rfl, rfl, rfl, rfl⟩
  | origin s => exact ⟨_, rfl, rfl, rfl, rfl, rfl, rfl, rfl, rfl, rfl, rfl⟩
  | ttl t =>
    obtain ⟨h1, h2⟩ := hs
    refine ⟨{ st with cur := [], defTtl := asTTL (numeralValue t) }, ?_, rfl, rfl, rfl, rfl, rfl, rfl, rfl, rfl, rfl⟩
    unfold Entry.words endOfRecord
    dsimp only
    rw [if_neg (by decide), if_neg (by decide), if_pos rfl, stoi_numeral h1 h2, Res.ok_bind, toU32_fitting h2]
  | record l => cases he
  | atSign l => cases he

/-- One line, its end counted. -/
def lineBody (thr : Nat) (st : PState) (l : List Tok) (ls : List (List Tok)) : Res (PState × Bool) :=
  if fields l = [] then processLines thr st ls
  else do
    let r ← endOfRecord thr { st with cur := fields l }
    if r.2 then processLines thr r.1 ls else .ok r

theorem processLines_cons (thr : Nat) (st : PState) (l : List Tok) (ls : List (List Tok)) :
    processLines thr st (l :: ls) = lineBody thr { st with line := st.line + eols l + 1 } l ls := rfl

/-- The lines of a file of standard form. -/
theorem processLines_entries {thr : Nat} {lg0 : LGraph} {id : Nat} (ls : List (List Tok)) (es : List (Entry × Nat))
    (h : List.Forall₂ (fun l e => fields l = e.1.words ∧ eols l + 1 = e.2) ls es) :
    ∀ (st : PState) (rs : List RR) (xs : List (RR × Nat × Nat)), LInv True thr lg0 id st rs xs → st.cur = [] → AllStandard st.defaults (es.map (·.1)) →
      (∀ x ∈ offers st.defaults st.line es, x.2.type ≠ .N) →
      (¬ NoOrphanFrom (stored rs) (offers st.defaults st.line es) → processLines thr st ls = .exit) ∧
      (NoOrphanFrom (stored rs) (offers st.defaults st.line es) → ∃ st' rs' xs', processLines thr st ls = .ok (st', true) ∧
        LInv True thr lg0 id st' rs' xs' ∧ stored rs' = keepFrom (stored rs) ((offers st.defaults st.line es).map (·.2)) ∧
        st'.issues = st.issues ++ (if st.lint then reportsFrom (stored rs) (offers st.defaults st.line es) else []) ∧
        st'.foundSOA = (st.foundSOA || decide (∃ e ∈ es.map (·.1), e.namesSOA)) ∧
        st'.rrsParsed = st.rrsParsed + (offers st.defaults st.line es).length ∧
        st'.counts = st.counts ++ countersFrom (stored rs) (offers st.defaults st.line es)) := by
  induction h with
  | nil =>
    intro st rs xs hl _ _ _
    refine ⟨fun hn => absurd trivial hn, fun _ => ⟨st, rs, xs, rfl, hl, rfl, ?_, ?_, rfl, (List.append_nil _).symm⟩⟩
    · simp [offers, reportsFrom]
    · simp
  | @cons l ek ls es hw hrest ih =>
    obtain ⟨e, k⟩ := ek
    obtain ⟨hw, hk⟩ := hw
    dsimp only at hw hk
    intro st rs xs hl hcur hs hN
    obtain ⟨hs1, hs2⟩ : e.Standard st.defaults ∧ AllStandard (e.next st.defaults) (es.map (fun x : Entry × Nat => x.1)) := hs
    have hline : st.line + eols l + 1 = st.line + k := by omega
    -- the state at the end of the line
    have key : ∀ st1 : PState, st1 = { st with line := st.line + eols l + 1 } → st1.defaults = st.defaults ∧ st1.line = st.line + k ∧ LInv True thr lg0 id st1 rs xs := by
      rintro st1 rfl
      exact ⟨rfl, hline, hl.same rfl rfl⟩
    rw [processLines_cons]
    unfold lineBody
    obtain ⟨k1, k2, k3⟩ := key _ rfl
    generalize hg : ({ st with line := st.line + eols l + 1 } : PState) = st1 at *
    have g1 : st1.lint = st.lint := by rw [← hg]
    have g2 : st1.issues = st.issues := by rw [← hg]
    have g3 : st1.foundSOA = st.foundSOA := by rw [← hg]
    have g4 : st1.rrsParsed = st.rrsParsed := by rw [← hg]
    have g5 : st1.counts = st.counts := by rw [← hg]
    have hcur1 : st1.cur = [] := by rw [← hg]; exact hcur
    cases he : e.line st.defaults with
    | none =>
      have hof : offers st.defaults st.line ((e, k) :: es) = offers (e.next st.defaults) (st.line + k) es := by
        rw [offers, he]; rfl
      have hns : ¬ e.namesSOA := by
        cases e with
        | silent ws => exact fun h => h
        | origin s => exact fun h => h
        | ttl t => exact fun h => h
        | record l => cases he
        | atSign l => cases he
      have hany : decide (∃ e' ∈ ((e, k) :: es).map (·.1), e'.namesSOA) = decide (∃ e' ∈ es.map (·.1), e'.namesSOA) := by
        simp [hns]
      rw [hof] at hN ⊢
      rw [hany]
      by_cases hf : fields l = []
      · rw [if_pos hf]
        have hnx : e.next st.defaults = st.defaults := by
          rw [hw] at hf
          cases e with
          | silent ws => rfl
          | origin s => cases hf
          | ttl t => cases hf
          | record l => cases he
          | atSign l => cases he
        rw [hnx] at hs2 hN ⊢
        have := ih st1 rs xs k3 hcur1 (by rw [k1]; exact hs2) (by rw [k1, k2]; exact hN)
        rw [k1, k2, g1, g2, g3, g4, g5] at this
        exact this
      · rw [if_neg hf]
        obtain ⟨st', e1, e2, e3, e4, e5, e6, e7, e8, e9, e10⟩ := quiet_end thr st1 e (by rw [k1]; exact he) (by rw [k1]; exact hs1) (by rw [← hw]; exact hf)
        rw [hw, e1, Res.ok_bind, if_pos rfl]
        have := ih st' rs xs (k3.same e3 e4) (endOfRecord_keeps e1).2 (by rw [e2, k1]; exact hs2) (by rw [e2, k1, e5, k2]; exact hN)
        rw [e2, k1, e5, k2, e6, g1, e7, g2, e8, g3, e9, g4, e10, g5] at this
        exact this
    | some ln =>
      have hof : offers st.defaults st.line ((e, k) :: es) =
          (st.line + k, ln.record st.defaults) :: offers (e.next st.defaults) (st.line + k) es := by
        rw [offers, he]; rfl
      rw [hof] at hN ⊢
      rw [if_neg (by rw [hw]; exact words_ne he), hw]
      have hstd := line_standard he hs1
      obtain ⟨fs, heq⟩ := offering_end thr st1 ln hstd e (by rw [k1]; exact he) (by rw [k1]; exact hs1)
      rw [heq, k1]
      generalize hst2 : withDefaults { st1 with cur := fs } (ln.next st.defaults) (st1.foundSOA || decide (ln.owner ≠ [] ∧ toUpper ln.type = "SOA".toList)) = st2
      have w1 : st2.defaults = ln.next st.defaults := by rw [← hst2]; rfl
      have w2 : st2.line = st.line + k := by rw [← hst2, ← k2]; rfl
      have w3 : st2.lint = st.lint := by rw [← hst2, ← g1]; rfl
      have w4 : st2.issues = st.issues := by rw [← hst2, ← g2]; rfl
      have w5 : st2.foundSOA = (st.foundSOA || decide (ln.owner ≠ [] ∧ toUpper ln.type = "SOA".toList)) := by rw [← hst2, ← g3]; rfl
      have w6 : st2.rrsParsed = st.rrsParsed := by rw [← hst2, ← g4]; rfl
      have w8 : st2.counts = st.counts := by rw [← hst2, ← g5]; rfl
      have w7 : LInv True thr lg0 id st2 rs xs := k3.same (by rw [← hst2]; rfl) (by rw [← hst2]; rfl)
      obtain ⟨j1, j2⟩ := w7.judged (record_ns ln st.defaults) (hN _ List.mem_cons_self)
      by_cases ho : Orphan (stored rs) (ln.record st.defaults)
      · refine ⟨fun _ => ?_, fun hn => absurd ho hn.1⟩
        rw [j1 ho]; rfl
      · obtain ⟨st3, rs3, xs3, a1, a2, a3, a4, a5, a6⟩ := j2 ho
        obtain ⟨-, c2, c3, c4, c5, c6, c7, c8⟩ := addRR_keeps a1
        rw [a1, Res.ok_bind, Res.ok_bind, if_pos rfl]
        dsimp only
        obtain ⟨st5, h5⟩ : ∃ s, s = ({ st3 with cur := [] } : PState) := ⟨_, rfl⟩
        rw [← h5]
        have hd3 : st5.defaults = e.next st.defaults := by
          rw [line_next he, ← w1, h5]
          show (⟨st3.suffix, st3.defName, st3.defTtl⟩ : Defaults) = ⟨st2.suffix, st2.defName, st2.defTtl⟩
          rw [c3, c4, c5]
        have hl3 : st5.line = st.line + k := by rw [← w2, h5]; exact c7
        have := ih st5 rs3 xs3 (a2.same (by rw [h5]) (by rw [h5])) (by rw [h5]) (by rw [hd3]; exact hs2)
          (by rw [hd3, hl3]; exact fun x hx => hN x (List.mem_cons_of_mem _ hx))
        rw [hd3, hl3, a3] at this
        obtain ⟨i1, i2⟩ := this
        have v1 : st5.issues = st3.issues := by rw [h5]
        have v2 : st5.lint = st3.lint := by rw [h5]
        have v3 : st5.foundSOA = st3.foundSOA := by rw [h5]
        have v4 : st5.rrsParsed = st3.rrsParsed := by rw [h5]
        have v5 : st5.counts = st3.counts := by rw [h5]
        constructor
        · intro hn
          refine i1 (fun hh => hn ⟨ho, hh⟩)
        · rintro ⟨-, hn⟩
          obtain ⟨st4, rs4, xs4, b1, b2, b3, b4, b5, b6, b7⟩ := i2 hn
          refine ⟨st4, rs4, xs4, b1, b2, ?_, ?_, ?_, ?_, ?_⟩
          · rw [b3, List.map_cons, keepFrom_cons]
          · rw [b4, reportsFrom_cons, v1, v2, a5, c8, w3, w4, w2]
            cases st.lint <;> simp
          · rw [b5, v3, c6, w5, Bool.or_assoc]
            congr 1
            have := line_soa he hs1
            by_cases hsoa : e.namesSOA
            · simp [hsoa, this.mpr hsoa]
            · have hno : ¬ (ln.owner ≠ [] ∧ toUpper ln.type = "SOA".toList) := fun hh => hsoa (this.mp hh)
              rw [decide_eq_false hno]
              simp [hsoa]
          · rw [b6, v4, a4, w6, List.length_cons]
            omega
          · rw [b7, v5, a6, w8, countersFrom, List.append_assoc]

/-- A file of standard lines, run through the parser. -/
theorem run_entries {thr : Nat} {lint : Bool} {lg0 : LGraph} {id : Nat} {contents origin : Str} {es : List (Entry × Nat)} (h : FileSays contents es)
    (hs : AllStandard ⟨origin, [], 0⟩ (es.map (·.1))) (hN : ∀ x ∈ offers ⟨origin, [], 0⟩ 0 es, x.2.type ≠ .N) :
    (¬ NoOrphan (offers ⟨origin, [], 0⟩ 0 es) → run thr { suffix := origin, lg := lg0, zone := Zone.init id, lint := lint } (Lexer.tokens contents) = .exit) ∧
    (NoOrphan (offers ⟨origin, [], 0⟩ 0 es) → ∃ st rs xs, run thr { suffix := origin, lg := lg0, zone := Zone.init id, lint := lint } (Lexer.tokens contents) = .ok st ∧
      LInv True thr lg0 id st rs xs ∧ stored rs = kept (offers ⟨origin, [], 0⟩ 0 es) ∧
      st.issues = (if lint then reportsFrom [] (offers ⟨origin, [], 0⟩ 0 es) else []) ∧ st.foundSOA = decide (HasSOA es) ∧
      st.rrsParsed = (offers ⟨origin, [], 0⟩ 0 es).length ∧ st.counts = countersFrom [] (offers ⟨origin, [], 0⟩ 0 es)) := by
  obtain ⟨ts, ls, tail, h1, h2, h3⟩ := h
  rw [(tokens_iff contents ts).mpr h1]
  obtain ⟨l, q, c, hrun⟩ := run_split thr ts ls tail h2
  have hrun := hrun { suffix := origin, lg := lg0, zone := Zone.init id, lint := lint } rfl rfl
  have key := processLines_entries (thr := thr) (lg0 := lg0) (id := id) ls es h3 { suffix := origin, lg := lg0, zone := Zone.init id, lint := lint } [] []
    (LInv.start True thr lg0 id origin lint) rfl hs hN
  have hno : NoOrphan (offers ⟨origin, [], 0⟩ 0 es) ↔ NoOrphanFrom (stored []) (offers ⟨origin, [], 0⟩ 0 es) := (noOrphanFrom_iff _ _).symm
  rw [hrun]
  constructor
  · intro hn
    rw [key.1 (fun hh => hn (hno.mpr hh))]
    rfl
  · intro hn
    obtain ⟨st', rs, xs, e1, e2, e3, e4, e5, e6, e7⟩ := key.2 (hno.mp hn)
    rw [e1, Res.ok_bind]
    refine ⟨_, rs, xs, rfl, e2.same rfl rfl, e3, ?_, ?_, ?_, ?_⟩
    · exact e4.trans (List.nil_append _)
    · exact e5.trans (Bool.false_or _)
    · exact e6.trans (Nat.zero_add _)
    · exact e7.trans (List.nil_append _)

/-! ### Lines as text -/

theorem words_tokens (ws : List Str) (s rest : Str) (h : WordsText ws s) :
    ∃ toks, Lexer.tokens (s ++ '\n' :: rest) = toks ++ ⟨.EOL, ['\n']⟩ :: Lexer.tokens rest ∧ Flat toks ∧ fields toks = ws := by
  obtain ⟨body, e, rfl, he, hb⟩ := h
  obtain ⟨ends, t1, f1, w1, b1⟩ : ∃ ends, Lexer.tokens (e ++ '\n' :: rest) = ends ++ ⟨.EOL, ['\n']⟩ :: Lexer.tokens rest ∧ Flat ends ∧
      ends.filter isWord = [] ∧ ends.find? (fun t => isWord t || t.id = .WHITESPACE) = none := by
    rcases he with rfl | ⟨c, rfl, hc⟩
    · exact ⟨[], tokens_eol rest, (by intro t ht; cases ht), rfl, rfl⟩
    · obtain ⟨k, hk, e⟩ := tokens_comment c rest hc
      refine ⟨[⟨k, ';' :: c⟩], by rw [e, tokens_eol]; rfl, ?_, ?_, ?_⟩
      · intro t ht
        rw [List.mem_singleton.mp ht]
        rcases hk with rfl | rfl <;> simp
      · rcases hk with rfl | rfl <;> simp [isWord]
      · rcases hk with rfl | rfl <;> simp [isWord]
  have hall : EndsAll (e ++ '\n' :: rest) := by
    rcases he with rfl | ⟨c, rfl, hc⟩
    · exact ⟨_, _, rfl, .inr rfl⟩
    · exact ⟨_, _, rfl, .inl rfl⟩
  rcases hb with hw | ⟨lead, b, more, rfl, rfl, hl1, hl2, hw⟩
  · obtain ⟨toks, t2, f2, w2, h3⟩ := written_tokens hw _ hall
    refine ⟨toks ++ ends, ?_, f2.append f1, ?_⟩
    · rw [List.append_assoc, t2, t1, List.append_assoc]
    · rcases h3 with rfl | ⟨t, ts, rfl, ht⟩
      · rw [List.nil_append]
        unfold fields
        rw [b1, w1, ← w2]; rfl
      · rw [List.cons_append, fields_cons_word _ _ ht, ← List.cons_append, List.filter_append, w1, List.append_nil, w2]
  · obtain ⟨toks, t2, f2, w2, -⟩ := written_tokens hw _ hall
    have heb : ∀ c cs, b ++ (e ++ '\n' :: rest) = c :: cs → c ≠ ' ' ∧ c ≠ '\t' := by
      intro c cs e'
      by_cases hm : more = []
      · subst hm
        cases hw
        exact hall.blank c cs e'
      · obtain ⟨d, s', rfl, hd⟩ := written_head hw hm
        injection e' with e'
        subst e'
        constructor <;> rintro rfl <;> exact absurd hd (by decide)
    refine ⟨⟨.WHITESPACE, lead⟩ :: (toks ++ ends), ?_, ?_, ?_⟩
    · rw [List.append_assoc, List.append_assoc, tokens_blank lead _ hl1 hl2 heb, t2, t1]
      simp
    · intro t ht
      rcases List.mem_cons.mp ht with rfl | ht
      · exact ⟨by simp, by simp, by simp⟩
      · exact (f2.append f1) t ht
    · unfold fields
      rw [List.find?_cons_of_pos (by simp)]
      dsimp only
      rw [if_pos rfl, List.filter_cons_of_neg (by simp [isWord]), List.filter_append, w1, List.append_nil, w2]
      rfl

end Groot
