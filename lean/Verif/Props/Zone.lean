import Verif.Lemmas.Codes
import Verif.Lemmas.Show
import Verif.Lemmas.Glue

/-!
# C08–C19, C21: zones and look-up

Zones are quantified over as `Zone.afterAdds thr id rs`: built from the empty zone by any sequence `rs` of
`AddResourceRecord` calls, accepted or not, with any hash-map threshold.
-/

namespace Groot
open Spec

/-- A zone exercising every kind of data: `o.` with a delegation `sub`, a DNAME `dn`, a CNAME `al`, a wildcard
below `wc`, an empty non-terminal `wc`, glue, a duplicate and two records rejected for exclusivity. -/
def sampleZone : List RR :=
  [ mkRR "o.".toList "SOA".toList 1 10 "x".toList,
    mkRR "o.".toList "NS".toList 1 10 "ns.o.".toList,
    mkRR "ns.o.".toList "A".toList 1 10 "1.1.1.1".toList,
    mkRR "sub.o.".toList "NS".toList 1 10 "ns.sub.o.".toList,
    mkRR "ns.sub.o.".toList "A".toList 1 10 "2.2.2.2".toList,
    mkRR "sub.o.".toList "NS".toList 1 10 "gone.o.".toList,
    mkRR "dn.o.".toList "DNAME".toList 1 10 "t.org.".toList,
    mkRR "al.o.".toList "CNAME".toList 1 10 "ns.o.".toList,
    mkRR "*.wc.o.".toList "TXT".toList 1 10 "hello".toList,
    mkRR "ns.o.".toList "A".toList 1 10 "1.1.1.1".toList,
    mkRR "al.o.".toList "A".toList 1 10 "3.3.3.3".toList,
    mkRR "dn.o.".toList "DNAME".toList 1 10 "u.org.".toList ]

/-- A query. -/
def sampleQuery (n : String) (t : RRType) : EC := { name := stringToLabels n.toList, types := TypeSet.add 0 t }

theorem sampleZone_supported : Supported sampleZone := by unfold Supported; decide +kernel

theorem mem_dataAnswers (f m : TypeSet) (rrs : List RR) (a : Answer) :
    a ∈ dataAnswers f m rrs ↔ (f ≠ 0 ∧ a = ⟨.ANS, f, rrs⟩) ∨ (m ≠ 0 ∧ a = ⟨.ANS, m, []⟩) := by
  unfold dataAnswers
  rw [List.mem_append]
  by_cases f0 : f = 0 <;> by_cases m0 : m = 0 <;> simp [f0, m0]

theorem accepted_eq (thr id : Nat) (rs : List RR) : Zone.accepted thr id rs = stored rs := by
  have : ∀ rs : List RR, rs.foldl (fun (st : Zone × List RR) r =>
      let x := st.1.addRecord thr r
      (x.1, if x.2.1 = .SUCCESS then st.2 ++ [r] else st.2)) (Zone.init id, []) =
      (Zone.afterAdds thr id rs, stored rs) := by
    intro rs
    induction rs using List.reverseRecOn with
    | nil => rfl
    | append_singleton rs r ih =>
      rw [List.foldl_append, ih]
      obtain ⟨names, h⟩ := Zone.rep_afterAdds thr id rs
      obtain ⟨_, _, _, hc, _⟩ := h.add thr r
      simp only [List.foldl_cons, List.foldl_nil]
      rw [Zone.afterAdds_append, stored_append, hc]
      simp only [admissible_iff]
  unfold Zone.accepted
  rw [this]

/-- **C08** What is stored at a name is exactly the accepted records with that owner, in order. -/
theorem C08_log (thr id thr' : Nat) (rs : List RR) (n : Name) :
    (Zone.afterAdds thr id rs).seenAt thr' n = recordsAt (Zone.accepted thr id rs) n := by
  obtain ⟨names, h⟩ := Zone.rep_afterAdds thr id rs
  rw [accepted_eq]
  unfold Zone.seenAt
  split
  · rename_i he; exact h.found thr' n he
  · rename_i he
    rw [recordsAt_of_not_exists]
    exact fun hx => he ((h.present_iff thr' n).mpr hx)

/-- **C08** Adding a record changes only the records of its own name. -/
theorem C08_other_names (thr id thr' : Nat) (rs : List RR) (r : RR) (n : Name) (hn : n ≠ r.name) :
    ((Zone.afterAdds thr id rs).addRecord thr r).1.seenAt thr' n = (Zone.afterAdds thr id rs).seenAt thr' n := by
  rw [← Zone.afterAdds_append, C08_log, C08_log, accepted_eq, accepted_eq, stored_append]
  split
  · rw [recordsAt_append, recordsAt_single_other r n (Ne.symm hn), List.append_nil]
  · rfl

/-- **C08** A rejected record has no effect that later calls can observe: after any further additions, the
records seen, the answers to queries and the codes returned are those of the history without it. -/
theorem C08_rejected_invisible (thr id thr' : Nat) (rs more : List RR) (r : RR)
    (hr : ((Zone.afterAdds thr id rs).addRecord thr r).2.1 ≠ .SUCCESS) :
    (∀ n, (Zone.afterAdds thr id (rs ++ r :: more)).seenAt thr' n =
        (Zone.afterAdds thr id (rs ++ more)).seenAt thr' n) ∧
    (∀ q, (Zone.afterAdds thr id (rs ++ r :: more)).lookup thr' q =
        (Zone.afterAdds thr id (rs ++ more)).lookup thr' q) ∧
    (∀ x, ((Zone.afterAdds thr id (rs ++ r :: more)).addRecord thr x).2 =
        ((Zone.afterAdds thr id (rs ++ more)).addRecord thr x).2) ∧
    (Zone.afterAdds thr id (rs ++ r :: more)).origin = (Zone.afterAdds thr id (rs ++ more)).origin := by
  obtain ⟨names, h⟩ := Zone.rep_afterAdds thr id rs
  have hs : Zone.Same (Zone.afterAdds thr id (rs ++ r :: more)) (Zone.afterAdds thr id (rs ++ more)) := by
    rw [Zone.afterAdds_append_list, Zone.afterAdds_append_list, List.foldl_cons]
    exact (Zone.rejected_same h thr r hr).addAll thr thr more
  refine ⟨fun n => ?_, fun q => hs.lookup thr' thr' q, fun x => (hs.addRecord thr thr x).2, hs.origin⟩
  unfold Zone.seenAt
  rw [hs.ancestor thr' thr', hs.rrsAt]

example : Zone.accepted 500 1 sampleZone = sampleZone.take 9 ∧
    ((Zone.afterAdds 500 1 (sampleZone.take 9)).addRecord 500 (mkRR "al.o.".toList "A".toList 1 10 "3.3.3.3".toList)).2.1
      ≠ .SUCCESS ∧
    (Zone.afterAdds 500 1 sampleZone).seenAt 500 (stringToLabels "sub.o.".toList) =
      [mkRR "sub.o.".toList "NS".toList 1 10 "ns.sub.o.".toList, mkRR "sub.o.".toList "NS".toList 1 10 "gone.o.".toList] := by
  decide +kernel

/-- **C09** In every reachable zone, for every name: if a CNAME is stored it is the only record, at most one
DNAME is stored, and no two records agree in type, TTL and data. -/
theorem C09_exclusive (thr id thr' : Nat) (rs : List RR) (n : Name) :
    ((Zone.afterAdds thr id rs).seenAt thr' n).Pairwise (fun x y =>
      x.type ≠ .CNAME ∧ y.type ≠ .CNAME ∧ ¬ (x.type = .DNAME ∧ y.type = .DNAME) ∧
      ¬ (x.type = y.type ∧ x.ttl = y.ttl ∧ x.rdata = y.rdata)) := by
  rw [C08_log, accepted_eq]
  have hp := List.Pairwise.filter (fun r : RR => decide (r.name = n)) (exclusive_stored rs)
  refine List.Pairwise.imp_of_mem ?_ hp
  intro a b ha hb h
  rw [mem_recordsAt] at ha hb
  exact h (ha.2.trans hb.2.symm)

/-- **C09** In particular a stored CNAME is alone. -/
theorem C09_cname_alone (thr id thr' : Nat) (rs : List RR) (n : Name) (r : RR)
    (hr : r ∈ (Zone.afterAdds thr id rs).seenAt thr' n) (ht : r.type = .CNAME) :
    (Zone.afterAdds thr id rs).seenAt thr' n = [r] := by
  rw [C08_log, accepted_eq] at hr ⊢
  rw [mem_recordsAt] at hr
  rw [← hr.2]
  exact recordsAt_cname (exclusive_stored rs) hr.1 ht

example : ((Zone.afterAdds 0 1 sampleZone).seenAt 3 (stringToLabels "al.o.".toList)).length = 1 ∧
    ((Zone.afterAdds 0 1 sampleZone).seenAt 3 (stringToLabels "dn.o.".toList)).length = 1 := by decide +kernel

/-- **C10** The return code, for the records stored so far. -/
theorem C10_codes (thr id : Nat) (rs : List RR) (r : RR) :
    let c := ((Zone.afterAdds thr id rs).addRecord thr r).2.1
    let log := Zone.accepted thr id rs
    (c = .DUPLICATE ↔ Duplicate log r) ∧
    (c = .CNAME_MULTIPLE ↔ ¬ Duplicate log r ∧ r.type = .CNAME ∧ HasType log r.name .CNAME) ∧
    (c = .CNAME_OTHER ↔ (r.type = .CNAME ∧ Owner log r.name ∧ ¬ HasType log r.name .CNAME) ∨
      (r.type ≠ .CNAME ∧ HasType log r.name .CNAME)) ∧
    (c = .DNAME_MULTIPLE ↔ ¬ Duplicate log r ∧ r.type = .DNAME ∧ HasType log r.name .DNAME) ∧
    (c = .SUCCESS ↔ Admissible log r) := by
  obtain ⟨names, h⟩ := Zone.rep_afterAdds thr id rs
  obtain ⟨_, _, _, hc, _⟩ := h.add thr r
  dsimp only
  rw [accepted_eq, hc, admissible_iff]
  have hx := exclusive_stored rs
  rw [addCheck_eq hx]
  by_cases h1 : Duplicate (stored rs) r
  · have hnc : r.type = .CNAME → HasType (stored rs) r.name .CNAME := by
      obtain ⟨x, a, b, c, _⟩ := h1
      intro ht; exact ⟨x, a, b, c.trans ht⟩
    have hcn : HasType (stored rs) r.name .CNAME → r.type = .CNAME := by
      obtain ⟨x, a, b, c, _⟩ := h1
      rintro ⟨y, a', b', c'⟩
      have := exclusive_cname hx a' a (b'.trans b.symm) c'
      subst this
      exact c.symm.trans c'
    by_cases h2 : r.type = .CNAME
    · simp [h1, h2, hnc h2]
    · have : ¬ HasType (stored rs) r.name .CNAME := fun hh => h2 (hcn hh)
      simp [h1, h2, this]
  · by_cases h2 : HasType (stored rs) r.name .CNAME
    · have h3 : ¬ HasType (stored rs) r.name .DNAME := by
        obtain ⟨x, a, b, c⟩ := h2
        rintro ⟨y, a', b', c'⟩
        have := exclusive_cname hx a a' (b.trans b'.symm) c
        subst this
        rw [c] at c'; exact absurd c' (by decide)
      by_cases h4 : r.type = .CNAME <;> simp [h1, h2, h3, h4]
    · by_cases h4 : r.type = .CNAME
      · by_cases h5 : Owner (stored rs) r.name <;> simp [h1, h2, h4, h5]
      · by_cases h5 : r.type = .DNAME <;> by_cases h6 : HasType (stored rs) r.name .DNAME <;>
          simp [h1, h2, h4, h5, h6]

/-- **C10** The zone changes only on SUCCESS, and then by exactly the record added. -/
theorem C10_effect (thr id thr' : Nat) (rs : List RR) (r : RR) (n : Name) :
    let z := Zone.afterAdds thr id rs
    (z.addRecord thr r).1.seenAt thr' n =
      z.seenAt thr' n ++ (if (z.addRecord thr r).2.1 = .SUCCESS ∧ r.name = n then [r] else []) := by
  have hc := (C10_codes thr id rs r).2.2.2.2
  dsimp only at hc ⊢
  rw [accepted_eq] at hc
  have e : ((Zone.afterAdds thr id rs).addRecord thr r).1.seenAt thr' n =
      recordsAt (if Admissible (stored rs) r then stored rs ++ [r] else stored rs) n := by
    rw [← Zone.afterAdds_append, C08_log, accepted_eq, stored_append]
  rw [e, C08_log, accepted_eq]
  simp only [hc]
  by_cases h1 : Admissible (stored rs) r
  · rw [if_pos h1, recordsAt_append]
    by_cases h2 : r.name = n
    · subst h2; rw [recordsAt_single_self]; simp [h1]
    · rw [recordsAt_single_other r n h2]; simp [h2]
  · simp [h1]

example :
    let z := Zone.afterAdds 500 1 (sampleZone.take 9)
    let code := fun (n t d : String) => (z.addRecord 500 (mkRR n.toList t.toList 1 10 d.toList)).2.1
    code "ns.o." "A" "1.1.1.1" = .DUPLICATE ∧ code "al.o." "CNAME" "q." = .CNAME_MULTIPLE ∧
    code "al.o." "A" "1" = .CNAME_OTHER ∧ code "ns.o." "CNAME" "q." = .CNAME_OTHER ∧
    code "dn.o." "DNAME" "q." = .DNAME_MULTIPLE ∧ code "dn.o." "A" "1" = .SUCCESS := by decide +kernel

/-- **C11** The hash-map threshold is unobservable: for any two thresholds, any history yields the same codes,
the same stored records, the same origin and the same answer to every query (whatever its outcome). -/
theorem C11_threshold (thr thr' id : Nat) (rs : List RR) :
    (∀ r, ((Zone.afterAdds thr id rs).addRecord thr r).2 = ((Zone.afterAdds thr' id rs).addRecord thr' r).2) ∧
    (∀ n, (Zone.afterAdds thr id rs).seenAt thr n = (Zone.afterAdds thr' id rs).seenAt thr' n) ∧
    (Zone.afterAdds thr id rs).origin = (Zone.afterAdds thr' id rs).origin ∧
    (∀ q, (Zone.afterAdds thr id rs).lookup thr q = (Zone.afterAdds thr' id rs).lookup thr' q) := by
  have hs := Zone.same_afterAdds thr thr' id rs
  refine ⟨fun r => (hs.addRecord thr thr' r).2, fun n => ?_, hs.origin, hs.lookup thr thr'⟩
  unfold Zone.seenAt
  rw [hs.ancestor thr thr', hs.rrsAt]

/-- With threshold 0 the child maps are really used, with threshold 500 they are not. -/
example : (Zone.afterAdds 0 1 sampleZone).g.maps ≠ [] ∧ (Zone.afterAdds 500 1 sampleZone).g.maps = [] := by
  decide +kernel

/-- **C12** A name has a node iff it is the root or an ancestor-or-self of the owner of an accepted record. -/
theorem C12_names (thr id thr' : Nat) (rs : List RR) (n : Name) :
    (Zone.afterAdds thr id rs).present thr' n ↔
      n = [] ∨ ∃ r ∈ Zone.accepted thr id rs, AtOrBelow n r.name := by
  obtain ⟨names, h⟩ := Zone.rep_afterAdds thr id rs
  rw [accepted_eq]
  exact h.present_iff thr' n

example : (Zone.afterAdds 500 1 sampleZone).present 500 (stringToLabels "wc.o.".toList) ∧
    ¬ (Zone.afterAdds 500 1 sampleZone).present 500 (stringToLabels "x.wc.o.".toList) := by
  unfold Zone.present; decide +kernel

/-- **C13** Look-up returns exactly what the declarative rules say. -/
theorem C13_lookup (thr id thr' : Nat) (rs : List RR) (hs : Supported rs) (q : EC) (as : List Answer) :
    (∃ b, (Zone.afterAdds thr id rs).lookup thr' q = .ok (as, b)) ↔ Reply (Zone.accepted thr id rs) q as := by
  obtain ⟨names, h⟩ := Zone.rep_afterAdds thr id rs
  rw [accepted_eq]
  exact h.lookup_iff (stored_supported hs) thr' q as

/-- **C13** There is always exactly one reply (so the rules are complete and consistent, and the look-up never
aborts). -/
theorem C13_reply_unique (thr id thr' : Nat) (rs : List RR) (hs : Supported rs) (q : EC) :
    (∃ as b, (Zone.afterAdds thr id rs).lookup thr' q = .ok (as, b)) ∧
    (∃ as, Reply (Zone.accepted thr id rs) q as ∧ ∀ as', Reply (Zone.accepted thr id rs) q as' → as' = as) := by
  obtain ⟨names, h⟩ := Zone.rep_afterAdds thr id rs
  obtain ⟨as, b, h1, h2⟩ := h.lookup (stored_supported hs) thr' q
  rw [accepted_eq]
  exact ⟨⟨as, b, h1⟩, as, h2, fun as' h' => reply_unique h.excl h' h2⟩

/-- The kinds of answers on the sample zone: referral, rewrite by DNAME and CNAME, answer, no data,
wildcard, empty non-terminal, NXDOMAIN. -/
example :
    let look := fun (n : String) (t : RRType) =>
      match (Zone.afterAdds 500 1 sampleZone).lookup 500 (sampleQuery n t) with
      | .ok (as, _) => as.map (fun a => (a.tag, a.rrs.length))
      | _ => []
    look "a.b.sub.o." .A = [(.REF, 3)] ∧ look "x.dn.o." .A = [(.REWRITE, 1)] ∧ look "al.o." .A = [(.REWRITE, 1)] ∧
    look "al.o." .CNAME = [(.ANS, 1)] ∧ look "ns.o." .A = [(.ANS, 1)] ∧ look "ns.o." .MX = [(.ANS, 0)] ∧
    look "q.wc.o." .TXT = [(.ANS, 1)] ∧ look "wc.o." .TXT = [(.ANS, 0)] ∧ look "none.o." .A = [(.NX, 0)] := by
  decide +kernel

/-- **C14** At or below the topmost delegation the answer is a single referral with exactly that delegation's
NS records, each followed by its glue. -/
theorem C14_referral (thr id thr' : Nat) (rs : List RR) (hs : Supported rs) (q : EC) (c : Name) :
    let log := Zone.accepted thr id rs
    c ≠ [] → AtOrBelow c q.name → Cut log c → (∀ p, AtOrBelow p c → p ≠ c → ¬ Covers log p) →
    ∃ ts b, TypesAt log c ts ∧
      (Zone.afterAdds thr id rs).lookup thr' q = .ok ([⟨.REF, ts, withGlue log (nsAt log c)⟩], b) := by
  intro log h1 h2 h3 h4
  have hl : log = stored rs := accepted_eq thr id rs
  obtain ⟨ts, _, t2, _⟩ := nodeTypes_ok (hl ▸ stored_supported hs) c
  obtain ⟨b, hb⟩ := (C13_lookup thr id thr' rs hs q _).mpr
    (Reply.referral c ts ⟨h2, owner_exists (hasType_owner h3.1), h4, Or.inl ⟨h1, Or.inl h3⟩⟩ h3 t2)
  exact ⟨ts, b, t2, hb⟩

/-- **C14** Nothing else at or below the delegation matters: two zones with the same NS records and the same set
of types at the cut, and the same glue for those servers, answer alike. -/
theorem C14_occlusion (thr id thr' : Nat) (rs rs' : List RR) (hs : Supported rs) (hs' : Supported rs') (q q' : EC)
    (c : Name) :
    let log := Zone.accepted thr id rs
    let log' := Zone.accepted thr id rs'
    c ≠ [] → AtOrBelow c q.name → AtOrBelow c q'.name → Cut log c → Cut log' c →
    (∀ p, AtOrBelow p c → p ≠ c → ¬ Covers log p) → (∀ p, AtOrBelow p c → p ≠ c → ¬ Covers log' p) →
    nsAt log c = nsAt log' c → (∀ r ∈ nsAt log c, glueFor log r = glueFor log' r) →
    (∀ t, HasType log c t ↔ HasType log' c t) →
    ∃ as b b', (Zone.afterAdds thr id rs).lookup thr' q = .ok (as, b) ∧
      (Zone.afterAdds thr id rs').lookup thr' q' = .ok (as, b') := by
  intro log log' h1 h2 h2' h3 h3' h4 h4' h5 h6 h7
  obtain ⟨ts, b, t, e⟩ := C14_referral thr id thr' rs hs q c h1 h2 h3 h4
  obtain ⟨ts', b', t', e'⟩ := C14_referral thr id thr' rs' hs' q' c h1 h2' h3' h4'
  refine ⟨_, b, b', e, ?_⟩
  have et : ts' = ts := by
    apply typeSet_ext
    intro x
    rw [Bool.eq_iff_iff, has_iff, has_iff, t x, t' x, h7]
  have er : withGlue log' (nsAt log' c) = withGlue log (nsAt log c) := by
    rw [← h5]
    unfold withGlue
    apply List.flatMap_congr
    intro r hr
    rw [h6 r hr]
  rw [e', et]
  exact congrArg (fun x => Res.ok ([(⟨Tag.REF, ts, x⟩ : Answer)], b')) er

example : Cut (Zone.accepted 500 1 sampleZone) (stringToLabels "sub.o.".toList) ∧
    ¬ Covers (Zone.accepted 500 1 sampleZone) (stringToLabels "o.".toList) ∧
    AtOrBelow (stringToLabels "sub.o.".toList) (stringToLabels "a.b.sub.o.".toList) := by
  refine ⟨?_, ?_, ⟨[['b'], ['a']], by decide⟩⟩
  · unfold Cut; decide +kernel
  · unfold Covers Cut; decide +kernel

/-- **C15** Below the topmost DNAME (not a delegation) the answer is a single rewrite by that record, whatever
exists below it. -/
theorem C15_dname (thr id thr' : Nat) (rs : List RR) (hs : Supported rs) (q : EC) (e : Name) (d : RR) :
    let log := Zone.accepted thr id rs
    e ≠ [] → AtOrBelow e q.name → ¬ ExactFor q e → d ∈ log → d.name = e → d.type = .DNAME → ¬ Cut log e →
    (∀ p, AtOrBelow p e → p ≠ e → ¬ Covers log p) →
    ∃ ts b, TypesAt log e ts ∧
      (Zone.afterAdds thr id rs).lookup thr' q = .ok ([⟨.REWRITE, ts, [d]⟩], b) := by
  intro log h1 h2 h3 hd hn ht hc h4
  have hl : log = stored rs := accepted_eq thr id rs
  obtain ⟨ts, _, t2, _⟩ := nodeTypes_ok (hl ▸ stored_supported hs) e
  have hty : HasType log e .DNAME := ⟨d, hd, hn, ht⟩
  obtain ⟨b, hb⟩ := (C13_lookup thr id thr' rs hs q _).mpr
    (Reply.dname e ts d ⟨h2, owner_exists (hasType_owner hty), h4, Or.inl ⟨h1, Or.inr hty⟩⟩ hc h3 hd hn ht t2)
  exact ⟨ts, b, t2, hb⟩

/-- **C15** A query for exactly the owner of a DNAME is never rewritten by that DNAME. -/
theorem C15_owner_not_rewritten (thr id thr' : Nat) (rs : List RR) (hs : Supported rs) (q : EC)
    (as : List Answer) (b : Bool) (h : (Zone.afterAdds thr id rs).lookup thr' q = .ok (as, b))
    (hq : q.excluded = none) :
    ∀ a ∈ as, a.tag = .REWRITE → ∀ d ∈ a.rrs, d.type = .DNAME → d.name ≠ q.name := by
  have hr := (C13_lookup thr id thr' rs hs q as).mp ⟨b, h⟩
  intro a ha ht d hd hdt hdn
  cases hr with
  | referral e ts => simp at ha; subst ha; simp at ht
  | dname e ts r h1 h2 h3 h4 h5 h6 =>
    simp at ha; subst ha; simp at hd; subst hd
    exact h3 ⟨hdn.symm.trans h5, hq⟩
  | cname e m exact ts r tag h1 h2 h3 h4 h5 =>
    simp at ha; subst ha; simp at hd; subst hd
    rw [h5] at hdt; exact absurd hdt (by decide)
  | data e m exact found missing =>
    unfold dataAnswers at ha
    rw [List.mem_append] at ha
    rcases ha with ha | ha <;> (split at ha <;> simp at ha; subst ha; simp at ht)
  | nx e => simp at ha; subst ha; simp at ht

example : mkRR "dn.o.".toList "DNAME".toList 1 10 "t.org.".toList ∈ Zone.accepted 500 1 sampleZone ∧
    ¬ Cut (Zone.accepted 500 1 sampleZone) (stringToLabels "dn.o.".toList) ∧
    ¬ ExactFor (sampleQuery "x.dn.o." .A) (stringToLabels "dn.o.".toList) := by
  refine ⟨by decide +kernel, by unfold Cut; decide +kernel, ?_⟩
  unfold ExactFor; decide +kernel

/-- **C16** (if) When the query is not exactly for its closest encloser `e`, nothing covers, and `*.e` exists,
the records of the answer are exactly those at `*.e` that are a CNAME or of a requested type. -/
theorem C16_wildcard_used (thr id thr' : Nat) (rs : List RR) (hs : Supported rs) (q : EC) (e : Name)
    (as : List Answer) (b : Bool) (h : (Zone.afterAdds thr id rs).lookup thr' q = .ok (as, b)) :
    let log := Zone.accepted thr id rs
    Encloser log q.name e → ¬ ExactFor q e → ¬ Cut log e → ¬ HasType log e .DNAME → NameExists log (e ++ [['*']]) →
    ∀ r, (∃ a ∈ as, r ∈ a.rrs) ↔
      r ∈ log ∧ r.name = e ++ [['*']] ∧ (r.type = .CNAME ∨ Member q.types r.type) := by
  intro log he hx hc hd hw r
  have hl : log = stored rs := accepted_eq thr id rs
  have hr : Reply log q as := (C13_lookup thr id thr' rs hs q as).mp ⟨b, h⟩
  have hexcl : Exclusive log := hl ▸ exclusive_stored rs
  cases hr with
  | referral e' ts h1 h2 => rw [encloser_unique h1 he] at h2; exact absurd h2 hc
  | dname e' ts d h1 h2 h3 h4 h5 h6 =>
    rw [encloser_unique h1 he] at h5; exact absurd ⟨d, h4, h5, h6⟩ hd
  | cname e' m exact ts c tag h1 h2 h3 h4 h5 h6 h7 =>
    have := encloser_unique h1 he
    subst this
    rcases h2.2 with ⟨_, h8, _⟩ | ⟨_, _, _, hm, _⟩
    · exact absurd h8 hx
    · subst hm
      simp only [List.mem_singleton, exists_eq_left]
      constructor
      · rintro rfl; exact ⟨h3, h4, Or.inl h5⟩
      · rintro ⟨a1, a2, _⟩; exact (exclusive_cname hexcl h3 a1 (h4.trans a2.symm) h5).symm
  | data e' m exact found missing h1 h2 h3 h4 h5 =>
    have := encloser_unique h1 he
    subst this
    rcases h2.2 with ⟨_, h8, _⟩ | ⟨hex, _, _, hm, _⟩
    · exact absurd h8 hx
    · subst hm; subst hex
      have hmem : (∃ a ∈ dataAnswers found missing (dataFor log q (e' ++ [['*']]) false), r ∈ a.rrs) ↔
          found ≠ 0 ∧ r ∈ dataFor log q (e' ++ [['*']]) false := by
        simp only [mem_dataAnswers]
        constructor
        · rintro ⟨a, ⟨h6, rfl⟩ | ⟨_, rfl⟩, h7⟩
          · exact ⟨h6, h7⟩
          · simp at h7
        · rintro ⟨h6, h7⟩; exact ⟨_, Or.inl ⟨h6, rfl⟩, h7⟩
      rw [hmem]
      unfold dataFor
      simp only [Bool.false_eq_true, if_false, List.mem_filter, mem_recordsAt, decide_eq_true_eq]
      constructor
      · rintro ⟨_, ⟨a1, a2⟩, a3⟩; exact ⟨a1, a2, Or.inr a3⟩
      · rintro ⟨a1, a2, a3⟩
        have hnc : r.type ≠ .CNAME := fun ht => h3 ⟨r, a1, a2, ht⟩
        have a3 := a3.resolve_left hnc
        refine ⟨?_, ⟨a1, a2⟩, a3⟩
        intro f0
        have := (h4 r.type).mpr ⟨a3, r, a1, a2, rfl⟩
        rw [f0] at this
        simp [Member] at this
  | nx e' h1 h2 h3 h4 h5 => rw [encloser_unique h1 he] at h5; exact absurd hw h5

/-- **C16** (only if) Every record of an answer is owned by the query name or an ancestor, or is glue of an NS
record of the answer, or is owned by `*.e` for the closest encloser `e`, which then neither is what the query
asks for, nor a delegation, nor a DNAME owner. -/
theorem C16_wildcard_only (thr id thr' : Nat) (rs : List RR) (hs : Supported rs) (q : EC)
    (as : List Answer) (b : Bool) (h : (Zone.afterAdds thr id rs).lookup thr' q = .ok (as, b)) :
    let log := Zone.accepted thr id rs
    ∀ a ∈ as, ∀ r ∈ a.rrs,
      AtOrBelow r.name q.name ∨ (∃ s ∈ a.rrs, s.type = .NS ∧ AtOrBelow s.name q.name ∧ r ∈ glueFor log s) ∨
      ∃ e, Encloser log q.name e ∧ ¬ ExactFor q e ∧ ¬ Cut log e ∧ ¬ HasType log e .DNAME ∧
        r.name = e ++ [['*']] := by
  intro log a ha r hr
  have hrep : Reply log q as := (C13_lookup thr id thr' rs hs q as).mp ⟨b, h⟩
  have glue : ∀ (n : Name) (l : List RR), (∀ s ∈ l, s.type = .NS ∧ s.name = n) → ∀ r ∈ withGlue log l,
      r ∈ l ∨ ∃ s ∈ l, r ∈ glueFor log s := by
    intro n l hl r hr
    simp only [withGlue, List.mem_flatMap, List.mem_cons] at hr
    obtain ⟨s, h1, h2⟩ := hr
    rcases h2 with rfl | h2
    · exact Or.inl h1
    · exact Or.inr ⟨s, h1, h2⟩
  have nsl : ∀ n, ∀ s ∈ nsAt log n, s.type = .NS ∧ s.name = n := by
    intro n s hs
    simp only [nsAt, List.mem_filter, mem_recordsAt, decide_eq_true_eq] at hs
    exact ⟨hs.2, hs.1.2⟩
  have selfin : ∀ l, ∀ s ∈ l, s ∈ withGlue log l := by
    intro l s hs
    simp only [withGlue, List.mem_flatMap, List.mem_cons]
    exact ⟨s, hs, Or.inl rfl⟩
  cases hrep with
  | referral e ts h1 h2 h3 =>
    simp at ha; subst ha
    rcases glue e _ (nsl e) r hr with h | ⟨s, h, h'⟩
    · left; rw [(nsl e r h).2]; exact h1.1
    · right; left
      exact ⟨s, selfin _ s h, (nsl e s h).1, (nsl e s h).2 ▸ h1.1, h'⟩
  | dname e ts d h1 h2 h3 h4 h5 h6 =>
    simp at ha; subst ha; simp at hr; subst hr
    left; rw [h5]; exact h1.1
  | cname e m exact ts c tag h1 h2 h3 h4 h5 h6 h7 =>
    simp at ha; subst ha; simp at hr; subst hr
    rcases h2.2 with ⟨_, _, hm⟩ | ⟨_, hx, hd, hm, _⟩
    · left; rw [h4, hm]; exact h1.1
    · right; right; exact ⟨e, h1, hx, h2.1, hd, h4.trans hm⟩
  | data e m exact found missing h1 h2 h3 h4 h5 =>
    have hrr : r ∈ dataFor log q m exact ∧ a.rrs = dataFor log q m exact := by
      unfold dataAnswers at ha
      rw [List.mem_append] at ha
      rcases ha with ha | ha <;> (split at ha <;> simp at ha; subst ha; simp at hr)
      exact ⟨hr, rfl⟩
    rcases h2.2 with ⟨hex, _, hm⟩ | ⟨hex, hx, hd, hm, _⟩
    · subst hex; subst hm
      rw [hrr.2]
      have hrr := hrr.1
      unfold dataFor at hrr
      simp only [if_true, List.mem_append] at hrr
      rcases hrr with hrr | hrr
      · simp only [List.mem_filter, mem_recordsAt] at hrr
        left; rw [hrr.1.2]; exact h1.1
      · split at hrr
        · rename_i hns
          rcases glue m _ (nsl m) r hrr with h | ⟨s, h, h'⟩
          · left; rw [(nsl m r h).2]; exact h1.1
          · right; left
            refine ⟨s, ?_, (nsl m s h).1, (nsl m s h).2 ▸ h1.1, h'⟩
            unfold dataFor
            simp only [if_true, List.mem_append, hns]
            exact Or.inr (selfin _ s h)
        · simp at hrr
    · subst hex
      have hrr := hrr.1
      unfold dataFor at hrr
      simp only [Bool.false_eq_true, if_false, List.mem_filter, mem_recordsAt] at hrr
      right; right; exact ⟨e, h1, hx, h2.1, hd, hrr.1.2.trans hm⟩
  | nx e => simp at ha; subst ha; simp at hr

/-- **C16** An existing name, asked for itself, is never answered from a wildcard: every record is owned by the
name or an ancestor, or is glue. -/
theorem C16_existing_name (thr id thr' : Nat) (rs : List RR) (hs : Supported rs) (q : EC)
    (as : List Answer) (b : Bool) (h : (Zone.afterAdds thr id rs).lookup thr' q = .ok (as, b))
    (hq : q.excluded = none) (hex : NameExists (Zone.accepted thr id rs) q.name) :
    ∀ a ∈ as, ∀ r ∈ a.rrs, AtOrBelow r.name q.name ∨
      (∃ s ∈ a.rrs, s.type = .NS ∧ AtOrBelow s.name q.name ∧ r ∈ glueFor (Zone.accepted thr id rs) s) := by
  intro a ha r hr
  rcases C16_wildcard_only thr id thr' rs hs q as b h a ha r hr with h1 | h1 | ⟨e, he, hx, hc, hd, _⟩
  · exact Or.inl h1
  · exact Or.inr h1
  · exfalso
    obtain ⟨h1, h2, h3, h4⟩ := he
    rcases h4 with h4 | h4 | h4
    · rcases h4.2 with h5 | h5
      · exact hc h5
      · exact hd h5
    · exact hx ⟨h4.symm, hq⟩
    · obtain ⟨rest, hrest⟩ := h1
      cases rest with
      | nil => rw [List.append_nil] at hrest; exact hx ⟨hrest, hq⟩
      | cons l rest =>
        have hb : AtOrBelow (e ++ [l]) q.name := ⟨rest, by rw [hrest]; simp⟩
        exact h4 l hb (exists_prefix hex ((atOrBelow_iff_prefix _ _).mp hb))

example : NameExists (Zone.accepted 500 1 sampleZone) (stringToLabels "*.wc.o.".toList) ∧
    (∃ b, (Zone.afterAdds 500 1 sampleZone).lookup 500 (sampleQuery "q.wc.o." .TXT) =
      .ok ([⟨.ANS, TypeSet.add 0 .TXT, [mkRR "*.wc.o.".toList "TXT".toList 1 10 "hello".toList]⟩], b)) := by
  refine ⟨Or.inr ⟨mkRR "*.wc.o.".toList "TXT".toList 1 10 "hello".toList, by decide +kernel, [], by decide⟩, true, ?_⟩
  decide +kernel

/-- **C17** Every record in an answer is stored in the zone. -/
theorem C17_only_zone_data (thr id thr' : Nat) (rs : List RR) (hs : Supported rs) (q : EC)
    (as : List Answer) (b : Bool) (h : (Zone.afterAdds thr id rs).lookup thr' q = .ok (as, b)) :
    ∀ a ∈ as, ∀ r ∈ a.rrs, r ∈ Zone.accepted thr id rs := by
  intro a ha r hr
  have hrep := (C13_lookup thr id thr' rs hs q as).mp ⟨b, h⟩
  have glue : ∀ l : List RR, (∀ s ∈ l, s ∈ Zone.accepted thr id rs) →
      ∀ r ∈ withGlue (Zone.accepted thr id rs) l, r ∈ Zone.accepted thr id rs := by
    intro l hl r hr
    simp only [withGlue, List.mem_flatMap, List.mem_cons, glueFor, List.mem_filter] at hr
    obtain ⟨s, h1, h2⟩ := hr
    rcases h2 with rfl | h2
    · exact hl _ h1
    · exact h2.1
  have nsl : ∀ n, ∀ s ∈ nsAt (Zone.accepted thr id rs) n, s ∈ Zone.accepted thr id rs := by
    intro n s hs
    simp only [nsAt, List.mem_filter, mem_recordsAt] at hs
    exact hs.1.1
  cases hrep with
  | referral e ts => simp at ha; subst ha; exact glue _ (nsl e) r hr
  | dname e ts d h1 h2 h3 h4 => simp at ha; subst ha; simp at hr; subst hr; exact h4
  | cname e m exact ts c tag h1 h2 h3 => simp at ha; subst ha; simp at hr; subst hr; exact h3
  | data e m exact found missing =>
    have hrr : r ∈ dataFor (Zone.accepted thr id rs) q m exact := by
      unfold dataAnswers at ha
      rw [List.mem_append] at ha
      rcases ha with ha | ha <;> (split at ha <;> simp at ha; subst ha; simp at hr)
      exact hr
    unfold dataFor at hrr
    split at hrr
    · rw [List.mem_append] at hrr
      rcases hrr with hrr | hrr
      · simp only [List.mem_filter, mem_recordsAt] at hrr; exact hrr.1.1
      · split at hrr
        · exact glue _ (nsl m) r hrr
        · simp at hrr
    · simp only [List.mem_filter, mem_recordsAt] at hrr; exact hrr.1.1
  | nx e => simp at ha; subst ha; simp at hr

/-- **C17** The type accounting of positive answers.  If all answers are tagged ANS and carry no CNAME, there is
one owner `m` (the query name or the wildcard of its closest encloser) such that: the answers' type sets are
disjoint and together are the requested types; an answer without records lists types absent at `m`; an answer
with records lists types present, each with a record of that owner; and every record of owner `m` of a requested type is
listed. -/
theorem C17_types_accounted (thr id thr' : Nat) (rs : List RR) (hs : Supported rs) (q : EC)
    (as : List Answer) (b : Bool) (h : (Zone.afterAdds thr id rs).lookup thr' q = .ok (as, b))
    (ht : ∀ a ∈ as, a.tag = .ANS ∧ ∀ r ∈ a.rrs, r.type ≠ .CNAME) (hne : as ≠ []) :
    let log := Zone.accepted thr id rs
    ∃ m, (m = q.name ∨ ∃ e, Encloser log q.name e ∧ m = e ++ [['*']]) ∧
      as.Pairwise (fun a a' => ∀ t, ¬ (Member a.types t ∧ Member a'.types t)) ∧
      (∀ t, Member q.types t ↔ ∃ a ∈ as, Member a.types t) ∧
      (∀ a ∈ as, a.rrs = [] → ∀ t, Member a.types t → ¬ HasType log m t) ∧
      (∀ a ∈ as, a.rrs ≠ [] → ∀ t, Member a.types t → ∃ r ∈ a.rrs, r.name = m ∧ r.type = t) ∧
      (∀ r ∈ log, r.name = m → Member q.types r.type → ∃ a ∈ as, r ∈ a.rrs) := by
  intro log
  have hrep : Reply log q as := (C13_lookup thr id thr' rs hs q as).mp ⟨b, h⟩
  cases hrep with
  | referral e ts => have := (ht _ (List.mem_singleton.mpr rfl)).1; simp at this
  | dname e ts d => have := (ht _ (List.mem_singleton.mpr rfl)).1; simp at this
  | cname e m exact ts c tag h1 h2 h3 h4 h5 => exact absurd h5 ((ht _ (List.mem_singleton.mpr rfl)).2 c (by simp))
  | nx e => have := (ht _ (List.mem_singleton.mpr rfl)).1; simp at this
  | data e m exact found missing h1 h2 h3 h4 h5 =>
    refine ⟨m, ?_, ?_, ?_, ?_, ?_, ?_⟩
    · rcases h2.2 with ⟨_, hx, hm⟩ | ⟨_, _, _, hm, _⟩
      · left; rw [hm]; exact hx.1.symm
      · right; exact ⟨e, h1, hm⟩
    · unfold dataAnswers
      by_cases f0 : found = 0
      · rw [if_pos f0]; split <;> simp
      · by_cases m0 : missing = 0
        · rw [if_pos m0]; split <;> simp
        · rw [if_neg f0, if_neg m0]
          simp only [List.cons_append, List.nil_append, List.pairwise_cons, List.mem_singleton]
          refine ⟨?_, by simp⟩
          rintro a' rfl t ⟨h6, h7⟩
          exact ((h5 t).mp h7).2 ((h4 t).mp h6).2
    · intro t
      have zero : ∀ t, ¬ Member (0 : TypeSet) t := by intro t; simp [Member]
      have : (∃ a ∈ dataAnswers found missing (dataFor log q m exact), Member a.types t) ↔
          Member found t ∨ Member missing t := by
        simp only [mem_dataAnswers]
        constructor
        · rintro ⟨a, ⟨_, rfl⟩ | ⟨_, rfl⟩, h7⟩
          · exact Or.inl h7
          · exact Or.inr h7
        · rintro (h6 | h6)
          · exact ⟨_, Or.inl ⟨fun f0 => zero t (f0 ▸ h6), rfl⟩, h6⟩
          · exact ⟨_, Or.inr ⟨fun f0 => zero t (f0 ▸ h6), rfl⟩, h6⟩
      rw [this, h4, h5]
      tauto
    · intro a ha hr t hm
      unfold dataAnswers at ha
      rw [List.mem_append] at ha
      rcases ha with ha | ha <;> (split at ha <;> simp at ha; subst ha)
      · exfalso
        simp only at hr hm
        obtain ⟨hq, x, x1, x2, x3⟩ := (h4 t).mp hm
        have : x ∈ dataFor log q m exact := by
          unfold dataFor
          split
          · rw [List.mem_append]
            by_cases hns : x.type = .NS
            · right
              rw [if_pos (by rw [← hns, x3]; exact hq)]
              simp only [withGlue, List.mem_flatMap, List.mem_cons]
              refine ⟨x, ?_, Or.inl rfl⟩
              simp only [nsAt, List.mem_filter, mem_recordsAt, decide_eq_true_eq]
              exact ⟨⟨x1, x2⟩, hns⟩
            · left
              simp only [List.mem_filter, mem_recordsAt, decide_eq_true_eq]
              exact ⟨⟨x1, x2⟩, hns, x3 ▸ hq⟩
          · simp only [List.mem_filter, mem_recordsAt, decide_eq_true_eq]
            exact ⟨⟨x1, x2⟩, x3 ▸ hq⟩
        rw [hr] at this; simp at this
      · exact ((h5 t).mp hm).2
    · intro a ha hr t hm
      unfold dataAnswers at ha
      rw [List.mem_append] at ha
      rcases ha with ha | ha <;> (split at ha <;> simp at ha; subst ha)
      · simp only at hr hm ⊢
        obtain ⟨hq, x, x1, x2, x3⟩ := (h4 t).mp hm
        refine ⟨x, ?_, x2, x3⟩
        unfold dataFor
        split
        · rw [List.mem_append]
          by_cases hns : x.type = .NS
          · right
            rw [if_pos (by rw [← hns, x3]; exact hq)]
            simp only [withGlue, List.mem_flatMap, List.mem_cons]
            refine ⟨x, ?_, Or.inl rfl⟩
            simp only [nsAt, List.mem_filter, mem_recordsAt, decide_eq_true_eq]
            exact ⟨⟨x1, x2⟩, hns⟩
          · left
            simp only [List.mem_filter, mem_recordsAt, decide_eq_true_eq]
            exact ⟨⟨x1, x2⟩, hns, x3 ▸ hq⟩
        · simp only [List.mem_filter, mem_recordsAt, decide_eq_true_eq]
          exact ⟨⟨x1, x2⟩, x3 ▸ hq⟩
      · exact absurd rfl hr
    · intro x x1 x2 hq
      have hf : found ≠ 0 := by
        intro f0
        have := (h4 x.type).mpr ⟨hq, x, x1, x2, rfl⟩
        rw [f0] at this; simp [Member] at this
      refine ⟨⟨.ANS, found, dataFor log q m exact⟩, (mem_dataAnswers _ _ _ _).mpr (Or.inl ⟨hf, rfl⟩), ?_⟩
      simp only
      unfold dataFor
      split
      · rw [List.mem_append]
        by_cases hns : x.type = .NS
        · right
          rw [if_pos (hns ▸ hq)]
          simp only [withGlue, List.mem_flatMap, List.mem_cons]
          refine ⟨x, ?_, Or.inl rfl⟩
          simp only [nsAt, List.mem_filter, mem_recordsAt, decide_eq_true_eq]
          exact ⟨⟨x1, x2⟩, hns⟩
        · left
          simp only [List.mem_filter, mem_recordsAt, decide_eq_true_eq]
          exact ⟨⟨x1, x2⟩, hns, hq⟩
      · simp only [List.mem_filter, mem_recordsAt, decide_eq_true_eq]
        exact ⟨⟨x1, x2⟩, hq⟩

/-- **C17** Records of a positive answer have a requested type, or are glue of an NS record of the answer. -/
theorem C17_requested_types (thr id thr' : Nat) (rs : List RR) (hs : Supported rs) (q : EC)
    (as : List Answer) (b : Bool) (h : (Zone.afterAdds thr id rs).lookup thr' q = .ok (as, b)) :
    ∀ a ∈ as, a.tag = .ANS → ∀ r ∈ a.rrs, Member q.types r.type ∨
      ∃ s ∈ a.rrs, s.type = .NS ∧ r ∈ glueFor (Zone.accepted thr id rs) s := by
  intro a ha hta r hr
  have hrep := (C13_lookup thr id thr' rs hs q as).mp ⟨b, h⟩
  cases hrep with
  | referral e ts => simp at ha; subst ha; simp at hta
  | dname e ts d => simp at ha; subst ha; simp at hta
  | cname e m exact ts c tag h1 h2 h3 h4 h5 h6 h7 =>
    simp at ha; subst ha; simp at hr; subst hr
    simp only at hta
    subst hta
    left
    rcases h7 with ⟨h7, _⟩ | ⟨_, h7⟩
    · exact (h7 r.type).mpr h5
    · simp at h7
  | data e m exact found missing =>
    have hrr : r ∈ dataFor (Zone.accepted thr id rs) q m exact ∧ a.rrs = dataFor (Zone.accepted thr id rs) q m exact := by
      unfold dataAnswers at ha
      rw [List.mem_append] at ha
      rcases ha with ha | ha <;> (split at ha <;> simp at ha; subst ha; simp at hr)
      exact ⟨hr, rfl⟩
    rw [hrr.2]
    have hrr := hrr.1
    unfold dataFor at hrr ⊢
    split at hrr
    · rename_i hex
      simp only [hex, if_true] at hrr ⊢
      rw [List.mem_append] at hrr
      rcases hrr with hrr | hrr
      · simp only [List.mem_filter, decide_eq_true_eq] at hrr; exact Or.inl hrr.2.2
      · split at hrr
        · rename_i hns
          simp only [withGlue, List.mem_flatMap, List.mem_cons] at hrr
          obtain ⟨s, hs1, hs2⟩ := hrr
          have hst : s.type = .NS := by
            simp only [nsAt, List.mem_filter, decide_eq_true_eq] at hs1; exact hs1.2
          rcases hs2 with rfl | hs2
          · left; rw [hst]; exact hns
          · right
            refine ⟨s, ?_, hst, hs2⟩
            rw [List.mem_append, if_pos hns]
            right
            simp only [withGlue, List.mem_flatMap, List.mem_cons]
            exact ⟨s, hs1, Or.inl rfl⟩
        · simp at hrr
    · simp only [List.mem_filter, decide_eq_true_eq] at hrr; exact Or.inl hrr.2
  | nx e => simp at ha; subst ha; simp at hta

example : ∃ as b, (Zone.afterAdds 500 1 sampleZone).lookup 500
      { name := stringToLabels "o.".toList, types := TypeSet.add (TypeSet.add 0 .NS) .MX } = .ok (as, b) ∧
    as.length = 2 ∧ (∀ a ∈ as, a.tag = .ANS ∧ ∀ r ∈ a.rrs, r.type ≠ .CNAME) :=
  ⟨[⟨.ANS, TypeSet.add 0 .NS, [mkRR "o.".toList "NS".toList 1 10 "ns.o.".toList,
      mkRR "ns.o.".toList "A".toList 1 10 "1.1.1.1".toList]⟩, ⟨.ANS, TypeSet.add 0 .MX, []⟩], true,
    by decide +kernel, rfl, by decide +kernel⟩

/-- **C18** Pairing the records of a referral recovers, for each NS record in order, exactly its own glue. -/
theorem C18_pairing (thr id thr' : Nat) (rs : List RR) (hs : Supported rs) (q : EC)
    (as : List Answer) (b : Bool) (h : (Zone.afterAdds thr id rs).lookup thr' q = .ok (as, b))
    (a : Answer) (ha : a ∈ as) (ht : a.tag = .REF) :
    ∃ c, AtOrBelow c q.name ∧ Cut (Zone.accepted thr id rs) c ∧
      matchNsGlue a.rrs = (nsAt (Zone.accepted thr id rs) c).map (fun r =>
        (r, (Zone.accepted thr id rs).filter (fun x =>
          decide (x.name = stringToLabels r.rdata ∧ (x.type = .A ∨ x.type = .AAAA))))) := by
  have hrep := (C13_lookup thr id thr' rs hs q as).mp ⟨b, h⟩
  cases hrep with
  | referral e ts h1 h2 =>
    simp at ha; subst ha
    refine ⟨e, h1.1, h2, ?_⟩
    refine (matchNsGlue_withGlue _ _ ?_).trans rfl
    intro r hr
    simp only [nsAt, List.mem_filter, decide_eq_true_eq] at hr; exact hr.2
  | dname e ts d => simp at ha; subst ha; simp at ht
  | cname e m exact ts c tag h1 h2 h3 h4 h5 h6 h7 =>
    simp at ha; subst ha; simp only at ht
    rcases h7 with ⟨_, h7⟩ | ⟨_, h7⟩ <;> (rw [h7] at ht; simp at ht)
  | data e m exact found missing =>
    unfold dataAnswers at ha
    rw [List.mem_append] at ha
    rcases ha with ha | ha <;> (split at ha <;> simp at ha; subst ha; simp at ht)
  | nx e => simp at ha; subst ha; simp at ht

example : ∃ a b, (Zone.afterAdds 500 1 sampleZone).lookup 500 (sampleQuery "a.b.sub.o." .A) = .ok ([a], b) ∧ a.tag = .REF ∧
    (matchNsGlue a.rrs).map (fun p => (p.1.rdata, p.2.map (·.rdata))) =
      [("ns.sub.o.".toList, ["2.2.2.2".toList]), ("gone.o.".toList, [])] :=
  ⟨⟨.REF, TypeSet.add 0 .NS, [mkRR "sub.o.".toList "NS".toList 1 10 "ns.sub.o.".toList,
      mkRR "ns.sub.o.".toList "A".toList 1 10 "2.2.2.2".toList,
      mkRR "sub.o.".toList "NS".toList 1 10 "gone.o.".toList]⟩, false, by decide +kernel, rfl, by decide +kernel⟩

/-- **C19** The missing-glue issues of a zone are, in some order, one for each stored NS record whose target lies at or
below the zone's origin and has no address record in the zone. -/
theorem C19_missing_glue (thr id thr' : Nat) (rs : List RR) (ns : Str) (P : RR → Bool)
    (hP : ∀ r, P r = true ↔ r.type = .NS ∧
      AtOrBelow (soaOwner (Zone.accepted thr id rs)) (stringToLabels r.rdata) ∧
      ¬ ∃ x ∈ Zone.accepted thr id rs, x.name = stringToLabels r.rdata ∧ (x.type = .A ∨ x.type = .AAAA)) :
    ∃ issues, (Zone.afterAdds thr id rs).glueIssues thr' ns = .ok issues ∧
      issues.Perm (((Zone.accepted thr id rs).filter P).map (fun r =>
        ⟨ns, present (soaOwner (Zone.accepted thr id rs)), showRecord r⟩)) := by
  rw [← str_fun]
  obtain ⟨names, h⟩ := Zone.rep_afterAdds thr id rs
  simp only [accepted_eq] at hP ⊢
  simp only [← labelsToString_eq]
  exact glueIssues_perm h thr' ns P hP

example : (Zone.afterAdds 500 1 sampleZone).glueIssues 500 "s".toList =
    .ok [⟨"s".toList, "o.".toList, (mkRR "sub.o.".toList "NS".toList 1 10 "gone.o.".toList).str⟩] := by
  decide +kernel

/-- **C21** A CNAME at the query name (nothing covering above it) is the whole answer: final iff CNAME is the only
requested type, a rewrite otherwise. -/
theorem C21_cname (thr id thr' : Nat) (rs : List RR) (hs : Supported rs) (q : EC) (c : RR) :
    let log := Zone.accepted thr id rs
    c ∈ log → c.name = q.name → c.type = .CNAME → q.excluded = none →
    (∀ p, AtOrBelow p q.name → p ≠ q.name → ¬ Covers log p) →
    ∃ b, (Zone.afterAdds thr id rs).lookup thr' q =
      .ok ([⟨if q.types = TypeSet.single .CNAME then .ANS else .REWRITE, TypeSet.single .CNAME, [c]⟩], b) := by
  intro log h1 h2 h3 h4 h5
  have hl : log = stored rs := accepted_eq thr id rs
  have hx : Exclusive log := hl ▸ exclusive_stored rs
  have only : ∀ t, HasType log q.name t → t = .CNAME := by
    rintro t ⟨x, a1, a2, a3⟩
    have := exclusive_cname hx h1 a1 (h2.trans a2.symm) h3
    subst this; exact a3.symm.trans h3
  have hts : TypesAt log q.name (TypeSet.single .CNAME) := by
    intro t
    rw [← has_iff, has_single]
    constructor
    · intro ht
      simp at ht
      subst ht
      exact ⟨by decide, c, h1, h2, h3⟩
    · rintro ⟨_, ht⟩
      simp [only t ht]
  have hoc : OnlyCname q ↔ q.types = TypeSet.single .CNAME := by
    unfold OnlyCname
    constructor
    · intro h
      apply typeSet_ext
      intro t
      rw [Bool.eq_iff_iff, has_iff, has_single, h]
      constructor
      · rintro rfl; decide
      · intro h; simp at h; exact h.symm
    · intro h t
      rw [h, ← has_iff, has_single]
      constructor
      · intro h; simp at h; exact h.symm
      · rintro rfl; decide
  have hcut : ¬ Cut log q.name := fun hc => absurd (only _ hc.1) (by decide)
  refine (C13_lookup thr id thr' rs hs q _).mpr
    (Reply.cname q.name q.name true _ c _ ⟨⟨[], by simp⟩, owner_exists ⟨c, h1, h2⟩, h5, Or.inr (Or.inl rfl)⟩
      ⟨hcut, Or.inl ⟨rfl, ⟨rfl, h4⟩, rfl⟩⟩ h1 h2 h3 hts ?_)
  by_cases ho : OnlyCname q
  · left; exact ⟨ho, by rw [if_pos (hoc.mp ho)]⟩
  · right; exact ⟨ho, by rw [if_neg (fun h => ho (hoc.mpr h))]⟩

/-- **C21** The rewritten query asks for the target, with the same types minus CNAME and no exclusion set; if
other types than CNAME were asked for, it still asks for something. -/
theorem C21_rewritten_query (c : RR) (q : EC) :
    (processCname c q).name = stringToLabels c.rdata ∧ (processCname c q).excluded = none ∧
    (∀ t, Member (processCname c q).types t ↔ Member q.types t ∧ t ≠ .CNAME) ∧
    (q.types ≠ 0 → q.types ≠ TypeSet.single .CNAME → (processCname c q).types ≠ 0) := by
  have hm : ∀ t, Member (processCname c q).types t ↔ Member q.types t ∧ t ≠ .CNAME := by
    intro t
    unfold processCname
    rw [← has_iff, ← has_iff, has_remove _ _ _ (by decide)]
    rw [Bool.and_eq_true, decide_eq_true_eq, ne_comm]
  refine ⟨rfl, rfl, hm, ?_⟩
  intro h1 h2 h3
  have hz : ∀ t, ¬ Member (processCname c q).types t := by intro t; rw [h3]; simp [Member]
  have hall : ∀ t, Member q.types t → t = .CNAME := by
    intro t ht
    by_contra hne
    exact hz t ((hm t).mpr ⟨ht, hne⟩)
  by_cases hc : Member q.types .CNAME
  · apply h2
    apply typeSet_ext
    intro t
    rw [Bool.eq_iff_iff, has_iff, has_single]
    constructor
    · intro ht; rw [hall t ht]; decide
    · intro ht; simp at ht; rw [← ht]; exact hc
  · apply h1
    apply typeSet_ext
    intro t
    rw [Bool.eq_iff_iff, has_iff]
    constructor
    · intro ht; exact absurd (hall t ht ▸ ht) hc
    · intro ht; simp at ht

example : (processCname (mkRR "al.o.".toList "CNAME".toList 1 10 "ns.o.".toList)
      { name := stringToLabels "al.o.".toList, types := TypeSet.add (TypeSet.add 0 .CNAME) .A }) =
    { name := stringToLabels "ns.o.".toList, types := TypeSet.add 0 .A } := by decide +kernel

end Groot
