import Verif.Lemmas.Assemble
import Verif.Lemmas.Stats
import Verif.Lemmas.RecordLine
import Verif.Lemmas.Zone
import Verif.Lemmas.Types
import Verif.Spec.Loader
import Verif.Lemmas.Resolve

/-! # What the loader does to the zone and the label graph -/

namespace Groot

open Spec Parser

theorem addIssue_graphs (s : PState) (a b c : Str) : (addIssue s a b c).zone = s.zone ∧ (addIssue s a b c).lg = s.lg := by
  unfold addIssue
  split <;> exact ⟨rfl, rfl⟩

theorem lengthIssue_graphs {s s' : PState} {rr : RR} {a b c : Str} (h : lengthIssue s rr a b c = .ok s') :
    s'.zone = s.zone ∧ s'.lg = s.lg := by
  unfold lengthIssue at h
  obtain ⟨x, -, h⟩ := bind_ok_iff.mp h
  injection h with h
  rw [← h]
  split <;> exact addIssue_graphs ..

theorem rejected_graphs {s s' : PState} {rr : RR} {code : AddCode} {node : Option Nat} (h : rejected s rr code node = .ok s') :
    s'.zone = s.zone ∧ s'.lg = s.lg := by
  unfold rejected at h
  split at h
  · injection h with h; rw [← h]; exact ⟨rfl, rfl⟩
  · obtain ⟨x, -, h⟩ := bind_ok_iff.mp h
    injection h with h
    rw [← h]
    exact addIssue_graphs ..
  · split at h
    · cases h
    · split at h
      · cases h
      · obtain ⟨x, -, h⟩ := bind_ok_iff.mp h
        obtain ⟨y, -, h⟩ := bind_ok_iff.mp h
        injection h with h
        rw [← h]
        exact addIssue_graphs ..

theorem addIssue_counts (s : PState) (a b c : Str) : (addIssue s a b c).counts = s.counts ∧ (addIssue s a b c).rrsParsed = s.rrsParsed := by
  unfold addIssue
  split <;> exact ⟨rfl, rfl⟩

/-- One more record that is not kept has been counted. -/
def Refused (s s' : PState) : Prop := s'.rrsParsed = s.rrsParsed ∧ ∃ k ∈ refusalKeys, s'.counts = s.counts ++ [k]

theorem refused_issue (s : PState) {k : Str} (hk : k ∈ refusalKeys) (a b c : Str) : Refused s (addIssue (s.count k) a b c) :=
  ⟨(addIssue_counts ..).2, k, hk, (addIssue_counts ..).1⟩

theorem lengthIssue_counts {s s' : PState} {rr : RR} {a b c : Str} (h : lengthIssue s rr a b c = .ok s') : Refused s s' := by
  unfold lengthIssue at h
  obtain ⟨x, -, h⟩ := bind_ok_iff.mp h
  injection h with h
  rw [← h]
  split <;> exact refused_issue _ (by decide) _ _ _

theorem rejected_counts {s s' : PState} {rr : RR} {code : AddCode} {node : Option Nat} (hc : code ≠ .SUCCESS) (h : rejected s rr code node = .ok s') :
    Refused s s' := by
  unfold rejected at h
  split at h
  · exact absurd rfl hc
  · obtain ⟨x, -, h⟩ := bind_ok_iff.mp h
    injection h with h
    rw [← h]
    exact refused_issue _ (by decide) _ _ _
  · split at h
    · cases h
    · split at h
      · cases h
      · obtain ⟨x, -, h⟩ := bind_ok_iff.mp h
        obtain ⟨y, -, h⟩ := bind_ok_iff.mp h
        injection h with h
        rw [← h]
        exact refused_issue _ (by decide) _ _ _

theorem Zone.addRecord_success {z : Zone} {thr : Nat} {r : RR} (h : (z.addRecord thr r).2.1 = .SUCCESS) :
    ∃ v, (z.addRecord thr r).2.2 = some v := by
  unfold Zone.addRecord at h ⊢
  dsimp only at h ⊢
  split at h
  · exact ⟨_, rfl⟩
  · cases h
  · exact ⟨_, rfl⟩

/-- What adding a complete record does to the zone and to the label graph. -/
theorem addRR_effect {thr : Nat} {st st' : PState} {rr : RR} (h : addRR thr st rr = .ok st') :
    (st'.zone = st.zone ∧ st'.lg = st.lg ∧ Refused { st with rrsParsed := st.rrsParsed + 1 } st') ∨
    (Short rr.name ∧ (Pointing rr → Short (stringToLabels rr.rdata)) ∧ st.zone.membership rr = .ok true ∧
      st'.zone = (st.zone.addRecord thr rr).1 ∧
      ((st.zone.addRecord thr rr).2.1 = .SUCCESS ∧ (∃ v, (st.zone.addRecord thr rr).2.2 = some v ∧ st'.lg = st.lg.addRecord thr rr st'.zone.id v) ∨
       (st.zone.addRecord thr rr).2.1 ≠ .SUCCESS ∧ st'.lg = st.lg) ∧
      ((st.zone.addRecord thr rr).2.1 = .SUCCESS ∧ st'.rrsParsed = st.rrsParsed + 1 ∧ st'.counts = st.counts ++ keptKeys rr ∨
       (st.zone.addRecord thr rr).2.1 ≠ .SUCCESS ∧ Refused { st with rrsParsed := st.rrsParsed + 1 } st')) := by
  unfold addRR at h
  dsimp only at h
  split at h
  · have := lengthIssue_graphs h; exact .inl ⟨this.1, this.2, lengthIssue_counts h⟩
  · rename_i hn
    split at h
    · have := lengthIssue_graphs h; exact .inl ⟨this.1, this.2, lengthIssue_counts h⟩
    · rename_i ht
      obtain ⟨b, hb, h⟩ := bind_ok_iff.mp h
      split at h
      · rename_i hb1
        rw [hb1] at hb
        refine .inr ⟨(short_iff _).mp (by simpa using hn), ?_, hb, ?_⟩
        · intro hr
          refine (short_iff _).mp ?_
          simp only [Bool.and_eq_true, Bool.not_eq_true', not_and, Bool.not_eq_false] at ht
          exact ht (decide_eq_true hr)
        · split at h
          · rename_i v hs1 hs2
            injection h with h
            rw [← h]
            exact ⟨rfl, .inl ⟨hs1, v, hs2, rfl⟩, .inl ⟨hs1, rfl, rfl⟩⟩
          · rename_i hno
            have := rejected_graphs h
            have hns : (st.zone.addRecord thr rr).2.1 ≠ .SUCCESS := by
              intro hs
              obtain ⟨v, hv⟩ := Zone.addRecord_success hs
              exact hno v hs hv
            have hr := rejected_counts hns h
            exact ⟨this.1, .inr ⟨hns, this.2⟩, .inr ⟨hns, hr⟩⟩
      · obtain ⟨x, -, h⟩ := bind_ok_iff.mp h
        injection h with h
        rw [← h]
        exact .inl ⟨(addIssue_graphs ..).1, (addIssue_graphs ..).2, refused_issue { st with rrsParsed := st.rrsParsed + 1 } (by decide) _ _ _⟩

/-- The state before adding the record on the line. -/
theorem processRecord_cases {thr : Nat} {st st' : PState} (h : processRecord thr st = .ok st') :
    (st'.zone = st.zone ∧ st'.lg = st.lg ∧ st'.suffix = st.suffix ∧ st'.foundSOA = st.foundSOA ∧ st'.counts = st.counts ∧ st'.rrsParsed = st.rrsParsed) ∨
    ∃ fld f, fld ∈ st.cur ∧ isTypeField fld = true ∧ (f.name = [] ∨ f.name ∈ st.cur) ∧
      ∃ x, addRR thr (complete st (toUpper fld) f).1 (complete st (toUpper fld) f).2 = .ok x ∧ st' = { x with cur := [] } := by
  have hf : ∀ ti i (fs : List Str) (f f' : FState) b, fieldLoop ti i fs f = .ok (f', b) → f'.name = f.name ∨ f'.name ∈ fs := by
    intro ti i fs
    induction fs generalizing i with
    | nil => intro f f' b h; unfold fieldLoop at h; injection h with h; injection h with h; rw [h]; exact .inl rfl
    | cons x fs ih =>
      intro f f' b h
      unfold fieldLoop at h
      split_ifs at h
      · rcases ih _ _ _ _ h with e | e
        · exact .inl e
        · exact .inr (List.mem_cons_of_mem _ e)
      · rcases ih _ _ _ _ h with e | e
        · exact .inr (by rw [e]; exact List.mem_cons_self)
        · exact .inr (List.mem_cons_of_mem _ e)
      · rcases ih _ _ _ _ h with e | e
        · exact .inl e
        · exact .inr (List.mem_cons_of_mem _ e)
      · rcases ih _ _ _ _ h with e | e
        · exact .inl e
        · exact .inr (List.mem_cons_of_mem _ e)
      · rcases ih _ _ _ _ h with e | e
        · exact .inl e
        · exact .inr (List.mem_cons_of_mem _ e)
      all_goals try
        (obtain ⟨v, -, h⟩ := bind_ok_iff.mp h
         rcases ih _ _ _ _ h with e | e
         · exact .inl e
         · exact .inr (List.mem_cons_of_mem _ e))
      · injection h with h; injection h with h; rw [h]; exact .inl rfl
      · rcases ih _ _ _ _ h with e | e
        · exact .inl e
        · exact .inr (List.mem_cons_of_mem _ e)
  unfold processRecord at h
  split at h
  · injection h with h; rw [← h]; exact .inl ⟨rfl, rfl, rfl, rfl, rfl, rfl⟩
  · rename_i ti hti
    split at h
    · injection h with h; rw [← h]; exact .inl ⟨rfl, rfl, rfl, rfl, rfl, rfl⟩
    · obtain ⟨⟨f, good⟩, h1, h⟩ := bind_ok_iff.mp h
      dsimp only at h
      split at h
      · injection h with h; rw [← h]; exact .inl ⟨rfl, rfl, rfl, rfl, rfl, rfl⟩
      · obtain ⟨y, h2, h⟩ := bind_ok_iff.mp h
        injection h with h
        unfold typeIndex at hti
        rw [List.findIdx?_eq_some_iff_getElem] at hti
        obtain ⟨hlt, hty, -⟩ := hti
        refine .inr ⟨st.cur.getD ti [], f, ?_, ?_, ?_, y, h2, h.symm⟩
        · rw [List.getD_eq_getElem?_getD, List.getElem?_eq_getElem hlt]; exact List.getElem_mem _
        · rw [List.getD_eq_getElem?_getD, List.getElem?_eq_getElem hlt]; exact hty
        · exact hf _ _ _ _ _ _ h1

/-- An invariant of the graphs is kept by a whole file if every addition of a completed record keeps it.  `T` may restrict
the words of the file. -/
theorem run_inv {thr : Nat} (T : Str → Prop) (hT : ∀ s, T s → T (toLower s)) (hT0 : T []) (P : PState → Prop)
    (hP : ∀ st st' : PState, st'.zone = st.zone → st'.lg = st.lg → st'.counts = st.counts → st'.rrsParsed = st.rrsParsed → P st → P st')
    (hadd : ∀ (s st st' : PState) (fld : Str) (f : FState), T fld → isTypeField fld = true → P st →
      addRR thr st (complete s (toUpper fld) f).2 = .ok st' → P st')
    (toks : List Tok) : ∀ (st st' : PState), run thr st toks = .ok st' → (∀ t ∈ toks, T t.text) → (∀ f ∈ st.cur, T f) → T st.suffix →
      P st → P st' := by
  have hproc : ∀ st st' : PState, processRecord thr st = .ok st' → (∀ f ∈ st.cur, T f) → T st.suffix → P st → P st' ∧ T st'.suffix := by
    intro st st' h hc hs hp
    rcases processRecord_cases h with ⟨h1, h2, h3, -, h6, h7⟩ | ⟨fld, f, h1, h2, h3, x, h4, h5⟩
    · exact ⟨hP _ _ h1 h2 h6 h7 hp, by rw [h3]; exact hs⟩
    · have hz : (complete st (toUpper fld) f).1.zone = st.zone ∧ (complete st (toUpper fld) f).1.lg = st.lg ∧
          (complete st (toUpper fld) f).1.counts = st.counts ∧ (complete st (toUpper fld) f).1.rrsParsed = st.rrsParsed ∧
          T (complete st (toUpper fld) f).1.suffix := by
        have hn : T f.name := by rcases h3 with e | e; (rw [e]; exact hT0); exact hc _ e
        unfold complete
        dsimp only
        split_ifs <;> refine ⟨rfl, rfl, rfl, rfl, ?_⟩ <;> first | exact hs | exact hn
      have := hadd st _ x fld f (hc _ h1) h2 (hP _ _ hz.1 hz.2.1 hz.2.2.1 hz.2.2.2.1 hp) h4
      subst h5
      refine ⟨hP x _ rfl rfl rfl rfl this, ?_⟩
      show T x.suffix
      rw [(addRR_keeps h4).2.2.1]
      exact hz.2.2.2.2
  have hend : ∀ st st' b, endOfRecord thr st = .ok (st', b) → (∀ f ∈ st.cur, T f) → T st.suffix → P st →
      P st' ∧ T st'.suffix ∧ ∀ f ∈ st'.cur, T f := by
    intro st st' b h hc hs hp
    unfold endOfRecord at h
    split at h
    · rename_i hc'
      injection h with h; injection h with h
      rw [← h]; exact ⟨hp, hs, hc⟩
    · rename_i first rest hcur
      have hr : ∀ f ∈ rest, T f := fun f hf => hc f (by rw [hcur]; exact List.mem_cons_of_mem _ hf)
      split_ifs at h
      · split at h
        · cases h
        · injection h with h; injection h with h
          rw [← h]
          exact ⟨hP st _ rfl rfl rfl rfl hp, hT _ (hr _ List.mem_cons_self), (by simp)⟩
      · injection h with h; injection h with h
        rw [← h]; exact ⟨hp, hs, hc⟩
      · split at h
        · cases h
        · obtain ⟨v, -, h⟩ := bind_ok_iff.mp h
          injection h with h; injection h with h
          rw [← h]
          exact ⟨hP st _ rfl rfl rfl rfl hp, hs, (by simp)⟩
      · obtain ⟨v, h1, h⟩ := bind_ok_iff.mp h
        injection h with h; injection h with h
        subst h
        have := hproc _ _ h1 (by
          intro f hf
          rcases List.mem_cons.mp hf with e | e
          · rw [e]; exact hs
          · exact hr f e) hs (hP st _ rfl rfl rfl rfl hp)
        refine ⟨this.1, this.2, ?_⟩
        rw [(processRecord_keeps h1).2]; simp
      · injection h with h; injection h with h
        rw [← h]; exact ⟨hp, hs, hc⟩
      · obtain ⟨v, h1, h⟩ := bind_ok_iff.mp h
        injection h with h; injection h with h
        subst h
        have := hproc _ _ h1 hc hs hp
        refine ⟨this.1, this.2, ?_⟩
        rw [(processRecord_keeps h1).2]; simp
  have hstep : ∀ st st' t b, step thr st t = .ok (st', b) → T t.text → (∀ f ∈ st.cur, T f) → T st.suffix → P st →
      P st' ∧ T st'.suffix ∧ ∀ f ∈ st'.cur, T f := by
    intro st st' t b h ht hc hs hp
    have hw : ∀ f ∈ st.cur ++ [t.text], T f := by
      intro f hf
      rcases List.mem_append.mp hf with e | e
      · exact hc f e
      · rw [List.mem_singleton.mp e]; exact ht
    unfold step at h
    split at h
    · injection h with h; injection h with h
      rw [← h]; exact ⟨hP st _ rfl rfl rfl rfl hp, hs, hc⟩
    · split at h <;>
      · injection h with h; injection h with h
        rw [← h]; exact ⟨hP st _ rfl rfl rfl rfl hp, hs, hc⟩
    · injection h with h; injection h with h
      rw [← h]; exact ⟨hP st _ rfl rfl rfl rfl hp, hs, hw⟩
    · injection h with h; injection h with h
      rw [← h]; exact ⟨hP st _ rfl rfl rfl rfl hp, hs, hw⟩
    · injection h with h; injection h with h
      rw [← h]
      split
      · exact ⟨hP st _ rfl rfl rfl rfl hp, hs, by intro f hf; rw [List.mem_singleton.mp hf]; exact hT0⟩
      · exact ⟨hp, hs, hc⟩
    · dsimp only at h
      split at h
      · exact hend _ _ _ h hc hs (hP st _ rfl rfl rfl rfl hp)
      · injection h with h; injection h with h
        rw [← h]; exact ⟨hP st _ rfl rfl rfl rfl hp, hs, hc⟩
    · injection h with h; injection h with h
      rw [← h]; exact ⟨hp, hs, hc⟩
    · injection h with h; injection h with h
      rw [← h]; exact ⟨hp, hs, hc⟩
  induction toks with
  | nil => intro st st' h _ _ _ hp; unfold run at h; injection h with h; rw [← h]; exact hp
  | cons t toks ih =>
    intro st st' h ht hc hs hp
    unfold run at h
    obtain ⟨⟨s1, b⟩, h1, h⟩ := bind_ok_iff.mp h
    have := hstep _ _ _ _ h1 (ht t List.mem_cons_self) hc hs hp
    dsimp only at h
    split at h
    · exact ih s1 st' h (fun u hu => ht u (List.mem_cons_of_mem _ hu)) this.2.2 this.2.1 this.1
    · injection h with h; rw [← h]; exact this.1

theorem complete_ns (st : PState) (type : Str) (f : FState) (h : (complete st type f).2.type = .NS) : (complete st type f).2.rdata ≠ [] := by
  have ht : type = "NS".toList := by
    have : stringToType type = .NS := h
    obtain ⟨m, h1, h2⟩ := stringToType_mnemonic type _ this (by simp)
    cases h1
    exact h2
  have hd : ∀ s : Str, endsDot s = true → toLower s ≠ [] := by
    intro s hs hc
    unfold toLower at hc
    rw [List.map_eq_nil_iff.mp hc] at hs
    cases hs
  have key : ∀ (s suffix : Str), toLower (if (type = "NS".toList ∨ type = "CNAME".toList ∨ type = "DNAME".toList ∨ type = "MX".toList)
      ∧ (!endsDot s) = true then s ++ ['.'] ++ suffix else s) ≠ [] := by
    intro s suffix
    by_cases he : endsDot s = true
    · rw [if_neg (by rw [he]; simp)]; exact hd s he
    · rw [if_pos ⟨.inl ht, by simpa using he⟩]; simp [toLower]
  unfold complete mkRR
  dsimp only
  exact key _ _

theorem Zone.membership_iff {z : Zone} {log : List RR} (ho : z.origin = soaOwner log) (r : RR) :
    z.membership r = .ok true ↔ Belongs log r := by
  unfold Zone.membership Belongs
  rw [ho]
  by_cases h0 : soaOwner log = []
  · by_cases hs : r.type = .SOA
    · simp [h0, hs]
    · simp [h0, hs]
  · have hl : (soaOwner log).length ≠ 0 := by rwa [Ne, List.length_eq_zero_iff]
    simp only [hl, and_false, if_false, Res.ok.injEq, h0, ne_eq, not_false_eq_true, true_and, false_or]
    exact subDomainCheck_iff _ _

/-- What the state of a file being loaded says about the graphs: `rs` are the records offered to the zone so far, `es` the
entries made in the label graph, which was `lg0` before. -/
structure LInv (b : Prop) (thr : Nat) (lg0 : LGraph) (id : Nat) (st : PState) (rs : List RR) (es : List (RR × Nat × Nat)) : Prop where
  zone : st.zone = Zone.afterAdds thr id rs
  lg : st.lg = es.foldl (fun g x => LGraph.addRecord thr g x.1 x.2.1 x.2.2) lg0
  entries : es.map (·.1) = stored rs
  ids : ∀ e ∈ es, e.2.1 = id
  vertex : ∃ names, st.zone.Rep names (stored rs) ∧ ∀ e ∈ es, names[e.2.2]? = some e.1.name
  fit : ∀ r ∈ rs, Fit r
  order : InOrder rs
  supp : b → Supported rs

theorem Zone.afterAdds_id (thr id : Nat) (rs : List RR) : (Zone.afterAdds thr id rs).id = id := by
  induction rs using List.reverseRecOn with
  | nil => rfl
  | append_singleton rs r ih =>
    rw [Zone.afterAdds_append]
    generalize Zone.afterAdds thr id rs = z at ih
    unfold Zone.addRecord
    dsimp only
    split <;> exact ih

theorem LInv.same {b : Prop} {thr : Nat} {lg0 : LGraph} {id : Nat} {st st' : PState} {rs : List RR} {es : List (RR × Nat × Nat)}
    (h : LInv b thr lg0 id st rs es) (h1 : st'.zone = st.zone) (h2 : st'.lg = st.lg) : LInv b thr lg0 id st' rs es := by
  refine ⟨h1.trans h.zone, h2.trans h.lg, h.entries, h.ids, ?_, h.fit, h.order, h.supp⟩
  rw [h1]; exact h.vertex

theorem LInv.offered {b : Prop} {thr : Nat} {lg0 : LGraph} {id : Nat} {st st' : PState} {rs : List RR} {es : List (RR × Nat × Nat)} {rr : RR}
    (h : LInv b thr lg0 id st rs es) (hns : rr.type = .NS → rr.rdata ≠ []) (hsup : b → rr.type ≠ .N) (h1 : Short rr.name)
    (h2 : Pointing rr → Short (stringToLabels rr.rdata)) (h3 : Belongs (stored rs) rr) (h4 : st'.zone = (st.zone.addRecord thr rr).1)
    (h5 : (st.zone.addRecord thr rr).2.1 = .SUCCESS ∧ (∃ v, (st.zone.addRecord thr rr).2.2 = some v ∧ st'.lg = st.lg.addRecord thr rr st'.zone.id v) ∨
       (st.zone.addRecord thr rr).2.1 ≠ .SUCCESS ∧ st'.lg = st.lg) :
    ∃ es', LInv b thr lg0 id st' (rs ++ [rr]) es' := by
  obtain ⟨names, hrep, hv⟩ := h.vertex
  obtain ⟨names', v, r1, r2, r3, r4, r5⟩ := hrep.add thr rr
  have hz : st'.zone = Zone.afterAdds thr id (rs ++ [rr]) := by rw [h4, h.zone, Zone.afterAdds_append]
  have hfit : ∀ r ∈ rs ++ [rr], Fit r := by
    intro r hr
    rcases List.mem_append.mp hr with e | e
    · exact h.fit r e
    · rw [List.mem_singleton.mp e]; exact ⟨h1, h2, hns⟩
  have hsp : b → Supported (rs ++ [rr]) := by
    intro hb r hr
    rcases List.mem_append.mp hr with e | e
    · exact h.supp hb r e
    · rw [List.mem_singleton.mp e]; exact hsup hb
  have hord : InOrder (rs ++ [rr]) := by
    intro pre r post e
    rcases List.eq_nil_or_concat post with rfl | ⟨post', x, rfl⟩
    · obtain ⟨e1, e2⟩ := List.append_inj' e rfl
      cases e2
      rw [← e1]; exact h3
    · have e' : rs ++ [rr] = (pre ++ r :: post') ++ [x] := by rw [e]; simp
      obtain ⟨e1, -⟩ := List.append_inj' e' rfl
      exact h.order pre r post' e1
  have hold : ∀ e ∈ es, names'[e.2.2]? = some e.1.name := by
    intro e he
    obtain ⟨t, rfl⟩ := r4
    rw [List.getElem?_append_left (Trie.name_lt (hv e he))]
    exact hv e he
  have hcode : (st.zone.addRecord thr rr).2.1 = .SUCCESS ↔ Admissible (stored rs) rr := by rw [r2, admissible_iff]
  have hst := stored_append rs rr
  rcases h5 with ⟨hs, u, hu, hlg⟩ | ⟨hs, hlg⟩
  · have hadm := hcode.mp hs
    rw [if_pos hadm] at r1 hst
    rw [hs, hu, if_neg (by simp)] at r5
    cases r5
    refine ⟨es ++ [(rr, id, v)], hz, ?_, ?_, ?_, ⟨names', ?_, ?_⟩, hfit, hord, hsp⟩
    · rw [List.foldl_append, ← h.lg, hlg, hz, Zone.afterAdds_id]; rfl
    · rw [List.map_append, h.entries, hst]; rfl
    · intro e he
      rcases List.mem_append.mp he with e1 | e1
      · exact h.ids e e1
      · rw [List.mem_singleton.mp e1]
    · rw [hst, h4]; exact r1
    · intro e he
      rcases List.mem_append.mp he with e1 | e1
      · exact hold e e1
      · rw [List.mem_singleton.mp e1]; exact r3
  · have hadm := fun c => hs (hcode.mpr c)
    rw [if_neg hadm] at r1 hst
    refine ⟨es, hz, hlg.trans h.lg, by rw [hst]; exact h.entries, h.ids, ⟨names', ?_, hold⟩, hfit, hord, hsp⟩
    rw [hst, h4]; exact r1

theorem LInv.add {b : Prop} {thr : Nat} {lg0 : LGraph} {id : Nat} {st st' : PState} {rs : List RR} {es : List (RR × Nat × Nat)} {rr : RR}
    (h : LInv b thr lg0 id st rs es) (ht : Tallied st.counts st.rrsParsed (stored rs)) (hns : rr.type = .NS → rr.rdata ≠ []) (hsup : b → rr.type ≠ .N)
    (ha : addRR thr st rr = .ok st') :
    ∃ rs' es', LInv b thr lg0 id st' rs' es' ∧ Tallied st'.counts st'.rrsParsed (stored rs') := by
  have href : Refused { st with rrsParsed := st.rrsParsed + 1 } st' → Tallied st'.counts st'.rrsParsed (stored rs) := by
    rintro ⟨e1, k, hk, e2⟩
    rw [e1, e2]
    exact ht.refused hk
  rcases addRR_effect ha with ⟨h1, h2, h3⟩ | ⟨h1, h2, h3, h4, h5, h6⟩
  · exact ⟨rs, es, h.same h1 h2, href h3⟩
  · obtain ⟨names, hrep, -⟩ := h.vertex
    rw [Zone.membership_iff hrep.origin] at h3
    obtain ⟨es', hl⟩ := h.offered hns hsup h1 h2 h3 h4 h5
    refine ⟨rs ++ [rr], es', hl, ?_⟩
    have hcode : (st.zone.addRecord thr rr).2.1 = .SUCCESS ↔ Admissible (stored rs) rr := by
      obtain ⟨_, _, _, r2, _⟩ := hrep.add thr rr
      rw [r2, admissible_iff]
    rw [stored_append]
    rcases h6 with ⟨a1, a2, a3⟩ | ⟨a1, a2⟩
    · rw [if_pos (hcode.mp a1), a2, a3]
      exact ht.kept rr
    · rw [if_neg (fun c => a1 (hcode.mpr c))]
      exact href a2

theorem upper_lower (c : Char) : upperChar (lowerChar c) = upperChar c := by
  by_cases h : 'A' ≤ c ∧ c ≤ 'Z'
  · have hb : c.toNat < 91 := by
      have := h.2
      have h2 : c.toNat ≤ 'Z'.toNat := this
      have : 'Z'.toNat = 90 := rfl
      omega
    have e : c = Char.ofNat c.toNat := (Char.ofNat_toNat c).symm
    generalize c.toNat = n at e hb
    subst e
    revert hb n
    decide +kernel
  · unfold lowerChar
    rw [if_neg h]

theorem toUpper_toLower (s : Str) : toUpper (toLower s) = toUpper s := by
  unfold toUpper toLower
  rw [List.map_map]
  exact List.map_congr_left (fun c _ => upper_lower c)

/-- Every type field but DS names a supported type. -/
theorem typeField_supported {fld : Str} (h : isTypeField fld = true) (hd : toUpper fld ≠ "DS".toList) : stringToType (toUpper fld) ≠ .N := by
  unfold isTypeField at h
  rw [Bool.and_eq_true, List.contains_iff_mem] at h
  have h := h.2
  generalize toUpper fld = u at h hd
  have : ∀ u ∈ typeNames, u ≠ "DS".toList → stringToType u ≠ .N := by decide +kernel
  exact this u h hd

/-- Loading a file. -/
theorem run_linv {b : Prop} {thr : Nat} {lg0 : LGraph} {id : Nat} {st st' : PState} {toks : List Tok} {rs : List RR} {es : List (RR × Nat × Nat)}
    (h : LInv b thr lg0 id st rs es) (ht : Tallied st.counts st.rrsParsed (stored rs)) (hr : run thr st toks = .ok st')
    (hb : b → (∀ t ∈ toks, toUpper t.text ≠ "DS".toList) ∧ (∀ f ∈ st.cur, toUpper f ≠ "DS".toList) ∧ toUpper st.suffix ≠ "DS".toList) :
    ∃ rs' es', LInv b thr lg0 id st' rs' es' ∧ Tallied st'.counts st'.rrsParsed (stored rs') := by
  refine run_inv (fun s => b → toUpper s ≠ "DS".toList) (fun s hs hb => by rw [toUpper_toLower]; exact hs hb) (fun _ => by decide)
    (fun st => ∃ rs es, LInv b thr lg0 id st rs es ∧ Tallied st.counts st.rrsParsed (stored rs)) ?_ ?_ toks st st' hr
    (fun t ht hb' => (hb hb').1 t ht) (fun f hf hb' => (hb hb').2.1 f hf) (fun hb' => (hb hb').2.2) ⟨rs, es, h, ht⟩
  · rintro a b h1 h2 h3 h4 ⟨rs, es, h, ht⟩
    refine ⟨rs, es, ⟨h1.trans h.zone, h2.trans h.lg, h.entries, h.ids, ?_, h.fit, h.order, h.supp⟩, by rw [h3, h4]; exact ht⟩
    rw [h1]; exact h.vertex
  · rintro s a c fld f h1 h2 ⟨rs, es, h, ht⟩ ha
    exact h.add ht (complete_ns s _ f) (fun hb' => typeField_supported h2 (h1 hb')) ha

theorem LInv.start (b : Prop) (thr : Nat) (lg0 : LGraph) (id : Nat) (suffix : Str) (lint : Bool) :
    LInv b thr lg0 id { suffix := suffix, lg := lg0, zone := Zone.init id, lint := lint } [] [] where
  zone := rfl
  lg := rfl
  entries := rfl
  ids := by simp
  vertex := ⟨[[]], Zone.Rep.init id, by simp⟩
  fit := by simp
  order := by intro pre r post e; simp at e
  supp := by intro _ r hr; cases hr

end Groot

namespace Groot

open Spec Parser

theorem lookup_pushZone (ns : Str) (id : Nat) (l : List (Str × List Nat)) (s : Str) :
    (pushZone ns id l).lookup s = if s = ns then some ((l.lookup ns).getD [] ++ [id]) else l.lookup s := by
  induction l with
  | nil =>
    unfold pushZone
    by_cases h : s = ns
    · subst h; simp
    · rw [if_neg h, List.lookup_cons]
      have : (s == ns) = false := by simpa using h
      rw [this]
  | cons p l ih =>
    obtain ⟨k, ids⟩ := p
    unfold pushZone
    by_cases hk : k = ns
    · subst hk
      rw [if_pos rfl]
      by_cases h : s = k
      · subst h; simp
      · have : (s == k) = false := by simpa using h
        rw [if_neg h, List.lookup_cons, this, List.lookup_cons, this]
    · have hk' : (ns == k) = false := by simpa using fun e => hk e.symm
      rw [if_neg hk, List.lookup_cons]
      by_cases h : s = ns
      · subst h
        rw [hk', if_pos rfl, List.lookup_cons, hk', ih, if_pos rfl]
      · rw [if_neg h, List.lookup_cons, ih, if_neg h]

theorem lookup_of_mem {β : Type} {l : List (Nat × β)} (h : (l.map (·.1)).Pairwise (· < ·)) {p : Nat × β} (hp : p ∈ l) : l.lookup p.1 = some p.2 := by
  induction l with
  | nil => cases hp
  | cons q l ih =>
    rw [List.map_cons, List.pairwise_cons] at h
    rcases List.mem_cons.mp hp with rfl | hp
    · rw [List.lookup_cons]; simp
    · have : p.1 ≠ q.1 := by
        have := h.1 p.1 (List.mem_map_of_mem hp)
        omega
      rw [List.lookup_cons]
      have : (p.1 == q.1) = false := by simpa using this
      rw [this]
      exact ih h.2 hp

theorem mem_of_lookup {α β : Type} [BEq α] [LawfulBEq α] {l : List (α × β)} {k : α} {v : β} (h : l.lookup k = some v) : (k, v) ∈ l := by
  obtain ⟨a, b, e, -⟩ := List.lookup_eq_some_iff.mp h
  rw [e]; simp

theorem lookup_none_of_not_mem {β : Type} {l : List (Nat × β)} {k : Nat} (h : k ∉ l.map (·.1)) : l.lookup k = none := by
  cases hl : l.lookup k with
  | none => rfl
  | some v => exact absurd (List.mem_map_of_mem (f := (·.1)) (mem_of_lookup hl)) h

/-- What is known while files are being loaded. -/
structure Loading (b : Prop) (thr : Nat) (top : List Str) (d : Loaded) (w : World) (xs : List (RR × Nat × Nat)) : Prop where
  ns : d.ctx.nsZones = w.nsZones
  top : d.ctx.top = top ∧ w.top = top
  zones : d.ctx.zones = w.zones.map (fun p => (p.1, Zone.afterAdds thr p.1 p.2))
  lg : d.lg = labelGraph thr xs
  coherent : Coherent d w xs
  supp : b → ∀ p ∈ w.zones, Supported p.2
  counters : Counters d.counts
  counted : ∀ k, k ∉ refusalKeys → sumOf (fun a => decide (a = k)) d.counts = ((xs.map (·.1)).flatMap keptKeys).count k
  total : sumOf (fun k => decide (k ≠ "Wildcard".toList)) d.counts = d.rrCount

theorem Loading.start (b : Prop) (thr : Nat) (top : List Str) : Loading b thr top { ctx := { top := top } } ⟨[], [], top⟩ [] where
  ns := rfl
  top := ⟨rfl, rfl⟩
  zones := rfl
  lg := rfl
  coherent :=
    { increasing := List.Pairwise.nil
      positive := by simp
      servers := rfl
      hosted := by intro s; rfl
      listed := by intro s h; exact absurd rfl h
      entries := by simp
      vertices := by simp
      known := by simp
      fit := by simp
      order := by simp }
  supp := by simp
  counters := .nil
  counted := fun _ _ => rfl
  total := rfl

/-- One more file. -/
theorem Loading.next {b : Prop} {thr : Nat} {top : List Str} {d d' : Loaded} {w : World} {xs : List (RR × Nat × Nat)} (h : Loading b thr top d w xs)
    {lint : Bool} {file contents ns origin : Str} (hl : loadZone thr lint d file contents ns origin = .ok d')
    (hb : b → (∀ t ∈ Lexer.tokens contents, toUpper t.text ≠ "DS".toList) ∧ toUpper origin ≠ "DS".toList) :
    ∃ w' xs', Loading b thr top d' w' xs' ∧ d'.ctx.counter = d.ctx.counter + 1 ∧
      (d'.ctx.zoneNs = d.ctx.zoneNs ∨ d'.ctx.zoneNs = d.ctx.zoneNs ++ [(d.ctx.counter + 1, ns)]) := by
  unfold loadZone at hl
  obtain ⟨st, hrun, hl⟩ := bind_ok_iff.mp hl
  obtain ⟨rs, es, hi, htal⟩ := run_linv (LInv.start b thr d.lg (d.ctx.counter + 1) origin lint) .nil hrun
    (fun hb' => ⟨(hb hb').1, fun f hf => absurd hf List.not_mem_nil, (hb hb').2⟩)
  injection hl with hl
  have c := h.coherent
  have hcnt : Counters (mergeCounts d.counts (tally st.counts)) := h.counters.merge (Counters.tally _).2
  have hcounted : ∀ k, k ∉ refusalKeys → sumOf (fun a => decide (a = k)) (mergeCounts d.counts (tally st.counts)) =
      (((xs ++ es).map (·.1)).flatMap keptKeys).count k := by
    intro k hk
    rw [sumOf_merge, h.counted k hk, sumOf_tally, List.map_append, List.flatMap_append, List.count_append, hi.entries, ← htal.1 k hk]
    congr 1
    unfold List.count
    refine List.countP_congr (fun a _ => ?_)
    simp
  have htotal : sumOf (fun k => decide (k ≠ "Wildcard".toList)) (mergeCounts d.counts (tally st.counts)) = d.rrCount + st.rrsParsed := by
    rw [sumOf_merge, h.total, sumOf_tally, htal.2]
  have hlg : st.lg = labelGraph thr (xs ++ es) := by
    rw [hi.lg, h.lg]
    unfold labelGraph
    rw [List.foldl_append]
  have hes : ∀ e ∈ es, ¬ (e.2.1 ≤ d.ctx.counter) := by
    intro e he; rw [hi.ids e he]; omega
  have hxs : xs.filter (fun x => decide (x.2.1 = d.ctx.counter + 1)) = [] := by
    rw [List.filter_eq_nil_iff]
    intro x hx
    have := (c.known x hx).2
    simp only [decide_eq_true_eq]
    omega
  have hold : ∀ p ∈ w.zones, ((xs ++ es).filter (fun x => decide (x.2.1 = p.1))).map (·.1) = stored p.2 := by
    intro p hp
    rw [List.filter_append]
    have : es.filter (fun x => decide (x.2.1 = p.1)) = [] := by
      rw [List.filter_eq_nil_iff]
      intro x hx
      have h1 := hes x hx
      have h2 := (c.positive p.1 (List.mem_map_of_mem hp)).2
      simp only [decide_eq_true_eq]
      omega
    rw [this, List.append_nil]
    exact c.entries p hp
  have hnew : ((xs ++ es).filter (fun x => decide (x.2.1 = d.ctx.counter + 1))).map (·.1) = stored rs := by
    rw [List.filter_append, hxs, List.nil_append, ← hi.entries]
    congr 1
    rw [List.filter_eq_self]
    intro e he
    simpa using hi.ids e he
  have hknown : ∀ x ∈ xs ++ es, 0 < x.2.1 ∧ x.2.1 ≤ d.ctx.counter + 1 := by
    intro x hx
    rcases List.mem_append.mp hx with e | e
    · have := c.known x e; omega
    · rw [hi.ids x e]; omega
  have hkeys : d.ctx.zones.map (·.1) = w.zones.map (·.1) := by rw [h.zones, List.map_map]; rfl
  have hvert : ∀ x ∈ xs, ∀ z, d.ctx.zones.lookup x.2.1 = some z → ∀ thr, z.ancestor thr x.1.name = (x.2.2, x.1.name.length) := c.vertices
  by_cases hf : st.foundSOA = true
  · rw [if_pos hf] at hl
    subst hl
    refine ⟨⟨w.zones ++ [(d.ctx.counter + 1, rs)], pushZone ns (d.ctx.counter + 1) w.nsZones, w.top⟩, xs ++ es, ?_, rfl, .inr rfl⟩
    refine ⟨by rw [← h.ns], h.top, ?_, hlg, ?_, ?_, hcnt, hcounted, htotal⟩
    · show d.ctx.zones ++ [(d.ctx.counter + 1, st.zone)] = _
      rw [List.map_append, ← h.zones, hi.zone]; rfl
    · have hzl : ∀ k z, (d.ctx.zones ++ [(d.ctx.counter + 1, st.zone)]).lookup k = some z →
          (d.ctx.zones.lookup k = some z) ∨ (k = d.ctx.counter + 1 ∧ z = st.zone) := by
        intro k z hk
        rw [Trie.lookup_append] at hk
        cases hq : d.ctx.zones.lookup k with
        | some z' => rw [hq] at hk; exact .inl hk
        | none =>
          rw [hq] at hk
          right
          have := mem_of_lookup (hk : List.lookup k [(d.ctx.counter + 1, st.zone)] = some z)
          rw [List.mem_singleton] at this
          injection this with e1 e2
          exact ⟨e1, e2⟩
      have hhost : ∀ s, World.hosted ⟨w.zones ++ [(d.ctx.counter + 1, rs)], pushZone ns (d.ctx.counter + 1) w.nsZones, w.top⟩ s =
          if s = ns then w.hosted s ++ [d.ctx.counter + 1] else w.hosted s := by
        intro s
        unfold World.hosted
        dsimp only
        rw [lookup_pushZone]
        by_cases e : s = ns
        · rw [if_pos e, if_pos e, e]; rfl
        · rw [if_neg e, if_neg e]
      refine ⟨?_, ?_, ?_, ?_, ?_, ?_, ?_, hknown, ?_, ?_⟩
      · show ((w.zones ++ [(d.ctx.counter + 1, rs)]).map (·.1)).Pairwise (· < ·)
        rw [List.map_append, List.pairwise_append]
        refine ⟨c.increasing, List.pairwise_singleton _ _, ?_⟩
        intro a ha b hb
        have := (c.positive a ha).2
        have : b = d.ctx.counter + 1 := by simpa using hb
        omega
      · intro id hid
        have hid' : id ∈ (w.zones ++ [(d.ctx.counter + 1, rs)]).map (·.1) := hid
        rw [List.map_append, List.mem_append] at hid'
        show 0 < id ∧ id ≤ d.ctx.counter + 1
        rcases hid' with e | e
        · have := c.positive id e; omega
        · have : id = d.ctx.counter + 1 := by simpa using e
          omega
      · show (d.ctx.zoneNs ++ [(d.ctx.counter + 1, ns)]).map (·.1) = (w.zones ++ [(d.ctx.counter + 1, rs)]).map (·.1)
        rw [List.map_append, List.map_append, c.servers]; rfl
      · intro s
        rw [hhost s]
        show _ = ((d.ctx.zoneNs ++ [(d.ctx.counter + 1, ns)]).filter (fun p => decide (p.2 = s))).map (·.1)
        rw [List.filter_append, List.map_append, ← c.hosted s]
        by_cases e : s = ns
        · subst e; simp
        · have e' : ¬ ns = s := fun x => e x.symm
          simp [e, e']
      · intro s hs
        rw [hhost s]
        by_cases e : s = ns
        · rw [if_pos e]; simp
        · rw [if_neg e]
          refine c.listed s ?_
          unfold World.Listed at hs ⊢
          dsimp only at hs
          rwa [lookup_pushZone, if_neg e] at hs
      · intro p hp
        rcases List.mem_append.mp hp with e | e
        · exact hold p e
        · rw [List.mem_singleton.mp e]; exact hnew
      · intro x hx z hz t
        rcases List.mem_append.mp hx with e | e
        · rcases hzl _ _ hz with q | ⟨q, -⟩
          · exact hvert x e z q t
          · have := (c.known x e).2; omega
        · have hid := hi.ids x e
          rcases hzl _ _ hz with q | ⟨-, q⟩
          · exfalso
            have := List.mem_map_of_mem (f := (·.1)) (mem_of_lookup q)
            rw [hkeys] at this
            have := (c.positive _ this).2
            omega
          · subst q
            obtain ⟨names, hrep, hv⟩ := hi.vertex
            have hv := hv x e
            have hp := (hrep.present_iff t x.1.name).mpr ((hrep.mem _).mp (List.mem_of_getElem? hv))
            have := (hrep.ancestor t x.1.name).2.1
            rw [hp, List.take_length] at this
            exact Prod.ext (Trie.name_inj hrep.inv.nodup this hv) hp
      · intro p hp
        rcases List.mem_append.mp hp with e | e
        · exact c.fit p e
        · rw [List.mem_singleton.mp e]; exact hi.fit
      · intro p hp
        rcases List.mem_append.mp hp with e | e
        · exact c.order p e
        · rw [List.mem_singleton.mp e]; exact hi.order
    · intro hb' p hp
      rcases List.mem_append.mp hp with e | e
      · exact h.supp hb' p e
      · rw [List.mem_singleton.mp e]; exact hi.supp hb'
  · rw [if_neg hf] at hl
    subst hl
    refine ⟨w, xs ++ es, ⟨h.ns, h.top, h.zones, hlg, ?_, h.supp, hcnt, hcounted, htotal⟩, rfl, .inl rfl⟩
    refine ⟨c.increasing, ?_, c.servers, c.hosted, c.listed, hold, ?_, hknown, c.fit, c.order⟩
    · intro id hid
      have := c.positive id hid
      show 0 < id ∧ id ≤ d.ctx.counter + 1
      omega
    · intro x hx z hz t
      rcases List.mem_append.mp hx with e | e
      · exact hvert x e z hz t
      · exfalso
        have := List.mem_map_of_mem (f := (·.1)) (mem_of_lookup (hz : d.ctx.zones.lookup x.2.1 = some z))
        rw [hkeys] at this
        have := (c.positive _ this).2
        exact hes x e this

end Groot
