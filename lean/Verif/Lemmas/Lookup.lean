import Verif.Lemmas.Zone

namespace Groot
open Spec

/-! ### Types at a node -/

theorem setBit_ok {ts : TypeSet} {t : RRType} (h : t ≠ .N) : TypeSet.setBit ts t = .ok (ts.add t) := by
  simp [TypeSet.setBit, h]

theorem getBit_ok {ts : TypeSet} {t : RRType} (h : t ≠ .N) : TypeSet.getBit ts t = .ok (ts.has t) := by
  simp [TypeSet.getBit, h]

theorem setChecked_ok {ts : TypeSet} {t : RRType} (h : t ≠ .N) : TypeSet.setChecked ts t = .ok (ts.add t) := by
  simp [TypeSet.setChecked, h]

theorem nodeTypes_aux (rrs : List RR) (h : Supported rrs) : ∀ acc : TypeSet,
    ∃ ts, rrs.foldlM (fun ts r => TypeSet.setBit ts r.type) acc = .ok ts ∧
      ∀ t, ts.has t = true ↔ acc.has t = true ∨ ∃ r ∈ rrs, r.type = t := by
  induction rrs with
  | nil => intro acc; exact ⟨acc, rfl, by simp⟩
  | cons r rrs ih =>
    intro acc
    have hr : r.type ≠ .N := h r (by simp)
    obtain ⟨ts, h1, h2⟩ := ih (fun x hx => h x (by simp [hx])) (acc.add r.type)
    refine ⟨ts, ?_, ?_⟩
    · rw [List.foldlM_cons, setBit_ok hr]; exact h1
    · intro t
      rw [h2]
      simp only [has_add, Bool.or_eq_true, decide_eq_true_eq, List.mem_cons, exists_eq_or_imp]
      constructor
      · rintro ((h3 | ⟨h3, _⟩) | h3)
        · exact Or.inl h3
        · exact Or.inr (Or.inl h3)
        · exact Or.inr (Or.inr h3)
      · rintro (h3 | h3 | h3)
        · exact Or.inl (Or.inl h3)
        · exact Or.inl (Or.inr ⟨h3, hr⟩)
        · exact Or.inr h3

theorem nodeTypes_ok {log : List RR} (h : Supported log) (n : Name) :
    ∃ ts, Zone.nodeTypes (recordsAt log n) = .ok ts ∧ TypesAt log n ts ∧
      ∀ t, ts.has t = true ↔ HasType log n t := by
  obtain ⟨ts, h1, h2⟩ := nodeTypes_aux (recordsAt log n)
    (fun r hr => h r (mem_recordsAt.mp hr).1) 0
  have h3 : ∀ t, ts.has t = true ↔ HasType log n t := by
    intro t
    rw [h2]
    simp only [has_zero, Bool.false_eq_true, false_or, mem_recordsAt, HasType]
    constructor
    · rintro ⟨r, ⟨a, b⟩, c⟩; exact ⟨r, a, b, c⟩
    · rintro ⟨r, a, b, c⟩; exact ⟨r, ⟨a, b⟩, c⟩
  refine ⟨ts, h1, ?_, h3⟩
  intro t
  rw [← has_iff, h3]
  constructor
  · intro ht
    refine ⟨?_, ht⟩
    obtain ⟨r, hr, _, rfl⟩ := ht
    exact h r hr
  · exact fun ht => ht.2

theorem typesAt_unique {log : List RR} {n : Name} {a b : TypeSet} (ha : TypesAt log n a) (hb : TypesAt log n b) :
    a = b := by
  apply typeSet_ext
  intro t
  rw [Bool.eq_iff_iff, has_iff, has_iff, ha t, hb t]

/-! ### `closestEncloser` -/

theorem Zone.Rep.child {z : Zone} {names : List Name} {log : List RR} (h : z.Rep names log) {v : Nat} {n : Name}
    (hv : names[v]? = some n) (l : Label) (u : Nat) : z.child v l = some u ↔ names[u]? = some (n ++ [l]) :=
  h.inv.step_iff hv l u

theorem Zone.Rep.closest {z : Zone} {names : List Name} {log : List RR} (h : z.Rep names log) (hs : Supported log)
    (ls : List Label) : ∀ v n, names[v]? = some n →
    ∃ u k, z.closestEncloser v ls = .ok (u, k) ∧ k ≤ ls.length ∧ names[u]? = some (n ++ ls.take k) ∧
      (∀ j, 0 < j → j < k → ¬ Covers log (n ++ ls.take j)) ∧
      (Covers log (n ++ ls.take k) ∧ 0 < k ∨ k = ls.length ∨ ¬ NameExists log (n ++ ls.take (k + 1))) := by
  induction ls with
  | nil =>
    intro v n hv
    exact ⟨v, 0, rfl, Nat.le_refl _, by simpa using hv, by intro j _ hj; omega, Or.inr (Or.inl rfl)⟩
  | cons l ls ih =>
    intro v n hv
    unfold Zone.closestEncloser
    cases hc : z.child v l with
    | none =>
      refine ⟨v, 0, rfl, Nat.zero_le _, by simpa using hv, by intro j _ hj; omega, Or.inr (Or.inr ?_)⟩
      simp only [Nat.zero_add, List.take_succ_cons, List.take_zero]
      intro he
      obtain ⟨u, hu⟩ := List.mem_iff_getElem?.mp ((h.mem _).mpr he)
      rw [← h.child hv] at hu
      rw [hc] at hu; cases hu
    | some u =>
      have hu := (h.child hv l u).mp hc
      obtain ⟨ts, t1, _, t3⟩ := nodeTypes_ok hs (n ++ [l])
      dsimp only
      rw [h.data u _ hu, t1]
      simp only [Res.ok_bind]
      have hne : n ++ [l] ≠ [] := by simp
      by_cases hcut : (ts.has .NS && !ts.has .SOA) = true
      · rw [if_pos hcut]
        refine ⟨u, 1, rfl, by simp, by simpa using hu, by intro j _ hj; omega, Or.inl ⟨?_, by omega⟩⟩
        simp only [Bool.and_eq_true, Bool.not_eq_true'] at hcut
        simp only [List.take_succ_cons, List.take_zero]
        refine ⟨hne, Or.inl ⟨(t3 _).mp hcut.1, ?_⟩⟩
        rw [← t3]; simp [hcut.2]
      · rw [if_neg hcut]
        have hnocut : ¬ Cut log (n ++ [l]) := by
          rintro ⟨c1, c2⟩
          apply hcut
          rw [← t3] at c1 c2
          simp [c1, c2]
        by_cases hd : (ts.has .DNAME && !ls.isEmpty) = true
        · rw [if_pos hd]
          refine ⟨u, 1, rfl, by simp, by simpa using hu, by intro j _ hj; omega, Or.inl ⟨?_, by omega⟩⟩
          simp only [Bool.and_eq_true] at hd
          simp only [List.take_succ_cons, List.take_zero]
          exact ⟨hne, Or.inr ((t3 _).mp hd.1)⟩
        · rw [if_neg hd]
          obtain ⟨w, k, i1, i2, i3, i4, i5⟩ := ih u (n ++ [l]) hu
          rw [i1]
          refine ⟨w, k + 1, rfl, by simpa using i2, by simpa using i3, ?_, ?_⟩
          · intro j hj hjk
            obtain ⟨j', rfl⟩ : ∃ j', j = j' + 1 := ⟨j - 1, by omega⟩
            by_cases hj' : j' = 0
            · subst hj'
              simp only [Nat.zero_add, List.take_succ_cons, List.take_zero]
              rintro ⟨_, hc | hdn⟩
              · exact hnocut hc
              · rw [← t3] at hdn
                simp only [hdn, Bool.true_and, Bool.not_eq_true', Bool.not_eq_false,
                  List.isEmpty_iff] at hd
                subst hd
                simp at i2
                omega
            · have := i4 j' (by omega) (by omega)
              simpa using this
          · rcases i5 with ⟨i5, i6⟩ | i5 | i5
            · exact Or.inl ⟨by simpa using i5, by omega⟩
            · exact Or.inr (Or.inl (by simp [i5]))
            · exact Or.inr (Or.inr (by simpa using i5))

theorem Zone.Rep.encloser {z : Zone} {names : List Name} {log : List RR} (h : z.Rep names log) (hs : Supported log)
    (n : Name) : ∃ v e, z.closestEncloser 0 n = .ok (v, e.length) ∧ names[v]? = some e ∧ Encloser log n e ∧
      e <+: n := by
  obtain ⟨u, k, h1, h2, h3, h4, h5⟩ := h.closest hs n 0 [] h.inv.root
  simp only [List.nil_append] at h3 h4 h5
  have hlen : (n.take k).length = k := by simp [h2]
  refine ⟨u, n.take k, by rw [h1, hlen], h3, ?_, List.take_prefix _ _⟩
  refine ⟨(atOrBelow_iff_prefix _ _).mpr (List.take_prefix _ _), (h.mem _).mp (List.mem_of_getElem? h3), ?_, ?_⟩
  · intro p hp hne hc
    rw [atOrBelow_iff_prefix] at hp
    have hpl : p.length < k := by
      have h6 := hp.length_le
      rw [hlen] at h6
      rcases Nat.lt_or_ge p.length k with h7 | h7
      · exact h7
      · exfalso; apply hne
        exact hp.eq_of_length (by rw [hlen]; omega)
    have hp' : p = n.take p.length := List.prefix_iff_eq_take.mp (hp.trans (List.take_prefix _ _))
    have hp0 : 0 < p.length := List.length_pos_iff.mpr hc.1
    exact h4 p.length hp0 hpl (hp' ▸ hc)
  · rcases h5 with h5 | h5 | h5
    · exact Or.inl h5.1
    · right; left; rw [h5, List.take_length]
    · right; right
      intro l hl he
      rw [atOrBelow_iff_prefix] at hl
      have := List.prefix_iff_eq_take.mp hl
      rw [List.length_append, hlen] at this
      exact h5 (by rw [List.length_singleton] at this; rw [← this]; exact he)

theorem encloser_unique {log : List RR} {n e e' : Name} (h : Encloser log n e) (h' : Encloser log n e') : e = e' := by
  have key : ∀ e e' : Name, Encloser log n e → Encloser log n e' → e <+: e' → e = e' := by
    rintro e e' ⟨h1, _, _, h4⟩ ⟨h1', h2', h3', _⟩ hp
    by_contra hne
    rw [atOrBelow_iff_prefix] at h1 h1'
    have hnc := h3' e ((atOrBelow_iff_prefix _ _).mpr hp) hne
    obtain ⟨r, hr⟩ := hp
    cases r with
    | nil => exact hne (by simpa using hr)
    | cons l r =>
      have hp2 : e ++ [l] <+: e' := ⟨r, by rw [← hr]; simp⟩
      rcases h4 with h4 | h4 | h4
      · exact hnc h4
      · subst h4
        have a1 := h1'.length_le
        have a2 := hp2.length_le
        simp at a2; omega
      · exact h4 l ((atOrBelow_iff_prefix _ _).mpr (hp2.trans h1')) (exists_prefix h2' hp2)
  have a := (atOrBelow_iff_prefix _ _).mp h.1
  have b := (atOrBelow_iff_prefix _ _).mp h'.1
  rcases List.prefix_or_prefix_of_prefix a b with c | c
  · exact key e e' h h' c
  · exact (key e' e h' h c).symm

/-! ### Scans -/

theorem wildcardScan_data (q : EC) (rrs : List RR) (hs : Supported rrs) (hc : ∀ r ∈ rrs, r.type ≠ .CNAME) :
    ∀ m f, ∃ f', Zone.wildcardScan q rrs m f =
        .ok (.inr (m ++ rrs.filter (fun r => decide (Member q.types r.type)), f')) ∧
      ∀ t, f'.has t = true ↔ f.has t = true ∨ (q.types.has t = true ∧ ∃ r ∈ rrs, r.type = t) := by
  induction rrs with
  | nil => intro m f; exact ⟨f, by simp [Zone.wildcardScan], by simp⟩
  | cons r rrs ih =>
    intro m f
    have hr := hs r (by simp)
    have hrc := hc r (by simp)
    have ih' := ih (fun x hx => hs x (by simp [hx])) (fun x hx => hc x (by simp [hx]))
    unfold Zone.wildcardScan
    rw [if_neg hrc, getBit_ok hr]
    simp only [Res.ok_bind]
    by_cases hq : q.types.has r.type = true
    · rw [if_pos hq, setChecked_ok hr]
      simp only [Res.ok_bind]
      obtain ⟨f', h1, h2⟩ := ih' (m ++ [r]) (f.add r.type)
      refine ⟨f', ?_, ?_⟩
      · rw [h1, List.filter_cons_of_pos (by simpa using (has_iff _ _).mp hq)]; simp
      · intro t
        rw [h2]
        simp only [has_add, Bool.or_eq_true, decide_eq_true_eq, List.mem_cons, exists_eq_or_imp]
        constructor
        · rintro ((h3 | ⟨rfl, _⟩) | ⟨h3, h4⟩)
          · exact Or.inl h3
          · exact Or.inr ⟨hq, Or.inl rfl⟩
          · exact Or.inr ⟨h3, Or.inr h4⟩
        · rintro (h3 | ⟨h3, h4 | h4⟩)
          · exact Or.inl (Or.inl h3)
          · exact Or.inl (Or.inr ⟨h4, hr⟩)
          · exact Or.inr ⟨h3, h4⟩
    · rw [if_neg hq]
      obtain ⟨f', h1, h2⟩ := ih' m f
      refine ⟨f', ?_, ?_⟩
      · rw [h1, List.filter_cons_of_neg (by rw [has_iff] at hq; simpa using hq)]
      · intro t
        rw [h2]
        simp only [List.mem_cons, exists_eq_or_imp]
        constructor
        · rintro (h3 | ⟨h3, h4⟩)
          · exact Or.inl h3
          · exact Or.inr ⟨h3, Or.inr h4⟩
        · rintro (h3 | ⟨h3, h4 | h4⟩)
          · exact Or.inl h3
          · subst h4; exact absurd h3 hq
          · exact Or.inr ⟨h3, h4⟩

theorem wildcardScan_cname (q : EC) (r : RR) (h : r.type = .CNAME) : Zone.wildcardScan q [r] [] 0 = .ok (.inl r) := by
  simp [Zone.wildcardScan, h]

theorem exactScan_cname (q : EC) (r : RR) (h : r.type = .CNAME) : Zone.exactScan q [r] [] [] 0 = .ok (.inl r) := by
  unfold Zone.exactScan
  rw [if_neg (by simp [h]), h, getBit_ok (by decide), setChecked_ok (by decide)]
  simp

theorem exactScan_data (q : EC) (rrs : List RR) (hs : Supported rrs) (hc : ∀ r ∈ rrs, r.type ≠ .CNAME) :
    ∀ m ns f, ∃ f', Zone.exactScan q rrs m ns f =
        .ok (.inr (m ++ rrs.filter (fun r => decide (r.type ≠ .NS ∧ Member q.types r.type)),
          ns ++ rrs.filter (fun r => decide (r.type = .NS)), f')) ∧
      ∀ t, f'.has t = true ↔ f.has t = true ∨ (t ≠ .NS ∧ q.types.has t = true ∧ ∃ r ∈ rrs, r.type = t) := by
  induction rrs with
  | nil => intro m ns f; exact ⟨f, by simp [Zone.exactScan], by simp⟩
  | cons r rrs ih =>
    intro m ns f
    have hr := hs r (by simp)
    have hrc := hc r (by simp)
    have ih' := ih (fun x hx => hs x (by simp [hx])) (fun x hx => hc x (by simp [hx]))
    unfold Zone.exactScan
    by_cases hns : r.type = .NS
    · rw [if_pos hns]
      obtain ⟨f', h1, h2⟩ := ih' m (ns ++ [r]) f
      refine ⟨f', ?_, ?_⟩
      · rw [h1, List.filter_cons_of_neg (by simp [hns]), List.filter_cons_of_pos (by simp [hns])]; simp
      · intro t
        rw [h2]
        simp only [List.mem_cons, exists_eq_or_imp]
        constructor
        · rintro (h3 | ⟨h0, h3, h4⟩)
          · exact Or.inl h3
          · exact Or.inr ⟨h0, h3, Or.inr h4⟩
        · rintro (h3 | ⟨h0, h3, h4 | h4⟩)
          · exact Or.inl h3
          · exact absurd (h4.symm.trans hns) h0
          · exact Or.inr ⟨h0, h3, h4⟩
    · rw [if_neg hns, getBit_ok hr]
      simp only [Res.ok_bind]
      by_cases hq : q.types.has r.type = true
      · rw [if_pos hq, setChecked_ok hr]
        simp only [Res.ok_bind]
        rw [if_neg hrc]
        obtain ⟨f', h1, h2⟩ := ih' (m ++ [r]) ns (f.add r.type)
        refine ⟨f', ?_, ?_⟩
        · rw [h1, List.filter_cons_of_pos (by simpa using ⟨hns, (has_iff _ _).mp hq⟩),
            List.filter_cons_of_neg (by simpa using hns)]; simp
        · intro t
          rw [h2]
          simp only [has_add, Bool.or_eq_true, decide_eq_true_eq, List.mem_cons, exists_eq_or_imp]
          constructor
          · rintro ((h3 | ⟨rfl, _⟩) | ⟨h0, h3, h4⟩)
            · exact Or.inl h3
            · exact Or.inr ⟨hns, hq, Or.inl rfl⟩
            · exact Or.inr ⟨h0, h3, Or.inr h4⟩
          · rintro (h3 | ⟨h0, h3, h4 | h4⟩)
            · exact Or.inl (Or.inl h3)
            · exact Or.inl (Or.inr ⟨h4, hr⟩)
            · exact Or.inr ⟨h0, h3, h4⟩
      · rw [if_neg hq, if_neg hrc]
        obtain ⟨f', h1, h2⟩ := ih' m ns f
        refine ⟨f', ?_, ?_⟩
        · rw [h1, List.filter_cons_of_neg (by rw [has_iff] at hq; simp [hq]),
            List.filter_cons_of_neg (by simpa using hns)]
        · intro t
          rw [h2]
          simp only [List.mem_cons, exists_eq_or_imp]
          constructor
          · rintro (h3 | ⟨h0, h3, h4⟩)
            · exact Or.inl h3
            · exact Or.inr ⟨h0, h3, Or.inr h4⟩
          · rintro (h3 | ⟨h0, h3, h4 | h4⟩)
            · exact Or.inl h3
            · subst h4; exact absurd h3 hq
            · exact Or.inr ⟨h0, h3, h4⟩

/-! ### Answers -/

theorem ansOf_eq (q : EC) (found : TypeSet) (rrs : List RR) (hsub : ∀ t, found.has t = true → q.types.has t = true) :
    ∃ missing, Zone.ansOf q found rrs = dataAnswers found missing rrs ∧
      ∀ t, Member missing t ↔ Member q.types t ∧ ¬ Member found t := by
  refine ⟨found ^^^ q.types, ?_, ?_⟩
  · unfold Zone.ansOf dataAnswers
    simp only [ne_eq, count_eq_zero]
    by_cases h1 : found = 0 <;> by_cases h2 : found ^^^ q.types = 0 <;> simp [h1, h2]
  · intro t
    rw [← has_iff, ← has_iff, ← has_iff, has_xor]
    have := hsub t
    cases h1 : TypeSet.has found t <;> cases h2 : TypeSet.has q.types t <;> simp_all

theorem cnameAns_eq (q : EC) (ts : TypeSet) (r : RR) :
    ∃ tag, Zone.cnameAns q ts r = [⟨tag, ts, [r]⟩] ∧
      (OnlyCname q ∧ tag = .ANS ∨ ¬ OnlyCname q ∧ tag = .REWRITE) := by
  have key : (q.types.has .CNAME && q.types.count = 1) = true ↔ OnlyCname q := by
    rw [Bool.and_eq_true, decide_eq_true_eq]
    constructor
    · rintro ⟨h1, h2⟩ t
      rw [has_iff] at h1
      constructor
      · exact fun ht => (count_eq_one _ _ h1).mp h2 t ht
      · rintro rfl; exact h1
    · intro h
      have h1 := (h .CNAME).mpr rfl
      exact ⟨(has_iff _ _).mpr h1, (count_eq_one _ _ h1).mpr (fun s hs => (h s).mp hs)⟩
  unfold Zone.cnameAns
  by_cases h : OnlyCname q
  · rw [if_pos (key.mpr h)]; exact ⟨_, rfl, Or.inl ⟨h, rfl⟩⟩
  · rw [if_neg (fun hc => h (key.mp hc))]; exact ⟨_, rfl, Or.inr ⟨h, rfl⟩⟩

theorem Zone.Rep.wildcard {z : Zone} {names : List Name} {log : List RR} (h : z.Rep names log) {v : Nat} {e : Name}
    (hv : names[v]? = some e) :
    (match (z.g.vtx v).edges.find? (fun x => (z.g.vtx x.2).label == ['*']) with
      | none => ¬ NameExists log (e ++ [['*']])
      | some x => names[x.2]? = some (e ++ [['*']])) := by
  split
  · rename_i hf
    intro hex
    obtain ⟨u, hu⟩ := List.mem_iff_getElem?.mp ((h.mem _).mpr hex)
    obtain ⟨h1, h2⟩ := (h.inv.child_iff hv ['*'] u).mpr hu
    have := List.find?_eq_none.mp hf _ h1
    simp [h2] at this
  · rename_i x hf
    have hm := List.mem_of_find?_eq_some hf
    have hp := List.find?_some hf
    simp only [beq_iff_eq] at hp
    have hn := h.norm v x hm
    obtain ⟨t, u⟩ := x
    dsimp only at hn hp ⊢
    subst hn
    exact (h.inv.child_iff hv ['*'] u).mp ⟨hm, hp⟩

/-- The wildcard branch. -/
theorem Zone.Rep.wildcardMatch {z : Zone} {names : List Name} {log : List RR} (h : z.Rep names log)
    (hs : Supported log) {v : Nat} {e : Name} (hv : names[v]? = some e) (q : EC) (ts : TypeSet)
    (he : Encloser log q.name e) (hcut : ¬ Cut log e) (hex : ¬ ExactFor q e) (hd : ¬ HasType log e .DNAME)
    (hts : TypesAt log e ts) :
    (z.wildcardMatch v ts q = .ok none ∧ ¬ NameExists log (e ++ [['*']])) ∨
    ∃ as, z.wildcardMatch v ts q = .ok (some as) ∧ Reply log q as := by
  have hw := h.wildcard hv
  unfold Zone.wildcardMatch
  cases hf : (z.g.vtx v).edges.find? (fun x => (z.g.vtx x.2).label == ['*']) with
  | none => rw [hf] at hw; exact Or.inl ⟨rfl, hw⟩
  | some x =>
    rw [hf] at hw
    right
    dsimp only at hw ⊢
    have hmex : NameExists log (e ++ [['*']]) := (h.mem _).mp (List.mem_of_getElem? hw)
    rw [h.data x.2 _ hw]
    by_cases hc : HasType log (e ++ [['*']]) .CNAME
    · obtain ⟨r, hr, hn, ht⟩ := hc
      have hrec := recordsAt_cname h.excl hr ht
      rw [hn] at hrec
      rw [hrec, wildcardScan_cname q r ht]
      obtain ⟨tag, ha, hb⟩ := cnameAns_eq q ts r
      refine ⟨[⟨tag, ts, [r]⟩], by simp [ha], ?_⟩
      exact Reply.cname e _ false ts r tag he ⟨hcut, Or.inr ⟨rfl, hex, hd, rfl, hmex⟩⟩ hr hn ht hts hb
    · obtain ⟨f', h1, h2⟩ := wildcardScan_data q (recordsAt log (e ++ [['*']]))
        (fun r hr => hs r (mem_recordsAt.mp hr).1)
        (fun r hr ht => hc ⟨r, (mem_recordsAt.mp hr).1, (mem_recordsAt.mp hr).2, ht⟩) [] 0
      have h2' : ∀ t, Member f' t ↔ Member q.types t ∧ HasType log (e ++ [['*']]) t := by
        intro t
        rw [← has_iff, ← has_iff, h2]
        simp only [has_zero, Bool.false_eq_true, false_or, mem_recordsAt, HasType, and_assoc]
      obtain ⟨missing, m1, m2⟩ := ansOf_eq q f' (dataFor log q (e ++ [['*']]) false)
        (fun t ht => by rw [has_iff] at ht ⊢; exact ((h2' t).mp ht).1)
      rw [h1]
      refine ⟨_, rfl, ?_⟩
      have hdf : dataFor log q (e ++ [['*']]) false =
          [] ++ (recordsAt log (e ++ [['*']])).filter (fun r => decide (Member q.types r.type)) := by
        simp [dataFor]
      rw [← hdf, m1]
      refine Reply.data e _ false f' missing he ⟨hcut, Or.inr ⟨rfl, hex, hd, rfl, hmex⟩⟩ hc h2' ?_
      intro t
      rw [m2, h2']
      tauto

theorem nsAt_ne_nil {log : List RR} {n : Name} : nsAt log n ≠ [] ↔ HasType log n .NS := by
  unfold nsAt HasType
  rw [ne_eq, List.filter_eq_nil_iff]
  simp only [mem_recordsAt, decide_eq_true_eq, not_forall, not_not]
  constructor
  · rintro ⟨x, ⟨h1, h2⟩, h3⟩; exact ⟨x, h1, h2, h3⟩
  · rintro ⟨x, h1, h2, h3⟩; exact ⟨x, ⟨h1, h2⟩, h3⟩

theorem filter_beq_decide (l : List RR) (t : RRType) :
    l.filter (fun r => r.type == t) = l.filter (fun r => decide (r.type = t)) := by
  congr 1

theorem withGlue_nil_iff (log ns : List RR) : withGlue log ns = [] ↔ ns = [] := by
  unfold withGlue
  cases ns <;> simp

/-- Look-up in a represented zone follows the specification. -/
theorem Zone.Rep.lookup {z : Zone} {names : List Name} {log : List RR} (h : z.Rep names log)
    (hs : Supported log) (thr : Nat) (q : EC) :
    ∃ as b, z.lookup thr q = .ok (as, b) ∧ Reply log q as := by
  obtain ⟨v, e, h1, hv, he, hp⟩ := h.encloser hs q.name
  obtain ⟨ts, t1, t2, t3⟩ := nodeTypes_ok hs e
  have hrrs := h.data v e hv
  unfold Zone.lookup
  rw [h1]
  simp only [Res.ok_bind]
  rw [hrrs, t1]
  simp only [Res.ok_bind]
  have hexact : (query_cond : Bool) → query_cond = (decide (q.name.length ≠ e.length) || q.excluded.isSome) →
      (query_cond = true ↔ ¬ ExactFor q e) := by
    intro b hb
    subst hb
    unfold ExactFor
    rw [Bool.or_eq_true, decide_eq_true_eq]
    constructor
    · rintro (h2 | h2) ⟨h3, h4⟩
      · exact h2 (by rw [h3])
      · rw [h4] at h2; simp at h2
    · intro h2
      by_cases h3 : q.name.length = e.length
      · right
        have : e = q.name := hp.eq_of_length h3.symm
        cases h4 : q.excluded with
        | none => exact absurd ⟨this.symm, h4⟩ h2
        | some _ => rfl
      · exact Or.inl h3
  have hexact' := hexact _ rfl
  have hdn : ∀ r, r ∈ log → r.name = e → r.type = .DNAME →
      Zone.dnameAns ts (recordsAt log e) = [⟨.REWRITE, ts, [r]⟩] := by
    intro r hr hn ht
    unfold Zone.dnameAns
    have := recordsAt_dname h.excl hr ht
    rw [hn] at this
    rw [this]; rfl
  by_cases hc : (decide (q.name.length ≠ e.length) || q.excluded.isSome) = true
  · have hex := hexact'.mp hc
    rw [if_pos hc]
    by_cases hcut : Cut log e
    · have hsoa : ts.has .SOA = false := by
        rw [Bool.eq_false_iff, ne_eq, t3]; exact hcut.2
      have hns : ts.has .NS = true := (t3 _).mpr hcut.1
      rw [hsoa, hns]
      simp only [Bool.false_eq_true, if_false, if_true]
      rw [filter_beq_decide]
      have : (recordsAt log e).filter (fun r => decide (r.type = .NS)) = nsAt log e := rfl
      rw [this]
      have hl : (nsAt log e).length ≠ 0 := by
        rw [ne_eq, List.length_eq_zero_iff]; exact nsAt_ne_nil.mpr hcut.1
      rw [if_pos hl, h.addGlue]
      exact ⟨_, _, rfl, Reply.referral e ts he hcut t2⟩
    · -- both SOA branches coincide
      have main : (∃ as b, (if ts.has .DNAME then (Res.ok (Zone.dnameAns ts (recordsAt log e), false) : Res (List Answer × Bool))
          else do
            let w ← z.wildcardMatch v ts q
            match w with
            | some a => .ok (a, true)
            | none => .ok ([⟨.NX, q.types, []⟩], false)) = .ok (as, b) ∧ Reply log q as) := by
        by_cases hd : HasType log e .DNAME
        · rw [if_pos ((t3 _).mpr hd)]
          obtain ⟨r, hr, hn, ht⟩ := hd
          rw [hdn r hr hn ht]
          exact ⟨_, _, rfl, Reply.dname e ts r he hcut hex hr hn ht t2⟩
        · rw [if_neg (by rw [t3]; exact hd)]
          rcases h.wildcardMatch hs hv q ts he hcut hex hd t2 with ⟨w1, w2⟩ | ⟨as, w1, w2⟩
          · rw [w1]; exact ⟨_, _, rfl, Reply.nx e he hcut hex hd w2⟩
          · rw [w1]; exact ⟨_, _, rfl, w2⟩
      cases hsoa : ts.has .SOA with
      | true => rw [if_pos rfl]; exact main
      | false =>
        have hns : ts.has .NS = false := by
          rw [Bool.eq_false_iff, ne_eq, t3]
          intro hc2
          exact hcut ⟨hc2, by rw [← t3]; simp [hsoa]⟩
        rw [if_neg (by simp), hns, if_neg (by simp)]; exact main
  · have hex : ExactFor q e := by
      by_contra hn; exact hc (hexact'.mpr hn)
    rw [if_neg hc]
    by_cases hcn : HasType log e .CNAME
    · obtain ⟨r, hr, hn, ht⟩ := hcn
      have hrec := recordsAt_cname h.excl hr ht
      rw [hn] at hrec
      rw [hrec, exactScan_cname q r ht]
      obtain ⟨tag, ha, hb⟩ := cnameAns_eq q ts r
      refine ⟨[⟨tag, ts, [r]⟩], true, by simp [ha], ?_⟩
      have hncut : ¬ Cut log e := by
        rintro ⟨⟨x, hx, hxn, hxt⟩, _⟩
        have := exclusive_cname h.excl hr hx (hn.trans hxn.symm) ht
        subst this
        rw [ht] at hxt; cases hxt
      exact Reply.cname e e true ts r tag he ⟨hncut, Or.inl ⟨rfl, hex, rfl⟩⟩ hr hn ht t2 hb
    · obtain ⟨f', h1, h2⟩ := exactScan_data q (recordsAt log e)
        (fun r hr => hs r (mem_recordsAt.mp hr).1)
        (fun r hr ht => hcn ⟨r, (mem_recordsAt.mp hr).1, (mem_recordsAt.mp hr).2, ht⟩) [] [] 0
      rw [h1]
      simp only [Res.ok_bind, List.nil_append]
      have : (recordsAt log e).filter (fun r => decide (r.type = .NS)) = nsAt log e := rfl
      rw [this]
      have hg : (if ts.has .NS = true then z.addGlue thr (nsAt log e) else nsAt log e) =
          withGlue log (nsAt log e) := by
        rw [h.addGlue]
        split
        · rfl
        · rename_i hns
          have : nsAt log e = [] := by
            by_contra hne
            exact hns ((t3 _).mpr (nsAt_ne_nil.mp hne))
          rw [this]; rfl
      rw [hg]
      by_cases hcut : Cut log e
      · have hsoa : ts.has .SOA = false := by
          rw [Bool.eq_false_iff, ne_eq, t3]; exact hcut.2
        have hns : ts.has .NS = true := (t3 _).mpr hcut.1
        rw [hsoa, hns]
        exact ⟨_, _, rfl, Reply.referral e ts he hcut t2⟩
      · have hnc : (ts.has .NS && !ts.has .SOA) = false := by
          rw [Bool.eq_false_iff]
          intro hcc
          simp only [Bool.and_eq_true, Bool.not_eq_true'] at hcc
          exact hcut ⟨(t3 _).mp hcc.1, by rw [← t3]; simp [hcc.2]⟩
        rw [hnc]
        simp only [Bool.false_eq_true, if_false]
        have h2' : ∀ t, Member f' t ↔ t ≠ .NS ∧ Member q.types t ∧ HasType log e t := by
          intro t
          rw [← has_iff, ← has_iff, h2]
          simp only [has_zero, Bool.false_eq_true, false_or, mem_recordsAt, HasType, and_assoc]
        have hlen : (withGlue log (nsAt log e)).length ≠ 0 ↔ HasType log e .NS := by
          rw [ne_eq, List.length_eq_zero_iff, withGlue_nil_iff]; exact nsAt_ne_nil
        have hsrc : Source log q e e true := ⟨hcut, Or.inl ⟨rfl, hex, rfl⟩⟩
        by_cases hb : Member q.types .NS ∧ HasType log e .NS
        · have hcond : (q.types.has .NS && decide ((withGlue log (nsAt log e)).length ≠ 0)) = true := by
            rw [Bool.and_eq_true, decide_eq_true_eq, has_iff, hlen]; exact hb
          rw [if_pos hcond]
          have hf : ∀ t, Member (f'.add .NS) t ↔ Member q.types t ∧ HasType log e t := by
            intro t
            rw [← has_iff, has_add, Bool.or_eq_true, has_iff, h2', decide_eq_true_eq]
            constructor
            · rintro (h3 | ⟨h3, _⟩)
              · exact h3.2
              · subst h3; exact hb
            · intro h3
              by_cases ht : t = .NS
              · exact Or.inr ⟨ht.symm, by decide⟩
              · exact Or.inl ⟨ht, h3⟩
          obtain ⟨missing, m1, m2⟩ := ansOf_eq q (f'.add .NS) (dataFor log q e true)
            (fun t ht => by rw [has_iff] at ht ⊢; exact ((hf t).mp ht).1)
          have hdf : dataFor log q e true =
              (recordsAt log e).filter (fun r => decide (r.type ≠ .NS ∧ Member q.types r.type)) ++
                withGlue log (nsAt log e) := by
            simp [dataFor, hb.1]
          rw [← hdf, m1]
          refine ⟨_, _, rfl, Reply.data e e true _ missing he hsrc hcn hf ?_⟩
          intro t; rw [m2, hf]; tauto
        · have hcond : ¬ (q.types.has .NS && decide ((withGlue log (nsAt log e)).length ≠ 0)) = true := by
            rw [Bool.and_eq_true, decide_eq_true_eq, has_iff, hlen]; exact hb
          rw [if_neg hcond]
          have hf : ∀ t, Member f' t ↔ Member q.types t ∧ HasType log e t := by
            intro t
            rw [h2']
            constructor
            · exact fun h3 => h3.2
            · intro h3
              refine ⟨?_, h3⟩
              rintro rfl
              exact hb h3
          obtain ⟨missing, m1, m2⟩ := ansOf_eq q f' (dataFor log q e true)
            (fun t ht => by rw [has_iff] at ht ⊢; exact ((hf t).mp ht).1)
          have hdf : dataFor log q e true =
              (recordsAt log e).filter (fun r => decide (r.type ≠ .NS ∧ Member q.types r.type)) := by
            unfold dataFor
            rw [if_pos rfl]
            by_cases hq : Member q.types .NS
            · rw [if_pos hq]
              have : nsAt log e = [] := by
                by_contra hne; exact hb ⟨hq, nsAt_ne_nil.mp hne⟩
              rw [this]; simp [withGlue]
            · rw [if_neg hq]; simp
          rw [← hdf, m1]
          refine ⟨_, _, rfl, Reply.data e e true _ missing he hsrc hcn hf ?_⟩
          intro t; rw [m2, hf]; tauto

/-- The specification determines the answer. -/
theorem reply_unique {log : List RR} (hx : Exclusive log) {q : EC} {a b : List Answer}
    (ha : Reply log q a) (hb : Reply log q b) : a = b := by
  have typeset : ∀ {x y : TypeSet} {P : RRType → Prop}, (∀ t, Member x t ↔ P t) → (∀ t, Member y t ↔ P t) → x = y := by
    intro x y P h1 h2
    apply typeSet_ext
    intro t
    rw [Bool.eq_iff_iff, has_iff, has_iff, h1, h2]
  have source : ∀ {e m m' : Name} {x x' : Bool}, Source log q e m x → Source log q e m' x' → m = m' ∧ x = x' := by
    rintro e m m' x x' ⟨_, h1 | h1⟩ ⟨_, h2 | h2⟩
    · exact ⟨h1.2.2.trans h2.2.2.symm, h1.1.trans h2.1.symm⟩
    · exact absurd h1.2.1 h2.2.1
    · exact absurd h2.2.1 h1.2.1
    · exact ⟨h1.2.2.2.1.trans h2.2.2.2.1.symm, h1.1.trans h2.1.symm⟩
  cases ha with
  | referral e ts he hc ht =>
    cases hb with
    | referral e' ts' he' hc' ht' =>
      have := encloser_unique he he'; subst this
      rw [typesAt_unique ht ht']
    | dname e' ts' r' he' hc' => exact absurd ((encloser_unique he he') ▸ hc) hc'
    | cname e' m' x' ts' r' tag' he' hs' => exact absurd ((encloser_unique he he') ▸ hc) hs'.1
    | data e' m' x' f' mi' he' hs' => exact absurd ((encloser_unique he he') ▸ hc) hs'.1
    | nx e' he' hc' => exact absurd ((encloser_unique he he') ▸ hc) hc'
  | dname e ts r he hc hex hr hn ht hts =>
    cases hb with
    | referral e' ts' he' hc' => exact absurd ((encloser_unique he' he) ▸ hc') hc
    | dname e' ts' r' he' hc' hex' hr' hn' ht' hts' =>
      have := encloser_unique he he'; subst this
      rw [typesAt_unique hts hts', exclusive_dname hx hr hr' (hn.trans hn'.symm) ht ht']
    | cname e' m' x' ts' r' tag' he' hs' =>
      have := encloser_unique he he'; subst this
      rcases hs'.2 with h1 | h1
      · exact absurd h1.2.1 hex
      · exact absurd ⟨r, hr, hn, ht⟩ h1.2.2.1
    | data e' m' x' f' mi' he' hs' =>
      have := encloser_unique he he'; subst this
      rcases hs'.2 with h1 | h1
      · exact absurd h1.2.1 hex
      · exact absurd ⟨r, hr, hn, ht⟩ h1.2.2.1
    | nx e' he' hc' hex' hd' =>
      have := encloser_unique he he'; subst this
      exact absurd ⟨r, hr, hn, ht⟩ hd'
  | cname e m x ts r tag he hs hr hn ht hts htag =>
    cases hb with
    | referral e' ts' he' hc' => exact absurd ((encloser_unique he' he) ▸ hc') hs.1
    | dname e' ts' r' he' hc' hex' hr' hn' ht' hts' =>
      have := encloser_unique he he'; subst this
      rcases hs.2 with h1 | h1
      · exact absurd h1.2.1 hex'
      · exact absurd ⟨r', hr', hn', ht'⟩ h1.2.2.1
    | cname e' m' x' ts' r' tag' he' hs' hr' hn' ht' hts' htag' =>
      have := encloser_unique he he'; subst this
      obtain ⟨hm, _⟩ := source hs hs'
      subst hm
      have hrr := exclusive_cname hx hr hr' (hn.trans hn'.symm) ht
      have htt : tag = tag' := by
        rcases htag with ⟨h1, h2⟩ | ⟨h1, h2⟩ <;> rcases htag' with ⟨h3, h4⟩ | ⟨h3, h4⟩
        · rw [h2, h4]
        · exact absurd h1 h3
        · exact absurd h3 h1
        · rw [h2, h4]
      rw [typesAt_unique hts hts', hrr, htt]
    | data e' m' x' f' mi' he' hs' hcn' =>
      have := encloser_unique he he'; subst this
      obtain ⟨hm, _⟩ := source hs hs'
      subst hm
      exact absurd ⟨r, hr, hn, ht⟩ hcn'
    | nx e' he' hc' hex' hd' hw' =>
      have := encloser_unique he he'; subst this
      rcases hs.2 with h1 | h1
      · exact absurd h1.2.1 hex'
      · exact absurd (h1.2.2.2.1 ▸ h1.2.2.2.2) hw'
  | data e m x f mi he hs hcn hf hmi =>
    cases hb with
    | referral e' ts' he' hc' => exact absurd ((encloser_unique he' he) ▸ hc') hs.1
    | dname e' ts' r' he' hc' hex' hr' hn' ht' hts' =>
      have := encloser_unique he he'; subst this
      rcases hs.2 with h1 | h1
      · exact absurd h1.2.1 hex'
      · exact absurd ⟨r', hr', hn', ht'⟩ h1.2.2.1
    | cname e' m' x' ts' r' tag' he' hs' hr' hn' ht' hts' htag' =>
      have := encloser_unique he he'; subst this
      obtain ⟨hm, _⟩ := source hs hs'
      subst hm
      exact absurd ⟨r', hr', hn', ht'⟩ hcn
    | data e' m' x' f' mi' he' hs' hcn' hf' hmi' =>
      have := encloser_unique he he'; subst this
      obtain ⟨hm, hxx⟩ := source hs hs'
      subst hm hxx
      rw [typeset hf hf', typeset hmi hmi']
    | nx e' he' hc' hex' hd' hw' =>
      have := encloser_unique he he'; subst this
      rcases hs.2 with h1 | h1
      · exact absurd h1.2.1 hex'
      · exact absurd (h1.2.2.2.1 ▸ h1.2.2.2.2) hw'
  | nx e he hc hex hd hw =>
    cases hb with
    | referral e' ts' he' hc' => exact absurd ((encloser_unique he' he) ▸ hc') hc
    | dname e' ts' r' he' hc' hex' hr' hn' ht' hts' =>
      have := encloser_unique he he'; subst this
      exact absurd ⟨r', hr', hn', ht'⟩ hd
    | cname e' m' x' ts' r' tag' he' hs' =>
      have := encloser_unique he he'; subst this
      rcases hs'.2 with h1 | h1
      · exact absurd h1.2.1 hex
      · exact absurd (h1.2.2.2.1 ▸ h1.2.2.2.2) hw
    | data e' m' x' f' mi' he' hs' =>
      have := encloser_unique he he'; subst this
      rcases hs'.2 with h1 | h1
      · exact absurd h1.2.1 hex
      · exact absurd (h1.2.2.2.1 ▸ h1.2.2.2.2) hw
    | nx => rfl

theorem Zone.Rep.lookup_iff {z : Zone} {names : List Name} {log : List RR} (h : z.Rep names log)
    (hs : Supported log) (thr : Nat) (q : EC) (as : List Answer) :
    (∃ b, z.lookup thr q = .ok (as, b)) ↔ Reply log q as := by
  obtain ⟨as', b', h1, h2⟩ := h.lookup hs thr q
  constructor
  · rintro ⟨b, hb⟩
    rw [h1] at hb
    simp only [Res.ok.injEq, Prod.mk.injEq] at hb
    rw [← hb.1]; exact h2
  · intro ha
    rw [reply_unique h.excl ha h2]
    exact ⟨b', h1⟩

end Groot
