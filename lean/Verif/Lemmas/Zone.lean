import Verif.Lemmas.Trie
import Verif.Spec.Zone

namespace Groot
open Spec

/-! ### Lists of records -/

theorem mem_recordsAt {log : List RR} {n : Name} {r : RR} : r ∈ recordsAt log n ↔ r ∈ log ∧ r.name = n := by
  simp [recordsAt]

theorem recordsAt_append (a b : List RR) (n : Name) : recordsAt (a ++ b) n = recordsAt a n ++ recordsAt b n := by
  simp [recordsAt]

theorem recordsAt_single_self (r : RR) : recordsAt [r] r.name = [r] := by simp [recordsAt]

theorem recordsAt_single_other (r : RR) (n : Name) (h : r.name ≠ n) : recordsAt [r] n = [] := by
  simp [recordsAt, h]

theorem atOrBelow_iff_prefix (d s : Name) : AtOrBelow d s ↔ d <+: s := by
  unfold AtOrBelow
  constructor
  · rintro ⟨r, rfl⟩; exact List.prefix_append _ _
  · rintro ⟨r, rfl⟩; exact ⟨r, rfl⟩

theorem exists_append (log : List RR) (r : RR) (n : Name) :
    NameExists (log ++ [r]) n ↔ NameExists log n ∨ n <+: r.name := by
  unfold NameExists
  constructor
  · rintro (h | ⟨x, hx, h⟩)
    · exact Or.inl (Or.inl h)
    · rw [List.mem_append, List.mem_singleton] at hx
      rcases hx with hx | rfl
      · exact Or.inl (Or.inr ⟨x, hx, h⟩)
      · exact Or.inr ((atOrBelow_iff_prefix _ _).mp h)
  · rintro ((h | ⟨x, hx, h⟩) | h)
    · exact Or.inl h
    · exact Or.inr ⟨x, by simp [hx], h⟩
    · exact Or.inr ⟨r, by simp, (atOrBelow_iff_prefix _ _).mpr h⟩

theorem owner_exists {log : List RR} {n : Name} (h : Owner log n) : NameExists log n := by
  obtain ⟨x, hx, rfl⟩ := h
  exact Or.inr ⟨x, hx, [], by simp⟩

theorem hasType_owner {log : List RR} {n : Name} {t : RRType} (h : HasType log n t) : Owner log n := by
  obtain ⟨x, hx, h1, _⟩ := h; exact ⟨x, hx, h1⟩

theorem exists_prefix {log : List RR} {n m : Name} (h : NameExists log m) (hp : n <+: m) : NameExists log n := by
  rcases h with rfl | ⟨r, hr, h⟩
  · left; simpa using hp
  · right; exact ⟨r, hr, (atOrBelow_iff_prefix _ _).mpr (hp.trans ((atOrBelow_iff_prefix _ _).mp h))⟩

theorem soaOwner_append (log : List RR) (r : RR) :
    soaOwner (log ++ [r]) = if r.type = .SOA then r.name else soaOwner log := by
  unfold soaOwner
  rw [List.filter_append]
  by_cases h : r.type = .SOA
  · simp [h]
  · simp [h]

theorem stored_append (rs : List RR) (r : RR) :
    stored (rs ++ [r]) = if Admissible (stored rs) r then stored rs ++ [r] else stored rs := by
  unfold stored
  rw [List.foldl_append]; rfl

theorem stored_subset (rs : List RR) : ∀ r ∈ stored rs, r ∈ rs := by
  induction rs using List.reverseRecOn with
  | nil => simp [stored]
  | append_singleton rs r ih =>
    intro x hx
    rw [stored_append] at hx
    split at hx
    · rw [List.mem_append] at hx
      rcases hx with hx | hx
      · simp [ih x hx]
      · simp at hx; simp [hx]
    · simp [ih x hx]

theorem stored_supported {rs : List RR} (h : Supported rs) : Supported (stored rs) :=
  fun r hr => h r (stored_subset rs r hr)

theorem exclusive_stored (rs : List RR) : Exclusive (stored rs) := by
  induction rs using List.reverseRecOn with
  | nil => simp [stored, Exclusive]
  | append_singleton rs r ih =>
    rw [stored_append]
    split
    · rename_i ha
      unfold Exclusive at *
      rw [List.pairwise_append]
      refine ⟨ih, by simp, ?_⟩
      intro x hx y hy hn
      simp only [List.mem_singleton] at hy
      subst hy
      obtain ⟨h1, h2, h3, h4⟩ := ha
      refine ⟨fun h => h2 ⟨x, hx, hn, h⟩, fun h => h3 ⟨h, x, hx, hn⟩, fun h => h4 ⟨h.2, x, hx, hn, h.1⟩, ?_⟩
      intro h
      exact h1 ⟨x, hx, hn, h.1, h.2.1, h.2.2⟩
    · exact ih

/-- Two stored records of the same name, one of them a CNAME, are the same record. -/
theorem exclusive_cname {log : List RR} (h : Exclusive log) {x y : RR} (hx : x ∈ log) (hy : y ∈ log)
    (hn : x.name = y.name) (ht : x.type = .CNAME) : x = y := by
  induction log with
  | nil => simp at hx
  | cons z log ih =>
    unfold Exclusive at h
    rw [List.pairwise_cons] at h
    rcases List.mem_cons.mp hx with rfl | hx'
    · rcases List.mem_cons.mp hy with rfl | hy'
      · rfl
      · exact absurd ht (h.1 y hy' hn).1
    · rcases List.mem_cons.mp hy with rfl | hy'
      · exact absurd ht (h.1 x hx' hn.symm).2.1
      · exact ih h.2 hx' hy'

theorem exclusive_dname {log : List RR} (h : Exclusive log) {x y : RR} (hx : x ∈ log) (hy : y ∈ log)
    (hn : x.name = y.name) (ht : x.type = .DNAME) (ht' : y.type = .DNAME) : x = y := by
  induction log with
  | nil => simp at hx
  | cons z log ih =>
    unfold Exclusive at h
    rw [List.pairwise_cons] at h
    rcases List.mem_cons.mp hx with rfl | hx'
    · rcases List.mem_cons.mp hy with rfl | hy'
      · rfl
      · exact absurd ⟨ht, ht'⟩ (h.1 y hy' hn).2.2.1
    · rcases List.mem_cons.mp hy with rfl | hy'
      · exact absurd ⟨ht', ht⟩ (h.1 x hx' hn.symm).2.2.1
      · exact ih h.2 hx' hy'

/-- At a name with a CNAME the record list is that single record. -/
theorem recordsAt_cname {log : List RR} (h : Exclusive log) {r : RR} (hr : r ∈ log) (ht : r.type = .CNAME) :
    recordsAt log r.name = [r] := by
  induction log with
  | nil => simp at hr
  | cons z log ih =>
    have h' := h
    unfold Exclusive at h
    rw [List.pairwise_cons] at h
    rcases List.mem_cons.mp hr with rfl | hr'
    · have : recordsAt log r.name = [] := by
        rw [recordsAt, List.filter_eq_nil_iff]
        intro y hy hn
        simp only [decide_eq_true_eq] at hn
        exact (h.1 y hy hn.symm).1 ht
      rw [recordsAt, List.filter_cons_of_pos (by simp)]
      rw [recordsAt] at this
      rw [this]
    · have hz : z.name ≠ r.name := fun hn => (h.1 r hr' hn).2.1 ht
      rw [recordsAt, List.filter_cons_of_neg (by simpa using hz)]
      exact ih h.2 hr'

/-- At most one DNAME per name. -/
theorem recordsAt_dname {log : List RR} (h : Exclusive log) {r : RR} (hr : r ∈ log) (ht : r.type = .DNAME) :
    (recordsAt log r.name).filter (fun x => x.type == .DNAME) = [r] := by
  induction log with
  | nil => simp at hr
  | cons z log ih =>
    unfold Exclusive at h
    rw [List.pairwise_cons] at h
    unfold recordsAt at ih ⊢
    rcases List.mem_cons.mp hr with rfl | hr'
    · have : (List.filter (fun x => decide (x.name = r.name)) log).filter (fun x => x.type == .DNAME) = [] := by
        rw [List.filter_eq_nil_iff]
        intro y hy hd
        rw [List.mem_filter] at hy
        simp only [decide_eq_true_eq, beq_iff_eq] at hy hd
        exact (h.1 y hy.1 hy.2.symm).2.2.1 ⟨ht, hd⟩
      rw [List.filter_cons_of_pos (by simp), List.filter_cons_of_pos (by simp [ht]), this]
    · by_cases hn : z.name = r.name
      · have hz : z.type ≠ .DNAME := fun hd => (h.1 r hr' hn).2.2.1 ⟨hd, ht⟩
        rw [List.filter_cons_of_pos (by simpa using hn), List.filter_cons_of_neg (by simpa using hz)]
        exact ih h.2 hr'
      · rw [List.filter_cons_of_neg (by simpa using hn)]
        exact ih h.2 hr'

/-! ### `addCheck` -/

theorem addCheck_success (r : RR) (rrs : List RR) :
    Zone.addCheck r rrs = .SUCCESS ↔
      ∀ x ∈ rrs, ¬ (x.type = r.type ∧ x.ttl = r.ttl ∧ x.rdata = r.rdata) ∧ x.type ≠ .CNAME ∧
        r.type ≠ .CNAME ∧ ¬ (r.type = .DNAME ∧ x.type = .DNAME) := by
  induction rrs with
  | nil => simp [Zone.addCheck]
  | cons x rrs ih =>
    rw [List.forall_mem_cons, ← ih]
    rw [show Zone.addCheck r (x :: rrs) = if x.type = r.type then
      if x.ttl = r.ttl ∧ x.rdata = r.rdata then .DUPLICATE
      else if r.type = .CNAME then .CNAME_MULTIPLE
      else if r.type = .DNAME then .DNAME_MULTIPLE
      else Zone.addCheck r rrs
    else if x.type = .CNAME ∨ r.type = .CNAME then .CNAME_OTHER
    else Zone.addCheck r rrs from rfl]
    by_cases h1 : x.type = r.type
    · rw [if_pos h1]
      by_cases h2 : x.ttl = r.ttl ∧ x.rdata = r.rdata
      · simp [h1, h2]
      · rw [if_neg h2]
        by_cases h3 : r.type = .CNAME
        · simp [h1, h3]
        · rw [if_neg h3]
          by_cases h4 : r.type = .DNAME
          · simp [h1, h4]
          · simp [h1, h3, h4, h2]
    · rw [if_neg h1]
      by_cases h2 : x.type = .CNAME ∨ r.type = .CNAME
      · rw [if_pos h2]
        rcases h2 with h2 | h2 <;> simp [h2]
      · rw [if_neg h2]
        rw [not_or] at h2
        have h5 : ¬ (r.type = .DNAME ∧ x.type = .DNAME) := fun ⟨a, b⟩ => h1 (b.trans a.symm)
        simp [h1, h2.1, h2.2, h5]

theorem admissible_iff (log : List RR) (r : RR) :
    Admissible log r ↔ Zone.addCheck r (recordsAt log r.name) = .SUCCESS := by
  rw [addCheck_success]
  unfold Admissible Duplicate HasType Owner
  constructor
  · rintro ⟨h1, h2, h3, h4⟩ x hx
    rw [mem_recordsAt] at hx
    obtain ⟨hx, hn⟩ := hx
    exact ⟨fun h => h1 ⟨x, hx, hn, h⟩, fun h => h2 ⟨x, hx, hn, h⟩, fun h => h3 ⟨h, x, hx, hn⟩,
      fun h => h4 ⟨h.1, x, hx, hn, h.2⟩⟩
  · intro h
    refine ⟨?_, ?_, ?_, ?_⟩
    · rintro ⟨x, hx, hn, hh⟩; exact (h x (mem_recordsAt.mpr ⟨hx, hn⟩)).1 hh
    · rintro ⟨x, hx, hn, hh⟩; exact (h x (mem_recordsAt.mpr ⟨hx, hn⟩)).2.1 hh
    · rintro ⟨hh, x, hx, hn⟩; exact (h x (mem_recordsAt.mpr ⟨hx, hn⟩)).2.2.1 hh
    · rintro ⟨hh, x, hx, hn, hd⟩; exact (h x (mem_recordsAt.mpr ⟨hx, hn⟩)).2.2.2 ⟨hh, hd⟩

/-! ### Representation -/

/-- `z` represents the record list `log`; `names` are the names of its vertices. -/
structure Zone.Rep (z : Zone) (names : List Name) (log : List RR) : Prop where
  inv : z.g.Inv names
  norm : ∀ v e, e ∈ (z.g.vtx v).edges → e.1 = EdgeType.normal
  data : ∀ v n, names[v]? = some n → z.rrsAt v = recordsAt log n
  mem : ∀ n, n ∈ names ↔ NameExists log n
  origin : z.origin = soaOwner log
  excl : Exclusive log

theorem Zone.Rep.init (id : Nat) : (Zone.init id).Rep [[]] [] where
  inv := Trie.Inv.init _
  norm := by
    intro v e he
    unfold Zone.init Trie.init Trie.vtx at he
    rcases v with _ | v
    · simp at he
    · rw [List.getD_eq_getElem?_getD] at he; simp at he
  data := by
    intro v n hv
    rcases v with _ | v
    · simp at hv; subst hv; rfl
    · simp at hv
  mem := by intro n; simp [NameExists]
  origin := rfl
  excl := by simp [Exclusive]

theorem Zone.Rep.data_ext {z : Zone} {names : List Name} {log : List RR} (h : z.Rep names log)
    {new : List Name} {v : Nat} {n : Name}
    (hnd : (names ++ new).Nodup)
    (hv : (names ++ new)[v]? = some n) : z.rrsAt v = recordsAt log n := by
  rw [List.getElem?_append] at hv
  split at hv
  · exact h.data v n hv
  · rename_i hge
    have h1 : n ∈ new := List.mem_of_getElem? hv
    have h2 : n ∉ names := by
      intro hm
      exact (List.nodup_append.mp hnd).2.2 n hm n h1 rfl
    have h3 : recordsAt log n = [] := by
      rw [recordsAt, List.filter_eq_nil_iff]
      intro x hx hn
      simp only [decide_eq_true_eq] at hn
      exact h2 ((h.mem n).mpr (owner_exists ⟨x, hx, hn⟩))
    rw [h3]
    unfold Zone.rrsAt
    rw [Trie.vtx_of_ge _ (by rw [← h.inv.len]; omega)]
    rfl

theorem Zone.addRecord_eq (z : Zone) (thr : Nat) (r : RR) :
    z.addRecord thr r =
      (let g := (z.g.ensure thr r.name).1
       let v := (z.g.ensure thr r.name).2
       let c := Zone.addCheck r (g.vtx v).data
       if c = .SUCCESS then
         ({ id := z.id, origin := if r.type = .SOA then r.name else z.origin,
            g := g.setData v ((g.vtx v).data ++ [r]) }, .SUCCESS, some v)
       else ({ z with g := g }, c, if c = .DUPLICATE then none else some v)) := by
  unfold Zone.addRecord
  dsimp only
  split <;> simp_all

/-- The effect of one addition. -/
theorem Zone.Rep.add {z : Zone} {names : List Name} {log : List RR} (h : z.Rep names log) (thr : Nat) (r : RR) :
    ∃ names' v, (z.addRecord thr r).1.Rep names' (if Admissible log r then log ++ [r] else log) ∧
      (z.addRecord thr r).2.1 = Zone.addCheck r (recordsAt log r.name) ∧
      names'[v]? = some r.name ∧ names <+: names' ∧
      (z.addRecord thr r).2.2 = if (z.addRecord thr r).2.1 = .DUPLICATE then none else some v := by
  obtain ⟨new, i1, i2, i3, i4, i5⟩ := Trie.ensure_spec thr z.g names h.inv r.name
  have hd : ((z.g.ensure thr r.name).1.vtx (z.g.ensure thr r.name).2).data = recordsAt log r.name := by
    rw [i5.data]; exact h.data_ext i1.nodup i2
  have hnorm : ∀ v e, e ∈ ((z.g.ensure thr r.name).1.vtx v).edges → e.1 = EdgeType.normal := by
    intro v e he
    obtain ⟨t, u⟩ := e
    cases t with
    | normal => rfl
    | dname => exact absurd (h.norm v _ ((i5.dname v u).mp he)) (by simp)
  have key : Zone.addCheck r ((z.g.ensure thr r.name).1.vtx (z.g.ensure thr r.name).2).data =
      Zone.addCheck r (recordsAt log r.name) := by rw [hd]
  by_cases ha : Admissible log r
  · have hs := (admissible_iff log r).mp ha
    have e : z.addRecord thr r =
        ({ id := z.id, origin := if r.type = .SOA then r.name else z.origin,
           g := (z.g.ensure thr r.name).1.setData (z.g.ensure thr r.name).2
            (((z.g.ensure thr r.name).1.vtx (z.g.ensure thr r.name).2).data ++ [r]) }, .SUCCESS,
          some (z.g.ensure thr r.name).2) := by
      rw [Zone.addRecord_eq]; simp only [key, hs]; rfl
    rw [e, hs, if_pos ha]
    refine ⟨names ++ new, (z.g.ensure thr r.name).2, ?_, rfl, i2, List.prefix_append _ _, rfl⟩
    dsimp only
    constructor
    · exact i1.setData _ _
    · intro v e he
      dsimp only at he
      rw [Trie.vtx_setData] at he
      split at he
      · exact hnorm v e he
      · exact hnorm v e he
    · intro v n hv
      unfold Zone.rrsAt
      dsimp only
      have hlt : (z.g.ensure thr r.name).2 < (z.g.ensure thr r.name).1.verts.length := by
        rw [← i1.len]; exact Trie.name_lt i2
      rw [Trie.vtx_setData, recordsAt_append]
      by_cases hveq : v = (z.g.ensure thr r.name).2
      · rw [if_pos ⟨hveq, hlt⟩]
        subst hveq
        have hn : n = r.name := by rw [i2] at hv; simpa using hv.symm
        subst hn
        dsimp only
        rw [hd, recordsAt_single_self]
      · rw [if_neg (fun hc => hveq hc.1)]
        have hn : r.name ≠ n := by
          intro hc
          subst hc
          exact hveq (Trie.name_inj i1.nodup hv i2)
        rw [recordsAt_single_other r n hn, List.append_nil, i5.data]
        exact h.data_ext i1.nodup hv
    · intro n
      rw [List.mem_append, i3, h.mem, exists_append]
      constructor
      · rintro (h1 | h1)
        · exact Or.inl h1
        · exact Or.inr h1.2
      · rintro (h1 | h1)
        · exact Or.inl h1
        · by_cases h2 : NameExists log n
          · exact Or.inl h2
          · exact Or.inr ⟨h2, h1⟩
    · dsimp only
      rw [soaOwner_append]; split
      · rfl
      · exact h.origin
    · have : Exclusive (stored []) := exclusive_stored []
      unfold Exclusive
      rw [List.pairwise_append]
      refine ⟨h.excl, by simp, ?_⟩
      intro x hx y hy hn
      simp only [List.mem_singleton] at hy
      subst hy
      obtain ⟨h1, h2, h3, h4⟩ := ha
      exact ⟨fun h => h2 ⟨x, hx, hn, h⟩, fun h => h3 ⟨h, x, hx, hn⟩, fun h => h4 ⟨h.2, x, hx, hn, h.1⟩,
        fun h => h1 ⟨x, hx, hn, h.1, h.2.1, h.2.2⟩⟩
  · have hs : Zone.addCheck r (recordsAt log r.name) ≠ .SUCCESS := fun hc => ha ((admissible_iff log r).mpr hc)
    rw [if_neg ha]
    have hown : r.name ∈ names := by
      rw [h.mem]
      by_contra hno
      apply hs
      have : recordsAt log r.name = [] := by
        rw [recordsAt, List.filter_eq_nil_iff]
        intro x hx hn
        simp only [decide_eq_true_eq] at hn
        exact hno (owner_exists ⟨x, hx, hn⟩)
      rw [this]; rfl
    have hnew := i4 hown
    subst hnew
    rw [List.append_nil] at i1 i2
    have hrep : ({ z with g := (z.g.ensure thr r.name).1 } : Zone).Rep names log := by
      constructor
      · exact i1
      · exact hnorm
      · intro v n hv
        unfold Zone.rrsAt
        dsimp only
        rw [i5.data]; exact h.data v n hv
      · exact h.mem
      · exact h.origin
      · exact h.excl
    have e : z.addRecord thr r = ({ z with g := (z.g.ensure thr r.name).1 },
        Zone.addCheck r (recordsAt log r.name),
        if Zone.addCheck r (recordsAt log r.name) = .DUPLICATE then none else some (z.g.ensure thr r.name).2) := by
      rw [Zone.addRecord_eq]; simp only [key, hs, if_false]
    rw [e]
    exact ⟨names, (z.g.ensure thr r.name).2, hrep, rfl, i2, List.prefix_refl _, rfl⟩

theorem Zone.afterAdds_append (thr id : Nat) (rs : List RR) (r : RR) :
    Zone.afterAdds thr id (rs ++ [r]) = ((Zone.afterAdds thr id rs).addRecord thr r).1 := by
  simp [Zone.afterAdds]

theorem Zone.rep_afterAdds (thr id : Nat) (rs : List RR) :
    ∃ names, (Zone.afterAdds thr id rs).Rep names (stored rs) := by
  induction rs using List.reverseRecOn with
  | nil => exact ⟨_, Zone.Rep.init id⟩
  | append_singleton rs r ih =>
    obtain ⟨names, h⟩ := ih
    obtain ⟨names', _, h', _⟩ := h.add thr r
    rw [Zone.afterAdds_append, stored_append]
    exact ⟨names', h'⟩

/-! ### Searching for a name -/

theorem Zone.Rep.ancestor {z : Zone} {names : List Name} {log : List RR} (h : z.Rep names log) (thr : Nat) (n : Name) :
    (z.ancestor thr n).2 ≤ n.length ∧
    names[(z.ancestor thr n).1]? = some (n.take (z.ancestor thr n).2) ∧
    z.rrsAt (z.ancestor thr n).1 = recordsAt log (n.take (z.ancestor thr n).2) ∧
    (∀ k, (z.ancestor thr n).2 < k → k ≤ n.length → ¬ NameExists log (n.take k)) := by
  obtain ⟨h1, h2, h3⟩ := Trie.getAncestor_spec (thr := thr) h.inv n 0 [] h.inv.root
  simp only [List.nil_append] at h2 h3
  unfold Zone.ancestor
  dsimp only
  refine ⟨h1, h2, h.data _ _ h2, ?_⟩
  intro k hk hk' he
  exact h3 k hk hk' ((h.mem _).mpr he)

theorem Zone.Rep.present_iff {z : Zone} {names : List Name} {log : List RR} (h : z.Rep names log) (thr : Nat)
    (n : Name) : (z.ancestor thr n).2 = n.length ↔ NameExists log n := by
  obtain ⟨h1, h2, _, h3⟩ := h.ancestor thr n
  constructor
  · intro he
    rw [he, List.take_length] at h2
    exact (h.mem n).mp (List.mem_of_getElem? h2)
  · intro he
    by_contra hne
    have := h3 n.length (by omega) (Nat.le_refl _)
    rw [List.take_length] at this
    exact this he

theorem Zone.Rep.found {z : Zone} {names : List Name} {log : List RR} (h : z.Rep names log) (thr : Nat)
    (n : Name) (he : (z.ancestor thr n).2 = n.length) : z.rrsAt (z.ancestor thr n).1 = recordsAt log n := by
  obtain ⟨_, _, h3, _⟩ := h.ancestor thr n
  rw [h3, he, List.take_length]

theorem recordsAt_of_not_exists {log : List RR} {n : Name} (h : ¬ NameExists log n) : recordsAt log n = [] := by
  rw [recordsAt, List.filter_eq_nil_iff]
  intro x hx hn
  simp only [decide_eq_true_eq] at hn
  exact h (owner_exists ⟨x, hx, hn⟩)

/-- Glue of one record, as found by the code. -/
theorem Zone.Rep.glueOne {z : Zone} {names : List Name} {log : List RR} (h : z.Rep names log) (thr : Nat) (r : RR) :
    (if (stringToLabels r.rdata).length = (z.ancestor thr (stringToLabels r.rdata)).2 then
      (z.rrsAt (z.ancestor thr (stringToLabels r.rdata)).1).filter (fun x => x.type == .A || x.type == .AAAA)
     else []) = glueFor log r := by
  have hg : glueFor log r =
      (recordsAt log (stringToLabels r.rdata)).filter (fun x => x.type == .A || x.type == .AAAA) := by
    unfold glueFor recordsAt
    rw [List.filter_filter]
    congr 1
    funext x
    by_cases h1 : x.name = stringToLabels r.rdata <;> cases h2 : x.type <;> simp [h1]
  rw [hg]
  split
  · rename_i he
    rw [h.found thr _ he.symm]
  · rename_i he
    rw [recordsAt_of_not_exists]
    · rfl
    · intro hx
      exact he ((h.present_iff thr _).mpr hx).symm

theorem Zone.Rep.addGlue {z : Zone} {names : List Name} {log : List RR} (h : z.Rep names log) (thr : Nat)
    (ns : List RR) : z.addGlue thr ns = withGlue log ns := by
  unfold Zone.addGlue withGlue
  have : ∀ acc : List RR, ns.foldl (fun merged record =>
      let nsName := stringToLabels record.rdata
      let merged := merged ++ [record]
      let r := z.ancestor thr nsName
      if nsName.length = r.2 then
        merged ++ (z.rrsAt r.1).filter (fun x => x.type == .A || x.type == .AAAA)
      else merged) acc = acc ++ ns.flatMap (fun r => r :: glueFor log r) := by
    induction ns with
    | nil => simp
    | cons r ns ih =>
      intro acc
      rw [List.foldl_cons, ih, List.flatMap_cons, ← h.glueOne thr r]
      dsimp only
      split <;> simp
  simpa using this []

theorem Zone.Rep.lookUpGlue {z : Zone} {names : List Name} {log : List RR} (h : z.Rep names log) (thr : Nat)
    (ns : List RR) : z.lookUpGlue thr ns = ns.flatMap (glueFor log) := by
  unfold Zone.lookUpGlue
  have : ∀ acc : List RR, ns.foldl (fun ips record =>
      let nsName := stringToLabels record.rdata
      let r := z.ancestor thr nsName
      if nsName.length = r.2 then
        ips ++ (z.rrsAt r.1).filter (fun x => x.type == .A || x.type == .AAAA)
      else ips) acc = acc ++ ns.flatMap (glueFor log) := by
    induction ns with
    | nil => simp
    | cons r ns ih =>
      intro acc
      rw [List.foldl_cons, ih, List.flatMap_cons, ← h.glueOne thr r]
      dsimp only
      split <;> simp
  simpa using this []

end Groot
