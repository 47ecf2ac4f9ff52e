import Verif.Spec.Delegation
import Verif.Lemmas.Final

/-! # Delegations: from the contents of zones to resolutions and back -/

namespace Groot
open Spec

/-- A referral answers whatever is asked. -/
theorem Spec.Refers.says {w : World} {n : Name} {s t : Str} (hn : Short n) (h : Refers w n s t) (ts : TypeSet) :
    ∃ id e us, Best w s n id ∧ Encloser (w.log id) n e ∧ Cut (w.log id) e ∧ Says w s ⟨n, ts, false⟩ [⟨.REF, us, withGlue (w.log id) (nsAt (w.log id) e)⟩] ∧
      ∃ r ∈ nsAt (w.log id) e, r.rdata = t := by
  obtain ⟨id, e, h1, h2, h3, h4⟩ := h
  obtain ⟨us, hus⟩ := exists_types (fun t => HasType (w.log id) e t)
  exact ⟨id, e, us, h1, h2, h3, .zone id _ hn h1 (.referral e us h2 h3 hus), h4⟩

theorem mem_nsAt {log : List RR} {n : Name} {r : RR} (h : r ∈ nsAt log n) : r ∈ log ∧ r.name = n ∧ r.type = .NS := by
  unfold nsAt recordsAt at h
  obtain ⟨h1, h2⟩ := List.mem_filter.mp h
  obtain ⟨h3, h4⟩ := List.mem_filter.mp h1
  exact ⟨h3, of_decide_eq_true h4, of_decide_eq_true h2⟩

theorem step_of_referral {w : World} (hw : WellFormed w) {s : Str} {a : Ask} (hs : s ≠ []) {us : TypeSet} {id : Nat} {e : Name}
    (h : Says w s a [⟨.REF, us, withGlue (w.log id) (nsAt (w.log id) e)⟩]) {r : RR} (hr : r ∈ nsAt (w.log id) e) :
    ∃ side, Step w s a r.rdata a side ∧ r.rdata ≠ [] := by
  have hm := mem_nsAt hr
  have hne := (hw.ns id r hm.1 hm.2.2).1
  by_cases hg : HasGlue ⟨.REF, us, withGlue (w.log id) (nsAt (w.log id) e)⟩ r ∨ r.rdata ∈ w.top
  · exact ⟨none, .referral s a _ _ r none hs h (List.mem_singleton.mpr rfl) rfl (mem_withGlue.mpr (.inl hr)) hm.2.2 (.inl ⟨hg, rfl⟩), hne⟩
  · exact ⟨_, .referral s a _ _ r _ hs h (List.mem_singleton.mpr rfl) rfl (mem_withGlue.mpr (.inl hr)) hm.2.2 (.inr ⟨hg, rfl⟩), hne⟩

theorem route_snoc {w : World} {s : Str} {a : Ask} {p : Trail} (h : Route w s a p) {s1 : Str} {a1 : Ask}
    (hl : ((s, a) :: p.map (fun x => (x.1, x.2.1))).getLast? = some (s1, a1)) {s2 : Str} {a2 : Ask} {side : Option Ask} (hs : Step w s1 a1 s2 a2 side) :
    Route w s a (p ++ [(s2, a2, side)]) := by
  induction h with
  | done s a =>
    simp at hl
    obtain ⟨rfl, rfl⟩ := hl
    exact .step _ _ _ _ _ _ hs (.done _ _)
  | step s a s' a' sd p h1 _ ih =>
    rw [List.map_cons, List.getLast?_cons_cons] at hl
    exact .step _ _ _ _ _ _ h1 (ih hl)

/-- The servers consulted about a name are asked about it, and about whatever is answered alike. -/
theorem consulted_route {w : World} (hw : WellFormed w) {n : Name} {ts : TypeSet} (hn : Short n) {a : Ask}
    (hsay : ∀ s as, Says w s ⟨n, ts, false⟩ as → Says w s a as) {s : Str} (h : Consulted w n s) :
    s ≠ [] ∧ ∃ p side, Route w [] a (p ++ [(s, a, side)]) := by
  induction h with
  | top s hs => exact ⟨hw.top s hs, [], none, .step _ _ _ _ _ _ (.top a s hs) (.done _ _)⟩
  | referred s t _ hr ih =>
    obtain ⟨h0, p, side, h1⟩ := ih
    obtain ⟨id, e, us, _, _, _, h2, r, h3, rfl⟩ := hr.says hn ts
    obtain ⟨sd, h4, h5⟩ := step_of_referral hw h0 (hsay _ _ h2) h3
    exact ⟨h5, p ++ [(s, a, side)], sd, route_snoc h1 (by simp [List.getLast?_cons]) h4⟩

/-- From every visit but the last one a step leads on. -/
theorem route_goes_on {w : World} {s : Str} {a : Ask} {p : Trail} (h : Route w s a p) :
    ∀ x ∈ ((s, a) :: p.map (fun x => (x.1, x.2.1))).dropLast, ∃ s' a' sd, Step w x.1 x.2 s' a' sd := by
  induction h with
  | done => intro x hx; simp at hx
  | step s a s' a' sd p h1 _ ih =>
    intro x hx
    rw [List.map_cons, List.dropLast_cons_cons] at hx
    rcases List.mem_cons.mp hx with rfl | hx
    · exact ⟨_, _, _, h1⟩
    · exact ih x hx

/-- A server consulted refers to one that ends the resolution: some complete resolution ends with just these two. -/
theorem complete_of_consulted {w : World} (hw : WellFormed w) {n : Name} {ts : TypeSet} (hn : Short n) {a : Ask}
    (hsay : ∀ s as, Says w s ⟨n, ts, false⟩ as → Says w s a as) {s t : Str} (h : Consulted w n s) (hr : Refers w n s t)
    (hend : ∀ s' a' sd, ¬ Step w t a s' a' sd) :
    t ≠ [] ∧ ∃ pre sd sd', Complete w a (pre ++ [(s, a, sd), (t, a, sd')]) := by
  obtain ⟨h0, p, side, h1⟩ := consulted_route hw hn hsay h
  obtain ⟨id, e, us, _, _, _, h2, r, h3, rfl⟩ := hr.says hn ts
  obtain ⟨sd, h4, h5⟩ := step_of_referral hw h0 (hsay _ _ h2) h3
  refine ⟨h5, ?_⟩
  obtain ⟨p', h6, h7, h8⟩ := cut_circles h1
  have h9 : (([], a) :: (p ++ [(s, a, side)]).map (fun x => (x.1, x.2.1))).getLast? = some (s, a) := by simp [List.getLast?_cons]
  rw [h9] at h8
  have hlast : (p'.map (fun x => (x.1, x.2.1))).getLast? = some (s, a) := by
    cases hp' : p'.map (fun x => (x.1, x.2.1)) with
    | nil => rw [hp'] at h8; simp at h8; exact absurd h8.symm (fun e => h0 e.symm)
    | cons y ys => rw [hp', List.getLast?_cons_cons] at h8; exact h8
  obtain ⟨pre, ⟨ys, ya, yd⟩, rfl, e⟩ := getLast?_map_some hlast
  injection e with e1 e2
  dsimp only at e1 e2
  subst e1 e2
  have hnot : (r.rdata, ya) ∉ ([], ya) :: (pre ++ [(ys, ya, yd)]).map (fun x => (x.1, x.2.1)) := by
    intro hm
    have hd := route_goes_on h6
    have hsplit : (([] : Str), ya) :: (pre ++ [(ys, ya, yd)]).map (fun x => (x.1, x.2.1)) =
        (([], ya) :: (pre ++ [(ys, ya, yd)]).map (fun x => (x.1, x.2.1))).dropLast ++ [(ys, ya)] := by
      rw [List.map_append, List.map_singleton, ← List.cons_append, List.dropLast_concat]
    rw [hsplit] at hm
    rcases List.mem_append.mp hm with hm | hm
    · obtain ⟨s', a', sd', hst⟩ := hd _ hm
      exact hend _ _ _ hst
    · have := List.mem_singleton.mp hm
      injection this with e1 _
      rw [← e1] at h4
      exact hend _ _ _ h4
  have hroute := route_snoc h6 (by simp [List.getLast?_cons]) h4
  refine ⟨pre, yd, sd, by simpa using hroute, ?_, ?_⟩
  · have : visited ya (pre ++ [(ys, ya, yd), (r.rdata, ya, sd)]) =
        (([], ya) :: (pre ++ [(ys, ya, yd)]).map (fun x => (x.1, x.2.1))) ++ [(r.rdata, ya)] := by simp [visited]
    rw [this, List.nodup_append]
    refine ⟨h7, by simp, ?_⟩
    intro x hx y hy e
    rw [List.mem_singleton.mp hy] at e
    exact hnot (e ▸ hx)
  · intro x hx
    have : visited ya (pre ++ [(ys, ya, yd), (r.rdata, ya, sd)]) =
        (([], ya) :: (pre ++ [(ys, ya, yd)]).map (fun x => (x.1, x.2.1))) ++ [(r.rdata, ya)] := by simp [visited]
    rw [this, List.getLast?_concat] at hx
    cases hx
    exact hend

/-! ### Answers that end a resolution -/

theorem ends_of_says {w : World} {s : Str} {a : Ask} {as : List Answer} (hs : s ≠ []) (hsay : ∀ as', Says w s a as' → as' = as)
    (h : ∀ x ∈ as, x.tag ≠ .REF ∧ x.tag ≠ .REWRITE) : ∀ s' a' sd, ¬ Step w s a s' a' sd := by
  intro s' a' sd hst
  cases hst with
  | top => exact hs rfl
  | rewriteHere _ _ bs x r _ _ h1 h2 h3 => rw [hsay _ h1] at h2; exact (h x h2).2 h3
  | rewriteTop _ _ bs x r _ _ _ h1 h2 h3 => rw [hsay _ h1] at h2; exact (h x h2).2 h3
  | referral _ _ bs x r _ _ h1 h2 h3 => rw [hsay _ h1] at h2; exact (h x h2).1 h3

/-- A server with zone files but none for the name refuses, and does nothing else. -/
theorem refuses {w : World} {t : Str} {n : Name} {ts : TypeSet} (hn : Short n) (hl : w.Listed t) (he : ¬ Encloses w t n) (as : List Answer)
    (h : Says w t ⟨n, ts, false⟩ as) : as = [⟨.REFUSED, ts, []⟩] := by
  cases h with
  | tooLong h => exact absurd hn h
  | zone id _ _ h => exact absurd h.encloses he
  | refused => rfl
  | unknown _ h => exact absurd hl h

/-- A referral comes from a delegation. -/
theorem refers_of_says {w : World} {s : Str} {a : Ask} {as : List Answer} (h : Says w s a as) (ht : as.head?.map (·.tag) = some .REF) :
    ∃ id e us, Short a.name ∧ Best w s a.name id ∧ Encloser (w.log id) a.name e ∧ Cut (w.log id) e ∧
      as = [⟨.REF, us, withGlue (w.log id) (nsAt (w.log id) e)⟩] := by
  cases h with
  | tooLong => cases ht
  | refused => cases ht
  | unknown => cases ht
  | zone id _ h1 h2 h3 =>
    cases h3 with
    | referral e us h4 h5 h6 => exact ⟨id, e, us, h1, h2, h4, h5, rfl⟩
    | dname => cases ht
    | cname e m ex us r tag _ _ _ _ _ _ htag =>
      rcases htag with ⟨_, rfl⟩ | ⟨_, rfl⟩ <;> cases ht
    | data e m ex f g =>
      unfold dataAnswers at ht
      split at ht <;> split at ht <;> cases ht
    | nx => cases ht

/-- After a referral the question goes to one of the named servers. -/
theorem step_named {w : World} {s t : Str} {a b : Ask} {sd : Option Ask} {as : List Answer} (hs : s ≠ []) (h : Says w s a as)
    (ht : as.head?.map (·.tag) = some .REF) (hst : Step w s a t b sd) :
    b = a ∧ ∃ id e us, Short a.name ∧ Best w s a.name id ∧ Encloser (w.log id) a.name e ∧ Cut (w.log id) e ∧
      as = [⟨.REF, us, withGlue (w.log id) (nsAt (w.log id) e)⟩] ∧ ∃ r ∈ nsAt (w.log id) e, r.rdata = t := by
  have hdet := fun as' (h' : Says w s a as') => says_determined h h' (by rw [ht]; simp) (by rw [ht]; simp)
  obtain ⟨id, e, us, h1, h2, h3, h4, rfl⟩ := refers_of_says h ht
  cases hst with
  | top => exact absurd rfl hs
  | rewriteHere _ _ bs x r _ _ h5 h6 h7 => rw [← hdet _ h5] at h6; rw [List.mem_singleton.mp h6] at h7; cases h7
  | rewriteTop _ _ bs x r _ _ _ h5 h6 h7 => rw [← hdet _ h5] at h6; rw [List.mem_singleton.mp h6] at h7; cases h7
  | referral _ _ bs x r _ _ h5 h6 h7 h8 h9 =>
    rw [← hdet _ h5] at h6
    rw [List.mem_singleton.mp h6] at h8
    refine ⟨rfl, id, e, us, h1, h2, h3, h4, rfl, r, ?_, rfl⟩
    obtain ⟨x, hx, hr⟩ := List.mem_flatMap.mp h8
    rcases List.mem_cons.mp hr with rfl | hr
    · exact hx
    · have := of_decide_eq_true (List.mem_filter.mp hr).2
      rw [h9] at this
      rcases this.2 with h | h <;> cases h

theorem step_referred {w : World} {s t : Str} {a b : Ask} {sd : Option Ask} {as : List Answer} (hs : s ≠ []) (h : Says w s a as)
    (ht : as.head?.map (·.tag) = some .REF) (hst : Step w s a t b sd) : b = a ∧ Refers w a.name s t := by
  obtain ⟨h1, id, e, us, _, h2, h3, h4, _, h5⟩ := step_named hs h ht hst
  exact ⟨h1, id, e, h2, h3, h4, h5⟩

/-- A refusal comes from a server without a zone for the name. -/
theorem refused_of_says {w : World} {s : Str} {a : Ask} {as : List Answer} (h : Says w s a as) (ht : as.head?.map (·.tag) = some .REFUSED) :
    (w.Listed s ∨ s ∈ w.top) ∧ ¬ Encloses w s a.name := by
  cases h with
  | tooLong => cases ht
  | refused h1 h2 h3 => exact ⟨h3, h2⟩
  | unknown => cases ht
  | zone id _ h1 h2 h3 =>
    exfalso
    cases h3 with
    | referral => cases ht
    | dname => cases ht
    | cname e m ex us r tag _ _ _ _ _ _ htag =>
      rcases htag with ⟨_, rfl⟩ | ⟨_, rfl⟩ <;> cases ht
    | data e m ex f g =>
      unfold dataAnswers at ht
      split at ht <;> split at ht <;> cases ht
    | nx => cases ht

/-! ### The records of a referral and of the answer of the child -/

theorem nsOf_withGlue {log ns : List RR} (h : ∀ r ∈ ns, r.type = .NS) : nsOf (withGlue log ns) = ns := by
  unfold nsOf withGlue
  induction ns with
  | nil => rfl
  | cons r ns ih =>
    have hg : (glueFor log r).filter (fun r => decide (r.type = .NS)) = [] := by
      rw [List.filter_eq_nil_iff]
      intro x hx
      have := of_decide_eq_true (List.mem_filter.mp hx).2
      rcases this.2 with h | h <;> simp [h]
    rw [List.flatMap_cons, List.filter_append, List.filter_cons_of_pos (by simpa using h r List.mem_cons_self), hg,
      ih (fun x hx => h x (List.mem_cons_of_mem _ hx))]
    rfl

theorem addressesOf_withGlue {log ns : List RR} (h : ∀ r ∈ ns, r.type = .NS) : addressesOf (withGlue log ns) = ns.flatMap (glueFor log) := by
  unfold addressesOf withGlue
  induction ns with
  | nil => rfl
  | cons r ns ih =>
    have hg : (glueFor log r).filter (fun r => decide (r.type = .A ∨ r.type = .AAAA)) = glueFor log r := by
      rw [List.filter_eq_self]
      intro x hx
      have := of_decide_eq_true (List.mem_filter.mp hx).2
      simpa using this.2
    rw [List.flatMap_cons, List.filter_append, List.filter_cons_of_neg (by simp [h r List.mem_cons_self]), hg,
      ih (fun x hx => h x (List.mem_cons_of_mem _ hx)), List.flatMap_cons]

theorem nsOf_dataFor {log : List RR} {q : EC} {n : Name} (h : Member q.types .NS) : nsOf (dataFor log q n true) = nsAt log n := by
  unfold dataFor
  rw [if_pos rfl, if_pos h]
  unfold nsOf
  rw [List.filter_append]
  have : ((recordsAt log n).filter (fun r => decide (r.type ≠ .NS ∧ Member q.types r.type))).filter (fun r => decide (r.type = .NS)) = [] := by
    rw [List.filter_eq_nil_iff]
    intro x hx
    have := of_decide_eq_true (List.mem_filter.mp hx).2
    simpa using this.1
  rw [this, List.nil_append]
  exact nsOf_withGlue (fun r hr => (mem_nsAt hr).2.2)

theorem addressesOf_dataFor {log : List RR} {q : EC} {n : Name} (h : Member q.types .NS) :
    addressesOf (dataFor log q n true) = ownAddresses log n q.types ++ glueAt log n := by
  unfold dataFor
  rw [if_pos rfl, if_pos h]
  unfold addressesOf
  rw [List.filter_append]
  congr 1
  · unfold ownAddresses
    rw [List.filter_filter]
    apply List.filter_congr
    intro x _
    by_cases h1 : x.type = .A ∨ x.type = .AAAA
    · have : x.type ≠ .NS := by rintro h2; rw [h2] at h1; rcases h1 with h | h <;> cases h
      simp [h1, this]
    · simp [h1]
  · exact addressesOf_withGlue (fun r hr => (mem_nsAt hr).2.2)

/-! ### The child's answer -/

theorem Spec.Delegated.says {w : World} {n : Name} {s t : Str} {id id' : Nat} (h : Delegated w n s t id id') (hn : Short n) {ts : TypeSet}
    (hns : Member ts .NS) :
    ∃ found missing, found ≠ 0 ∧ Member found .NS ∧
      Says w t ⟨n, ts, false⟩ (dataAnswers found missing (dataFor (w.log id') (Ask.ec ⟨n, ts, false⟩) n true)) := by
  obtain ⟨f, hf⟩ := exists_types (fun t => Member ts t ∧ HasType (w.log id') n t)
  obtain ⟨g, hg⟩ := exists_types (fun t => Member ts t ∧ ¬ HasType (w.log id') n t)
  have hN : ∀ {ts : TypeSet} {t : RRType}, Member ts t → t ≠ .N := fun h => h.1
  have hfns : Member f .NS := (hf _).mpr ⟨by decide, hns, h.own⟩
  refine ⟨f, g, ?_, hfns, .zone id' _ hn h.child (.data n n true f g h.at' ⟨fun hc => hc.2 h.apex, .inl ⟨rfl, ⟨rfl, rfl⟩, rfl⟩⟩ ?_ ?_ ?_)⟩
  · intro e; rw [e] at hfns; simp [Member] at hfns
  · rintro ⟨x, hx, e, ht⟩
    obtain ⟨y, hy, e', ht'⟩ := h.own
    have := exclusive_cname (exclusive_log w id') hx hy (e.trans e'.symm) ht
    rw [this] at ht; rw [ht] at ht'; cases ht'
  · intro t; rw [hf]; exact ⟨fun h => h.2, fun h => ⟨hN h.1, h⟩⟩
  · intro t; rw [hg]; exact ⟨fun h => h.2, fun h => ⟨hN h.1, h⟩⟩

/-- An answer with NS records belonging to a delegation of the same name is the child's own. -/
theorem own_of_says {w : World} {t : Str} {a : Ask} {as : List Answer} (h : Says w t a as) (hoc : AsksOther a.types) (htag : as.head?.map (·.tag) = some .ANS)
    (hns : ∃ x, as.head? = some x ∧ Member x.types .NS) (hne : (as.head?.map (·.rrs)).getD [] ≠ []) {P : List RR} {p : Name} (hP : P ≠ [])
    (hPn : ∀ r ∈ P, r.name = p) (hp : AtOrBelow p a.name) (ho : SameOwner P (nsOf ((as.head?.map (·.rrs)).getD []))) :
    a.below = false ∧ p = a.name ∧ Member a.types .NS ∧ ∃ id', Best w t a.name id' ∧ Encloser (w.log id') a.name a.name ∧ HasType (w.log id') a.name .SOA ∧
      HasType (w.log id') a.name .NS ∧ (as.head?.map (·.rrs)).getD [] = dataFor (w.log id') a.ec a.name true := by
  have hN : ∀ {ts : TypeSet} {t : RRType}, Member ts t → t ≠ .N := fun h => h.1
  cases h with
  | tooLong => cases htag
  | refused => cases htag
  | unknown => cases htag
  | zone id _ h1 h2 h3 =>
    cases h3 with
    | referral => cases htag
    | dname => cases htag
    | nx => cases htag
    | cname e m ex us r tag _ _ _ _ _ _ h4 =>
      rcases h4 with ⟨h4, _⟩ | ⟨_, rfl⟩
      · obtain ⟨t, h5, h6⟩ := hoc
        exact absurd ((h4 t).mp h6) h5
      · cases htag
    | data e m ex found missing h4 h5 h6 h7 h8 =>
      obtain ⟨x, hx, hxn⟩ := hns
      have hf0 : found ≠ 0 := by
        rintro rfl
        unfold dataAnswers at hne
        rw [if_pos rfl] at hne
        split at hne <;> exact hne rfl
      have hhead : (dataAnswers found missing (dataFor (w.log id) a.ec m ex)).head? = some ⟨.ANS, found, dataFor (w.log id) a.ec m ex⟩ := by
        unfold dataAnswers
        rw [if_neg hf0]; rfl
      rw [hhead] at hx ho ⊢
      cases hx
      have hNS := (h7 _).mp hxn
      have hNS1 : Member a.types .NS := hNS.1
      change SameOwner P (nsOf (dataFor (w.log id) a.ec m ex)) at ho
      show _ ∧ _ ∧ _ ∧ ∃ id', _ ∧ _ ∧ _ ∧ _ ∧ dataFor (w.log id) a.ec m ex = _
      have hmem : ∃ y ∈ (nsOf (dataFor (w.log id) a.ec m ex)).head?, y.name = m := by
        have hall : ∀ y ∈ nsOf (dataFor (w.log id) a.ec m ex), y.name = m := by
          intro y hy
          cases ex with
          | true =>
            rw [nsOf_dataFor hNS.1] at hy
            exact (mem_nsAt hy).2.1
          | false =>
            unfold nsOf dataFor at hy
            rw [if_neg (by simp)] at hy
            have := (List.mem_filter.mp (List.mem_filter.mp (List.mem_filter.mp hy).1).1).2
            exact of_decide_eq_true this
        cases hl : nsOf (dataFor (w.log id) a.ec m ex) with
        | cons y ys => exact ⟨y, rfl, hall y (by rw [hl]; exact List.mem_cons_self)⟩
        | nil =>
          exfalso
          obtain ⟨y, hy, e1, e2⟩ := hNS.2
          have : y ∈ nsOf (dataFor (w.log id) a.ec m ex) := by
            cases ex with
            | true =>
              rw [nsOf_dataFor hNS.1]
              unfold nsAt recordsAt
              exact List.mem_filter.mpr ⟨List.mem_filter.mpr ⟨hy, by simpa using e1⟩, by simpa using e2⟩
            | false =>
              unfold nsOf dataFor recordsAt
              rw [if_neg (by simp)]
              refine List.mem_filter.mpr ⟨List.mem_filter.mpr ⟨List.mem_filter.mpr ⟨hy, by simpa using e1⟩, ?_⟩, by simpa using e2⟩
              rw [e2]; exact decide_eq_true hNS.1
          rw [hl] at this; cases this
      obtain ⟨y, hy, hym⟩ := hmem
      obtain ⟨z, P', rfl⟩ := List.exists_cons_of_ne_nil hP
      have hpm : p = m := by
        rw [← hPn z List.mem_cons_self, ← hym]
        exact ho z rfl y hy
      obtain ⟨hcut, hor⟩ := h5
      rcases hor with ⟨rfl, hex, rfl⟩ | ⟨rfl, hex, hdn, rfl, hm⟩
      · obtain ⟨e1, e2⟩ := hex
        change a.name = m at e1
        have hb : a.below = false := by
          unfold Ask.ec at e2
          dsimp only at e2
          split at e2
          · cases e2
          · rename_i hb; simpa using hb
        have hsoa : HasType (w.log id) m .SOA := by
          by_contra hs
          exact hcut ⟨hNS.2, hs⟩
        change Encloser (w.log id) a.name m at h4
        rw [← e1] at hpm h4 hsoa ⊢
        exact ⟨hb, hpm, hNS1, id, h2, h4, hsoa, by rw [e1]; exact hNS.2, rfl⟩
      · exfalso
        rw [hpm] at hp
        obtain ⟨h10, h11, h12, h13⟩ := h4
        change AtOrBelow e a.name at h10
        change Covers (w.log id) e ∨ e = a.name ∨ ∀ l, AtOrBelow (e ++ [l]) a.name → _ at h13
        rcases h13 with h | h | h
        · rcases h.2 with h | h
          · exact hcut h
          · exact hdn h
        · rw [h] at hp
          obtain ⟨rest, hp⟩ := hp
          have := congrArg List.length hp
          simp at this
        · exact h _ hp hm

/-! ### Two visits one after the other -/

theorem route_front {w : World} {s : Str} {a : Ask} {p1 p2 : Trail} (h : Route w s a (p1 ++ p2)) : Route w s a p1 := by
  induction p1 generalizing s a with
  | nil => exact .done _ _
  | cons x p1 ih =>
    obtain ⟨xs, xa, xd⟩ := x
    cases h with | step _ _ _ _ _ _ h1 h2 => exact .step _ _ _ _ _ _ h1 (ih h2)

theorem transcript_pair {said : Str → Ask → List Answer} {p : Trail} {pre post : List Visit} {x y : Visit} (h : transcript said p = pre ++ x :: y :: post) :
    ∃ p1 sd sd' p2, p = p1 ++ (x.server, x.ask, sd) :: (y.server, y.ask, sd') :: p2 ∧ x.said = said x.server x.ask ∧ y.said = said y.server y.ask := by
  unfold transcript at h
  obtain ⟨p1, p3, rfl, rfl, h2⟩ := List.map_eq_append_iff.mp h
  obtain ⟨x', p4, rfl, rfl, h3⟩ := List.map_eq_cons_iff.mp h2
  obtain ⟨y', p5, rfl, rfl, h4⟩ := List.map_eq_cons_iff.mp h3
  exact ⟨p1, x'.2.2, y'.2.2, p5, rfl, rfl, rfl⟩

/-- Two consecutive visits of an examined resolution. -/
theorem examined_pair {w : World} (hw : WellFormed w) {a0 : Ask} {said : Str → Ask → List Answer} (ha : Answering w a0 said) {p : Trail}
    (hp : Examined w said a0 p) {pre post : List Visit} {x y : Visit} (h : transcript said p = pre ++ x :: y :: post) :
    PutTo w a0 x.server x.ask ∧ x.server ≠ [] ∧ y.server ≠ [] ∧ Says w x.server x.ask x.said ∧ Says w y.server y.ask y.said ∧
      ∃ sd, Step w x.server x.ask y.server y.ask sd := by
  obtain ⟨p1, sd, sd', p2, rfl, e1, e2⟩ := transcript_pair h
  have hr : Route w [] a0 (p1 ++ (x.server, x.ask, sd) :: (y.server, y.ask, sd') :: p2) := hp.elim (·.route) (·.route)
  have hx : x.server ≠ [] := route_server hw hr (x.server, x.ask, sd) (by simp)
  have hy : y.server ≠ [] := route_server hw hr (y.server, y.ask, sd') (by simp)
  have h1 := reached_route .start hr (x.server, x.ask, sd) (by simp)
  have h2 := reached_route .start hr (y.server, y.ask, sd') (by simp)
  refine ⟨⟨p1, sd, ?_⟩, hx, hy, e1 ▸ ha _ _ h1 hx, e2 ▸ ha _ _ h2 hy, sd', ?_⟩
  · have := route_front (p1 := p1 ++ [(x.server, x.ask, sd)]) (p2 := (y.server, y.ask, sd') :: p2) (by simpa using hr)
    exact this
  · have := route_append hr
    cases this with | step _ _ _ _ _ _ h1 _ => exact h1

/-- Rewriting changes the types asked for by CNAME at most. -/
theorem step_types {w : World} {s s' : Str} {a a' : Ask} {sd : Option Ask} (h : Step w s a s' a' sd) (t : RRType) (ht : t ≠ .CNAME) :
    Member a'.types t ↔ Member a.types t := by
  have key : ∀ {r : RR}, Rewritten r a a' → (Member a'.types t ↔ Member a.types t) := by
    intro r h
    cases h with
    | cname _ _ h _ => rw [h t]; exact ⟨fun h => h.1, fun h => ⟨h, ht⟩⟩
    | dname _ _ _ _ h _ => rw [h]
  cases h with
  | top => exact Iff.rfl
  | referral => exact Iff.rfl
  | rewriteHere _ _ _ _ _ _ _ _ _ _ _ h => exact key h
  | rewriteTop _ _ _ _ _ _ _ _ _ _ _ _ h => exact key h

theorem route_types {w : World} {s : Str} {a : Ask} {p : Trail} (h : Route w s a p) (t : RRType) (ht : t ≠ .CNAME) :
    ∀ x ∈ p, (Member x.2.1.types t ↔ Member a.types t) := by
  induction h with
  | done => intro x hx; cases hx
  | step s a s' a' sd p h1 _ ih =>
    intro x hx
    have := step_types h1 t ht
    rcases List.mem_cons.mp hx with rfl | hx
    · exact this
    · exact (ih x hx).trans this

theorem Spec.PutTo.types {w : World} {a0 a : Ask} {s : Str} (h : PutTo w a0 s a) (t : RRType) (ht : t ≠ .CNAME) :
    Member a.types t ↔ Member a0.types t := by
  obtain ⟨p, sd, h⟩ := h
  exact route_types h t ht (s, a, sd) (by simp)

end Groot
