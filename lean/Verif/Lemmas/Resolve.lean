import Verif.Lemmas.Glue
import Verif.Spec.Resolve

/-! # Zone selection, answers and steps: facts about the resolution relation -/

namespace Groot

open Spec

theorem short_iff (n : Name) : (lengthCheck n).1 = true ↔ Short n := lengthCheck_iff n

theorem originMatch_eq (o n : Name) : originMatch o n = if AtOrBelow o n then some o.length else none := by
  induction o generalizing n with
  | nil => simp [originMatch, AtOrBelow]
  | cons l o ih =>
    cases n with
    | nil => simp [originMatch, AtOrBelow]
    | cons q n =>
      unfold originMatch
      by_cases h : l = q
      · subst h
        rw [if_pos rfl, ih]
        by_cases h2 : AtOrBelow o n
        · have : AtOrBelow (l :: o) (l :: n) := by obtain ⟨r, rfl⟩ := h2; exact ⟨r, rfl⟩
          simp [h2, this]
        · have : ¬ AtOrBelow (l :: o) (l :: n) := by
            rintro ⟨r, hr⟩; apply h2; simp at hr; exact ⟨r, hr⟩
          simp [h2, this]
      · have : ¬ AtOrBelow (l :: o) (q :: n) := by
          rintro ⟨r, hr⟩; simp at hr; exact h hr.1.symm
        simp [h, this]

theorem lookup_map_snd {α β : Type} (l : List (Nat × α)) (f : Nat → α → β) (k : Nat) :
    (l.map (fun p => (p.1, f p.1 p.2))).lookup k = (l.lookup k).map (f k) := by
  induction l with
  | nil => rfl
  | cons p l ih =>
    obtain ⟨i, a⟩ := p
    simp only [List.map_cons, List.lookup_cons]
    by_cases h : k = i
    · subst h; simp
    · have : (k == i) = false := by simpa using h
      simp [this, ih]

/-- A context made from the very records the world lists. -/
theorem represents_of {ctx : Context} {w : World} (h1 : ctx.nsZones = w.nsZones) (h2 : ctx.top = w.top) {thr : Nat}
    (h3 : ctx.zones = w.zones.map (fun p => (p.1, Zone.afterAdds thr p.1 p.2))) : Represents ctx w :=
  ⟨h1, h2, thr, w.zones, h3, List.forall₂_same.mpr (fun _ _ => ⟨rfl, rfl⟩)⟩

/-- Zones that hold the same are found under the same number. -/
theorem lookup_alike {zs qs : List (Nat × List RR)} (h : List.Forall₂ (fun p q => p.1 = q.1 ∧ stored p.2 = stored q.2) zs qs) (id : Nat) :
    (zs.lookup id).map stored = (qs.lookup id).map stored := by
  induction h with
  | nil => rfl
  | @cons p q zs qs hpq _ ih =>
    rw [List.lookup_cons, List.lookup_cons, hpq.1]
    cases id == q.1 with
    | true => exact congrArg some hpq.2
    | false => exact ih

/-- The zone of an id, with its specification. -/
theorem Spec.Represents.zone {ctx : Context} {w : World} (hr : Represents ctx w) {id : Nat}
    (h : w.zones.lookup id ≠ none) :
    ∃ z names, ctx.zones.lookup id = some z ∧ z.Rep names (w.log id) := by
  obtain ⟨_, _, thr, zones, hz, hall⟩ := hr
  obtain ⟨qs, hqs⟩ := Option.ne_none_iff_exists'.mp h
  have hl := lookup_alike hall id
  rw [hqs] at hl
  obtain ⟨rs, hrs, he⟩ := Option.map_eq_some_iff.mp hl
  obtain ⟨names, hn⟩ := Zone.rep_afterAdds thr id rs
  refine ⟨Zone.afterAdds thr id rs, names, ?_, ?_⟩
  · rw [hz, lookup_map_snd zones (fun i rs => Zone.afterAdds thr i rs), hrs]; rfl
  · unfold World.log; rw [hqs]; rw [he] at hn; exact hn

theorem exclusive_log (w : World) (id : Nat) : Exclusive (w.log id) := by
  obtain ⟨names, h⟩ := Zone.rep_afterAdds 0 0 ((w.zones.lookup id).getD [])
  exact h.excl

/-- What is known after looking at the zones `pre`. -/
def BestSoFar (w : World) (n : Name) (pre : List Nat) : Option (Nat × Nat) → Prop
  | none => ∀ j ∈ pre, ¬ AtOrBelow (w.origin j) n
  | some (m, id) => m = (w.origin id).length ∧ ∃ before after, pre = before ++ id :: after ∧
      AtOrBelow (w.origin id) n ∧
      (∀ j ∈ before, AtOrBelow (w.origin j) n → (w.origin j).length < (w.origin id).length) ∧
      (∀ j ∈ after, AtOrBelow (w.origin j) n → (w.origin j).length ≤ (w.origin id).length)

theorem relevantStep_spec {ctx : Context} {w : World} (hr : Represents ctx w) (n : Name) (pre : List Nat)
    (best : Option (Nat × Nat)) (id : Nat) (hid : w.zones.lookup id ≠ none) (hb : BestSoFar w n pre best) :
    ∃ best', relevantStep ctx n best id = .ok best' ∧ BestSoFar w n (pre ++ [id]) best' := by
  obtain ⟨z, names, hz, hrep⟩ := hr.zone hid
  have ho : z.origin = w.origin id := hrep.origin
  unfold relevantStep
  rw [hz]
  simp only [originMatch_eq, ho]
  by_cases h : AtOrBelow (w.origin id) n
  · rw [if_pos h]
    rcases best with _ | ⟨m, b⟩
    · refine ⟨_, rfl, rfl, pre, [], by simp, h, ?_, by simp⟩
      intro j hj hj2
      exact absurd hj2 (hb j hj)
    · obtain ⟨hm, before, after, hpre, h1, h2, h3⟩ := hb
      simp only
      split
      · rename_i hgt
        refine ⟨_, rfl, rfl, pre, [], by simp, h, ?_, by simp⟩
        intro j hj hj2
        rw [hpre] at hj
        simp only [List.mem_append, List.mem_cons] at hj
        rcases hj with hj | rfl | hj
        · have := h2 j hj hj2; omega
        · omega
        · have := h3 j hj hj2; omega
      · rename_i hle
        refine ⟨_, rfl, hm, before, after ++ [id], by simp [hpre], h1, h2, ?_⟩
        intro j hj hj2
        simp only [List.mem_append, List.mem_singleton] at hj
        rcases hj with hj | rfl
        · exact h3 j hj hj2
        · omega
  · rw [if_neg h]
    refine ⟨best, rfl, ?_⟩
    rcases best with _ | ⟨m, b⟩
    · intro j hj
      simp only [List.mem_append, List.mem_singleton] at hj
      rcases hj with hj | rfl
      · exact hb j hj
      · exact h
    · obtain ⟨hm, before, after, hpre, h1, h2, h3⟩ := hb
      refine ⟨hm, before, after ++ [id], by simp [hpre], h1, h2, ?_⟩
      intro j hj hj2
      simp only [List.mem_append, List.mem_singleton] at hj
      rcases hj with hj | rfl
      · exact h3 j hj hj2
      · exact absurd hj2 h

theorem relevantFold_spec {ctx : Context} {w : World} (hr : Represents ctx w) (n : Name) (ids : List Nat) :
    ∀ (pre : List Nat) (best : Option (Nat × Nat)), (∀ id ∈ ids, w.zones.lookup id ≠ none) → BestSoFar w n pre best →
    ∃ best', ids.foldlM (relevantStep ctx n) best = .ok best' ∧ BestSoFar w n (pre ++ ids) best' := by
  induction ids with
  | nil => intro pre best _ hb; exact ⟨best, rfl, by simpa using hb⟩
  | cons id ids ih =>
    intro pre best hids hb
    obtain ⟨b1, h1, h2⟩ := relevantStep_spec hr n pre best id (hids id (by simp)) hb
    obtain ⟨b2, h3, h4⟩ := ih (pre ++ [id]) b1 (fun j hj => hids j (by simp [hj])) h2
    refine ⟨b2, ?_, by simpa using h4⟩
    rw [List.foldlM_cons, h1, Res.ok_bind, h3]

/-- Zone selection. -/
theorem relevantZone_spec {ctx : Context} {w : World} (hr : Represents ctx w) (hw : WellFormed w) (s : Str) (n : Name) :
    ∃ o, relevantZone ctx s n = .ok o ∧ (∀ id, o = some id → Best w s n id) ∧ (o = none → ¬ Encloses w s n) := by
  unfold relevantZone
  rw [hr.1]
  rcases hl : w.nsZones.lookup s with _ | ids
  · refine ⟨none, rfl, by simp, ?_⟩
    rintro - ⟨id, hid, _⟩
    simp [World.hosted, hl] at hid
  · have hh : w.hosted s = ids := by simp [World.hosted, hl]
    obtain ⟨best, h1, h2⟩ := relevantFold_spec hr n ids [] none (fun id hid => hw.zones s id (by rw [hh]; exact hid))
      (by simp [BestSoFar])
    simp only [h1, Res.ok_bind]
    refine ⟨_, rfl, ?_, ?_⟩
    · intro id hid
      rcases best with _ | ⟨m, b⟩
      · simp at hid
      · simp at hid; subst hid
        obtain ⟨_, before, after, hpre, h3⟩ := h2
        refine ⟨before, after, ?_, h3⟩
        rw [hh]; simpa using hpre
    · intro hn
      rcases best with _ | ⟨m, b⟩
      · rintro ⟨id, hid, h3⟩
        exact h2 id (by rw [hh] at hid; simpa using hid) h3
      · simp at hn

theorem best_unique {w : World} {s : Str} {n : Name} {i j : Nat} (hi : Best w s n i) (hj : Best w s n j) : i = j := by
  obtain ⟨b1, a1, e1, x1, y1, z1⟩ := hi
  obtain ⟨b2, a2, e2, x2, y2, z2⟩ := hj
  rw [e1] at e2
  rw [List.append_eq_append_iff] at e2
  rcases e2 with ⟨c, hc1, hc2⟩ | ⟨c, hc1, hc2⟩
  · rcases c with _ | ⟨d, c⟩
    · simp at hc2; exact hc2.1
    · simp at hc2
      obtain ⟨rfl, hc2⟩ := hc2
      have h1 := y2 i (by simp [hc1]) x1
      have h2 := z1 j (by simp [hc2]) x2
      omega
  · rcases c with _ | ⟨d, c⟩
    · simp at hc2; exact hc2.1.symm
    · simp at hc2
      obtain ⟨rfl, hc2⟩ := hc2
      have h1 := y1 j (by simp [hc1]) x2
      have h2 := z2 i (by simp [hc2]) x1
      omega

theorem Spec.Best.encloses {w : World} {s : Str} {n : Name} {i : Nat} (h : Best w s n i) : Encloses w s n := by
  obtain ⟨b, a, e, x, _⟩ := h
  exact ⟨i, by rw [e]; simp, x⟩

theorem Spec.Best.hosted {w : World} {s : Str} {n : Name} {i : Nat} (h : Best w s n i) : i ∈ w.hosted s := by
  obtain ⟨b, a, e, x, _⟩ := h
  rw [e]; simp

theorem Spec.Encloses.listed {w : World} {s : Str} {n : Name} (h : Encloses w s n) : w.Listed s := by
  obtain ⟨i, hi, _⟩ := h
  intro hn
  simp [World.hosted, hn] at hi

theorem best_exists {w : World} {s : Str} {n : Name} (h : Encloses w s n) : ∃ id, Best w s n id := by
  have key : ∀ ids : List Nat, (∃ id ∈ ids, AtOrBelow (w.origin id) n) →
      ∃ id before after, ids = before ++ id :: after ∧ AtOrBelow (w.origin id) n ∧
    (∀ j ∈ before, AtOrBelow (w.origin j) n → (w.origin j).length < (w.origin id).length) ∧
    (∀ j ∈ after, AtOrBelow (w.origin j) n → (w.origin j).length ≤ (w.origin id).length) := by
    intro ids
    induction ids with
    | nil => simp
    | cons i ids ih =>
      intro hx
      by_cases h2 : ∃ id ∈ ids, AtOrBelow (w.origin id) n
      · obtain ⟨id, b, a, e, x, y, z⟩ := ih h2
        by_cases h3 : AtOrBelow (w.origin i) n ∧ (w.origin id).length ≤ (w.origin i).length
        · refine ⟨i, [], ids, rfl, h3.1, by simp, ?_⟩
          intro j hj hj2
          rw [e] at hj
          simp only [List.mem_append, List.mem_cons] at hj
          rcases hj with hj | rfl | hj
          · have := y j hj hj2; omega
          · omega
          · have := z j hj hj2; omega
        · refine ⟨id, i :: b, a, by simp [e], x, ?_, z⟩
          intro j hj hj2
          simp only [List.mem_cons] at hj
          rcases hj with rfl | hj
          · by_contra hc; exact h3 ⟨hj2, by omega⟩
          · exact y j hj hj2
      · obtain ⟨id, hid, h3⟩ := hx
        simp only [List.mem_cons] at hid
        rcases hid with rfl | hid
        · refine ⟨id, [], ids, rfl, h3, by simp, ?_⟩
          intro j hj hj2
          exact absurd ⟨j, hj, hj2⟩ h2
        · exact absurd ⟨id, hid, h3⟩ h2
  obtain ⟨id, hid⟩ := key _ h
  exact ⟨id, hid⟩

/-! ### Replies depend only on the question -/

theorem reply_congr {log : List RR} {q q' : EC} (h : ask q = ask q') {as : List Answer} (hr : Reply log q as) :
    Reply log q' as := by
  unfold ask at h
  simp only [Ask.mk.injEq] at h
  obtain ⟨hn, ht, he⟩ := h
  have hx : ∀ n, ExactFor q n ↔ ExactFor q' n := by
    intro n
    unfold ExactFor
    rw [hn]
    have : q.excluded = none ↔ q'.excluded = none := by
      rw [← Option.not_isSome_iff_eq_none, ← Option.not_isSome_iff_eq_none, he]
    rw [this]
  have hsrc : ∀ e m b, Source log q e m b ↔ Source log q' e m b := by
    intro e m b; unfold Source; rw [hx]
  have hoc : OnlyCname q ↔ OnlyCname q' := by unfold OnlyCname; rw [ht]
  have hd : ∀ n b, dataFor log q n b = dataFor log q' n b := by intro n b; unfold dataFor; rw [ht]
  cases hr with
  | referral e ts h1 h2 h3 => exact .referral e ts (hn ▸ h1) h2 h3
  | dname e ts r h1 h2 h3 h4 h5 h6 h7 => exact .dname e ts r (hn ▸ h1) h2 ((hx e).not.mp h3) h4 h5 h6 h7
  | cname e m ex ts r tag h1 h2 h3 h4 h5 h6 h7 =>
    exact .cname e m ex ts r tag (hn ▸ h1) ((hsrc _ _ _).mp h2) h3 h4 h5 h6 (by rw [← hoc]; exact h7)
  | data e m ex f mi h1 h2 h3 h4 h5 =>
    rw [hd]
    exact .data e m ex f mi (hn ▸ h1) ((hsrc _ _ _).mp h2) h3 (by rw [← ht]; exact h4) (by rw [← ht]; exact h5)
  | nx e h1 h2 h3 h4 h5 => rw [ht]; exact .nx e (hn ▸ h1) h2 ((hx e).not.mp h3) h4 h5

@[simp] theorem ask_ec (a : Ask) : ask a.ec = a := by
  cases a with
  | mk n t b => cases b <;> rfl

theorem reply_ask {log : List RR} {q : EC} {as : List Answer} : Reply log (ask q).ec as ↔ Reply log q as :=
  ⟨reply_congr (by simp), reply_congr (by simp)⟩

theorem ecEqv_iff (q q' : EC) : q.eqv q' = true ↔ ask q = ask q' := by
  unfold EC.eqv ask
  simp only [Ask.mk.injEq]
  by_cases h1 : q.name = q'.name <;> by_cases h2 : q.types = q'.types <;>
    cases q.excluded <;> cases q'.excluded <;> simp [h1, h2]

/-- Answers only contain records of the zone. -/
theorem mem_withGlue {log ns : List RR} {x : RR} :
    x ∈ withGlue log ns ↔ x ∈ ns ∨ ∃ r ∈ ns, x ∈ log ∧ x.name = stringToLabels r.rdata ∧ (x.type = .A ∨ x.type = .AAAA) := by
  unfold withGlue glueFor
  simp only [List.mem_flatMap, List.mem_cons, List.mem_filter, decide_eq_true_eq]
  constructor
  · rintro ⟨r, hr, rfl | h⟩
    · exact Or.inl hr
    · exact Or.inr ⟨r, hr, h⟩
  · rintro (h | ⟨r, hr, h⟩)
    · exact ⟨x, h, Or.inl rfl⟩
    · exact ⟨r, hr, Or.inr h⟩

theorem nsAt_sub {log : List RR} {n : Name} {x : RR} (h : x ∈ nsAt log n) : x ∈ log ∧ x.name = n ∧ x.type = .NS := by
  unfold nsAt at h
  simp only [List.mem_filter, mem_recordsAt, decide_eq_true_eq] at h
  exact ⟨h.1.1, h.1.2, h.2⟩

theorem Spec.Reply.mem {log : List RR} {q : EC} {as : List Answer} (h : Reply log q as) {x : Answer} (hx : x ∈ as)
    {r : RR} (hr : r ∈ x.rrs) : r ∈ log := by
  have wg : ∀ n, r ∈ withGlue log (nsAt log n) → r ∈ log := by
    intro n hh
    rcases mem_withGlue.mp hh with h | ⟨_, _, h, _⟩
    · exact (nsAt_sub h).1
    · exact h
  cases h with
  | referral e ts h1 h2 h3 => simp at hx; subst hx; exact wg _ hr
  | dname e ts r' h1 h2 h3 h4 h5 h6 h7 => simp at hx; subst hx; simp at hr; subst hr; exact h4
  | cname e m ex ts r' tag h1 h2 h3 h4 h5 h6 h7 => simp at hx; subst hx; simp at hr; subst hr; exact h3
  | data e m ex f mi h1 h2 h3 h4 h5 =>
    unfold dataAnswers at hx
    simp only [List.mem_append] at hx
    rcases hx with hx | hx
    · split at hx
      · simp at hx
      · simp at hx; subst hx
        simp only at hr
        unfold dataFor at hr
        split at hr
        · rw [List.mem_append] at hr
          rcases hr with hr | hr
          · simp only [List.mem_filter, mem_recordsAt] at hr; exact hr.1.1
          · split at hr
            · exact wg _ hr
            · simp at hr
        · simp only [List.mem_filter, mem_recordsAt] at hr; exact hr.1.1
    · split at hx
      · simp at hx
      · simp at hx; subst hx; simp at hr
  | nx e h1 h2 h3 h4 h5 => simp at hx; subst hx; simp at hr

/-- The rewriting answers of a reply. -/
theorem Spec.Reply.rewrite {log : List RR} {q : EC} {as : List Answer} (h : Reply log q as) {x : Answer} (hx : x ∈ as)
    (ht : x.tag = .REWRITE) : ∃ r, as = [x] ∧ x.rrs = [r] ∧
      (r.type = .CNAME ∧ ¬ OnlyCname q ∨ r.type = .DNAME ∧ AtOrBelow r.name q.name) := by
  cases h with
  | referral e ts h1 h2 h3 => simp at hx; subst hx; simp at ht
  | dname e ts r' h1 h2 h3 h4 h5 h6 h7 =>
    simp at hx; subst hx
    exact ⟨r', rfl, rfl, Or.inr ⟨h6, by rw [h5]; exact h1.1⟩⟩
  | cname e m ex ts r' tag h1 h2 h3 h4 h5 h6 h7 =>
    simp at hx; subst hx
    simp at ht; subst ht
    refine ⟨r', rfl, rfl, Or.inl ⟨h5, ?_⟩⟩
    rcases h7 with ⟨_, h⟩ | ⟨h, _⟩
    · simp at h
    · exact h
  | data e m ex f mi h1 h2 h3 h4 h5 =>
    unfold dataAnswers at hx
    simp only [List.mem_append] at hx
    rcases hx with hx | hx <;> split at hx <;> simp at hx <;> subst hx <;> simp at ht
  | nx e h1 h2 h3 h4 h5 => simp at hx; subst hx; simp at ht

/-- The referring answers of a reply. -/
theorem Spec.Reply.ref {log : List RR} {q : EC} {as : List Answer} (h : Reply log q as) {x : Answer} (hx : x ∈ as)
    (ht : x.tag = .REF) : ∃ e, as = [x] ∧ x.rrs = withGlue log (nsAt log e) ∧ nsAt log e ≠ [] := by
  cases h with
  | referral e ts h1 h2 h3 => simp at hx; subst hx; exact ⟨e, rfl, rfl, nsAt_ne_nil.mpr h2.1⟩
  | dname e ts r' h1 h2 h3 h4 h5 h6 h7 => simp at hx; subst hx; simp at ht
  | cname e m ex ts r' tag h1 h2 h3 h4 h5 h6 h7 =>
    simp at hx; subst hx
    rcases h7 with ⟨_, h⟩ | ⟨_, h⟩ <;> simp [h] at ht
  | data e m ex f mi h1 h2 h3 h4 h5 =>
    unfold dataAnswers at hx
    simp only [List.mem_append] at hx
    rcases hx with hx | hx <;> split at hx <;> simp at hx <;> subst hx <;> simp at ht
  | nx e h1 h2 h3 h4 h5 => simp at hx; subst hx; simp at ht

/-- A reply to a question with a non-empty type set has at least one answer. -/
theorem Spec.Reply.ne_nil {log : List RR} {q : EC} {as : List Answer} (h : Reply log q as) (ht : q.types ≠ 0) :
    as ≠ [] := by
  cases h with
  | referral e ts h1 h2 h3 => simp
  | dname e ts r' h1 h2 h3 h4 h5 h6 h7 => simp
  | cname e m ex ts r' tag h1 h2 h3 h4 h5 h6 h7 => simp
  | nx e h1 h2 h3 h4 h5 => simp
  | data e m ex f mi h1 h2 h3 h4 h5 =>
    unfold dataAnswers
    by_cases hf : f = 0
    · by_cases hm : mi = 0
      · exfalso
        apply ht
        apply typeSet_ext
        intro t
        rw [Bool.eq_iff_iff, has_iff, has_iff]
        have z : ∀ t, ¬ Member (0 : TypeSet) t := by intro t h; simp [Member] at h
        constructor
        · intro hq
          by_cases hh : HasType log m t
          · exact absurd ((hf ▸ h4 t).mpr ⟨hq, hh⟩) (z t)
          · exact absurd ((hm ▸ h5 t).mpr ⟨hq, hh⟩) (z t)
        · intro h; exact absurd h (z t)
      · rw [if_neg hm]; simp
    · rw [if_neg hf]; simp

end Groot
