import Verif.Lemmas.Emit

/-! # `generateECs` -/

namespace Groot
open Spec

section
variable {g : LGraph} {names : List Name} {xs : List (RR × Nat × Nat)}

/-- A recursion budget that suffices for class generation. -/
def genBudget (g : LGraph) (labels : Name) : Nat :=
  searchBudget g labels + (254 * (g.verts.length + 1)) * (g.verts.length + 1) + 1

theorem cmeasure_lt (g : LGraph) (v : Nat) (p labels : Name) : cmeasure g v p < genBudget g labels := by
  unfold cmeasure genBudget
  have h1 := others_le g v (octets p)
  have h2 : (kMaxDomainLength - octets p) * (g.verts.length + 1) ≤ 253 * (g.verts.length + 1) :=
    Nat.mul_le_mul_right _ (by unfold kMaxDomainLength; omega)
  have h3 : ((kMaxDomainLength - octets p) * (g.verts.length + 1) + others g v (octets p) + 1) * (g.verts.length + 1) ≤
      (254 * (g.verts.length + 1)) * (g.verts.length + 1) := Nat.mul_le_mul_right _ (by omega)
  rw [Nat.add_mul _ 1, Nat.one_mul] at h3
  omega

theorem matches_le {rs : List RR} {labels n : Name} {i : Nat} (h : Matches rs labels n i) : i ≤ labels.length := by
  induction h with
  | root => exact Nat.zero_le _
  | down n i l _ hl _ _ => exact (List.getElem?_eq_some_iff.mp hl).1
  | redirect _ _ _ _ hi _ _ => exact Nat.le_of_lt hi

theorem matches_known {rs : List RR} {labels k : Name} {i : Nat} (h : Matches rs labels k i) : Known rs k := by
  cases h with
  | root => exact Or.inl rfl
  | down _ _ _ _ _ h => exact h
  | redirect _ _ _ _ _ h => exact (alias_known h).2

theorem matches_full {rs : List RR} {labels k : Name} {i : Nat} (h : Matches rs labels k i) (hi : i = labels.length) :
    (k = [] ∧ labels = []) ∨ ∃ k' l, k = k' ++ [l] ∧ labels = labels.dropLast ++ [l] := by
  cases h with
  | root => left; exact ⟨rfl, List.length_eq_zero_iff.mp hi.symm⟩
  | down n i l _ hl _ =>
    right
    refine ⟨n, l, rfl, ?_⟩
    have hne : labels ≠ [] := by intro c; simp [c] at hi
    have : labels.getLast hne = l := by
      rw [List.getLast_eq_getElem]
      rw [List.getElem?_eq_some_iff] at hl
      obtain ⟨h1, h2⟩ := hl
      rw [← h2]
      congr 1
      omega
    rw [← this, List.dropLast_append_getLast]
  | redirect n i t _ hlt _ => omega

/-- The calls made for the closest enclosers. -/
theorem encl_fold {types : TypeSet} {fuel : Nat} {p : Name} {s : Bool} (es : List (Nat × Int))
    (hr : ∀ e ∈ es, ∃ o, LGraph.subDomainECs types fuel g e.1 p false s = .ok (g, o)) :
    ∀ acc, ∃ out : Nat → List Task, (∀ e ∈ es, LGraph.subDomainECs types fuel g e.1 p false s = .ok (g, out e.1)) ∧
      es.foldlM (fun (st : LGraph × List Task) r => do
            let x ← LGraph.subDomainECs types fuel st.1 r.1 p false s
            .ok (x.1, st.2 ++ x.2)) (g, acc) = .ok (g, acc ++ es.flatMap (fun e => out e.1)) := by
  let out : Nat → List Task := fun v => match LGraph.subDomainECs types fuel g v p false s with | .ok r => r.2 | _ => []
  have hout : ∀ e ∈ es, LGraph.subDomainECs types fuel g e.1 p false s = .ok (g, out e.1) := by
    intro e he
    obtain ⟨o, ho⟩ := hr e he
    show _ = Res.ok (g, match LGraph.subDomainECs types fuel g e.1 p false s with | .ok r => r.2 | _ => [])
    rw [ho]
  intro acc
  refine ⟨out, hout, ?_⟩
  clear hr
  induction es generalizing acc with
  | nil => simp
  | cons e es ih =>
    rw [List.foldlM_cons]
    simp only [hout e (by simp), Res.ok_bind]
    rw [ih (fun e he => hout e (by simp [he]))]
    simp

/-- What `generateECs` does on a loaded graph, for a budget that is large enough. -/
theorem LRep.generate (h : LRep g names xs) (job : LGraph.Req) {fuel : Nat} (hf : genBudget g (stringToLabels job.domain) ≤ fuel) :
    ∃ ts, LGraph.generateECs fuel g job = .ok (g, ts) ∧
      ((lengthCheck (stringToLabels job.domain)).1 = false → ts = []) ∧
      ((lengthCheck (stringToLabels job.domain)).1 = true → ∃ m,
        (∃ k, Matches (xs.map (·.1)) (stringToLabels job.domain) k m) ∧
        (∀ k i, Matches (xs.map (·.1)) (stringToLabels job.domain) k i → i ≤ m) ∧
        (m ≠ (stringToLabels job.domain).length →
          ts = [Task.ec { name := (stringToLabels job.domain).take m, types := job.types, excluded := some [] }]) ∧
        (m = (stringToLabels job.domain).length → job.subdomains = false → ts = [Task.ec (exactClass (stringToLabels job.domain) job.types)]) ∧
        (m = (stringToLabels job.domain).length → job.subdomains = true → ∃ (es : List (Nat × Int)) (out : Nat → List Task),
          LGraph.closestEnclosers fuel g (stringToLabels job.domain) = .ok (g, es) ∧
          (∀ (w : Nat), w ∈ es.map (·.1) ↔ ∃ n, names[w]? = some n ∧ Matches (xs.map (·.1)) (stringToLabels job.domain) n m) ∧
          (∀ w ∈ es.map (·.1), LGraph.subDomainECs job.types fuel g w (stringToLabels job.domain).dropLast false job.structural = .ok (g, out w)) ∧
          ts = es.flatMap (fun e => out e.1))) := by
  generalize hlab : stringToLabels job.domain = labels at hf ⊢
  unfold LGraph.generateECs
  dsimp only
  rw [hlab]
  cases hc : (lengthCheck labels).1 with
  | false => exact ⟨[], rfl, fun _ => rfl, fun h => by cases h⟩
  | true =>
    have hsb : searchBudget g labels ≤ fuel := by unfold genBudget at hf; omega
    obtain ⟨es, m, h1, h2, h3, h4, h5⟩ := h.search labels hsb
    rw [h1]
    simp only [Bool.not_true, Bool.false_eq_true, if_false, Res.ok_bind]
    rcases es with _ | ⟨e, es'⟩
    · exact absurd rfl h2
    · have he := (h3 e (by simp)).1
      have hall : ((e :: es').any (fun r => r.2 != e.2)) = false := by
        rw [List.any_eq_false]
        intro x hx
        rw [(h3 x hx).1, he]
        simp
      dsimp only
      rw [if_neg (by simp [hall])]
      obtain ⟨k0, hk0, hm0⟩ := (h3 e (by simp)).2
      rw [he]
      by_cases hm : (labels.length : Int) = m
      · rw [if_pos hm]
        have hm' : m = labels.length := by omega
        cases hs : job.subdomains with
        | false =>
          refine ⟨_, rfl, fun h => by simp at h, fun _ => ⟨m, ⟨k0, hm0⟩, h5, fun c => absurd hm' c, fun _ _ => rfl, fun _ h => by cases h⟩⟩
        | true =>
          have hcall : ∀ x ∈ e :: es', ∃ o, LGraph.subDomainECs job.types fuel g x.1 labels.dropLast false job.structural = .ok (g, o) := by
            intro x hx
            obtain ⟨n, hn, _⟩ := (h3 x hx).2
            exact subDomainECs_total job.types h.inv fuel g x.1 _ _ _ (Shape.refl g) (by rw [← h.inv.len]; exact Trie.name_lt hn)
              (by have := cmeasure_lt g x.1 labels.dropLast labels; omega)
          obtain ⟨out, ho, hfold⟩ := encl_fold _ hcall []
          simp only [if_true]
          refine ⟨_, hfold, fun h => by simp at h, fun _ => ⟨m, ⟨k0, hm0⟩, h5, fun c => absurd hm' c, fun _ h => absurd h (by simp), fun _ _ => ?_⟩⟩
          refine ⟨e :: es', out, rfl, ?_, ?_, by simp⟩
          · intro w
            rw [List.mem_map]
            constructor
            · rintro ⟨x, hx, rfl⟩; exact (h3 x hx).2
            · rintro ⟨n, hn, hmt⟩; exact ⟨_, h4 w n hn hmt, rfl⟩
          · intro w hw
            obtain ⟨x, hx, rfl⟩ := List.mem_map.mp hw
            exact ho x hx
      · rw [if_neg hm]
        refine ⟨_, rfl, fun h => by simp at h, fun _ => ⟨m, ⟨k0, hm0⟩, h5, fun _ => by simp, fun c => absurd (by omega) hm, fun c => absurd (by omega) hm⟩⟩

/-- The tasks of a subdomain job on an existing domain. -/
theorem LRep.generate_full (h : LRep g names xs) (hr : Regular (xs.map (·.1))) (job : LGraph.Req) {fuel : Nat}
    (hf : genBudget g (stringToLabels job.domain) ≤ fuel) (hlen : (lengthCheck (stringToLabels job.domain)).1 = true)
    (hsub : job.subdomains = true)
    (hex : ∃ k, Matches (xs.map (·.1)) (stringToLabels job.domain) k (stringToLabels job.domain).length) :
    ∃ ts, LGraph.generateECs fuel g job = .ok (g, ts) ∧ ∀ q, q ∈ ts ↔
      ∃ k, Matches (xs.map (·.1)) (stringToLabels job.domain) k (stringToLabels job.domain).length ∧
        TaskOf (xs.map (·.1)) g job.types job.structural (stringToLabels job.domain) k q := by
  obtain ⟨ts, h1, _, h3⟩ := h.generate job hf
  obtain ⟨m, hx, h5, _, _, h8⟩ := h3 hlen
  refine ⟨ts, h1, ?_⟩
  generalize stringToLabels job.domain = labels at *
  obtain ⟨k1, hk1⟩ := hex
  have hm : m = labels.length := by
    apply Nat.le_antisymm
    · obtain ⟨k, hk⟩ := hx
      have key : ∀ k i, Matches (xs.map (·.1)) labels k i → i ≤ labels.length := by
        intro k i hk
        induction hk with
        | root => omega
        | down n i l _ hl _ _ => exact (List.getElem?_eq_some_iff.mp hl).1
        | redirect n i t _ hi _ _ => omega
      exact key k m hk
    · exact h5 _ _ hk1
  obtain ⟨es, out, _, e2, e3, e4⟩ := h8 hm hsub
  have hp := h.plain hr
  have hlens : lens g = fun _ => -1 := by funext v; exact h.len v
  have hkey : ∀ (w : Nat) n, names[w]? = some n → Matches (xs.map (·.1)) labels n labels.length →
      ∀ q, q ∈ out w ↔ TaskOf (xs.map (·.1)) g job.types job.structural labels n q := by
    intro w n hw hmt q
    have hwm : w ∈ es.map (·.1) := (e2 w).mpr ⟨n, hw, by rw [hm]; exact hmt⟩
    have hcall := e3 w hwm
    rw [← h.emit_iff_taskOf hw, ← hlens]
    refine subDomainECs_exact h.inv hp fuel g w labels.dropLast labels false job.structural _ (Shape.refl g)
      (by rw [← h.inv.len]; exact Trie.name_lt hw) ?_ (by simp) ?_ ?_ ?_ ?_ hcall q
    · rcases matches_full hmt rfl with ⟨rfl, rfl⟩ | ⟨k', l, rfl, hl⟩
      · rw [Trie.name_inj h.inv.nodup hw h.inv.root, h.rootLabel]; rfl
      · obtain ⟨v, hv, _⟩ := h.inv.parent w k' l hw
        have hlab := ((h.inv.child_iff hv l w).mpr hw).2
        rw [hlab]
        have hne : l ≠ ['.'] := by
          rintro rfl
          exact hr.1 _ ((h.known _).mp (List.mem_of_getElem? hw)) (by simp)
        unfold LGraph.ecName
        rw [if_neg hne]
        conv_rhs => rw [hl]
        split <;> simp
    · rcases matches_full hmt rfl with ⟨_, rfl⟩ | ⟨k', l, _, hl⟩
      · simp
      · conv_rhs => rw [hl]
        rw [octets_snoc]; omega
    · rintro rfl
      cases hmt with
      | root => exact Trie.name_inj h.inv.nodup hw h.inv.root
      | redirect _ _ _ _ hi => simp at hi
    · intro u; rw [hlens]; simp
    · intro _; rw [hlens]; simp
  intro q
  rw [e4, List.mem_flatMap]
  constructor
  · rintro ⟨e, he, hq⟩
    obtain ⟨n, hn, hmt⟩ := (e2 e.1).mp (List.mem_map_of_mem he)
    rw [hm] at hmt
    exact ⟨n, hmt, (hkey e.1 n hn hmt q).mp hq⟩
  · rintro ⟨k, hmt, hq⟩
    obtain ⟨w, hw⟩ := h.node (matches_known hmt)
    obtain ⟨e, he, hee⟩ := List.mem_map.mp ((e2 w).mpr ⟨k, hw, by rw [hm]; exact hmt⟩)
    exact ⟨e, he, by rw [hee]; exact (hkey w k hw hmt q).mpr hq⟩

end
end Groot
