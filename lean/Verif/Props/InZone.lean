import Verif.Lemmas.Total

/-!
# C20: loaded zones hold in-zone records, from the files
-/

namespace Groot

open Spec

/-- What a zone of the context holds is the log of the world. -/
theorem log_of_held {ctx : Context} {w : World} (h : Represents ctx w) (hi : (w.zones.map (·.1)).Pairwise (· < ·)) {p : Nat × Zone} (hp : p ∈ ctx.zones) :
    (∀ r, r ∈ heldBy p.2 ↔ r ∈ w.log p.1) ∧ p.2.origin = w.origin p.1 := by
  obtain ⟨-, -, thr, zones, hz, hall⟩ := h
  rw [hz] at hp
  obtain ⟨⟨id, rs⟩, hq, rfl⟩ := List.mem_map.mp hp
  have hlog : w.log id = stored rs := by
    obtain ⟨⟨id', rs'⟩, hq', e1, e2⟩ := forall₂_mem' hall hq
    cases e1
    unfold World.log; rw [lookup_of_mem hi hq']; exact e2.symm
  obtain ⟨names, hrep⟩ := Zone.rep_afterAdds thr id rs
  constructor
  · intro r
    show r ∈ heldBy (Zone.afterAdds thr id rs) ↔ r ∈ w.log id
    rw [hlog]
    constructor
    · intro hr
      obtain ⟨v, hv, hr⟩ := List.mem_flatMap.mp hr
      obtain ⟨i, hi, e⟩ := List.mem_iff_getElem.mp hv
      have hlt : i < names.length := by rw [hrep.inv.len]; exact hi
      have hd := hrep.data i _ (List.getElem?_eq_getElem hlt)
      have : r ∈ (Zone.afterAdds thr id rs).rrsAt i := by
        unfold Zone.rrsAt Trie.vtx
        rw [List.getD_eq_getElem?_getD, List.getElem?_eq_getElem hi, e]
        exact hr
      rw [hd] at this
      exact (mem_recordsAt.mp this).1
    · intro hs
      have hn : r.name ∈ names := (hrep.mem _).mpr (.inr ⟨r, hs, [], by simp⟩)
      obtain ⟨v, hv⟩ := List.mem_iff_getElem?.mp hn
      have hd := hrep.data v _ hv
      have hs' : r ∈ (Zone.afterAdds thr id rs).rrsAt v := by rw [hd]; exact mem_recordsAt.mpr ⟨hs, rfl⟩
      have hlt : v < (Zone.afterAdds thr id rs).g.verts.length := by rw [← hrep.inv.len]; exact (List.getElem?_eq_some_iff.mp hv).1
      refine List.mem_flatMap.mpr ⟨(Zone.afterAdds thr id rs).g.verts[v], List.getElem_mem hlt, ?_⟩
      unfold Zone.rrsAt Trie.vtx at hs'
      rw [List.getD_eq_getElem?_getD, List.getElem?_eq_getElem hlt] at hs'
      exact hs'
  · show (Zone.afterAdds thr id rs).origin = soaOwner (w.log id)
    rw [hlog, hrep.origin]

/-- **C20** Whatever the files: if the SOA records of a loaded zone have one owner, every record of the zone is at or below that owner. -/
theorem C20_loaded (thr : Nat) (lint : Bool) (read : Str → Str) (exists_ : Str → Bool) (m : Driver.Meta) (d : Loaded)
    (h : setContext thr lint read exists_ m = .ok d) (p : Nat × Zone) (hp : p ∈ d.ctx.zones) (apex : Name)
    (hone : ∀ s ∈ heldBy p.2, s.type = .SOA → s.name = apex) (r : RR) (hr : r ∈ heldBy p.2) :
    AtOrBelow apex r.name ∧ ∃ s ∈ heldBy p.2, s.type = .SOA ∧ s.name = apex := by
  obtain ⟨w, xs, h1, -, -, hc, -⟩ := C64_loaded thr lint read exists_ m d h
  obtain ⟨e1, -⟩ := log_of_held h1 hc.increasing hp
  have hr' := (e1 r).mp hr
  obtain ⟨rs, a1, a2, a3⟩ := hc.log hr'
  obtain ⟨s, rest, b1, b2, b3⟩ := C20_first_soa rs (hc.order _ a1) (List.ne_nil_of_mem a2)
  have hs : s ∈ heldBy p.2 := (e1 s).mpr (by rw [a3, b1]; exact List.mem_cons_self)
  exact ⟨hone s hs b2 ▸ b3 r a2, s, hs, b2, hone s hs b2⟩

example : ∃ d, setContext 500 true twoContents (fun _ => true) twoFiles = .ok d ∧
    ∃ p ∈ d.ctx.zones, (∀ s ∈ heldBy p.2, s.type = .SOA → s.name = ["com".toList]) ∧ (heldBy p.2).length = 4 := by
  have h : ∀ r : Res Loaded, (match r with
      | .ok d => decide (∃ p ∈ d.ctx.zones, (∀ s ∈ heldBy p.2, s.type = .SOA → s.name = ["com".toList]) ∧ (heldBy p.2).length = 4)
      | _ => false) = true → ∃ d, r = .ok d ∧ ∃ p ∈ d.ctx.zones, (∀ s ∈ heldBy p.2, s.type = .SOA → s.name = ["com".toList]) ∧ (heldBy p.2).length = 4 := by
    intro r hr
    cases r with
    | ok d => exact ⟨d, rfl, of_decide_eq_true hr⟩
    | _ => cases hr
  exact h _ (by decide +kernel)

end Groot
