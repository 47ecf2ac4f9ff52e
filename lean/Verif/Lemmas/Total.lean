import Verif.Lemmas.Verdict5
import Verif.Props.Structural
import Verif.Props.Loader
import Verif.Props.Driver

/-! # A whole run ends -/

namespace Groot
open Spec

theorem concatM_total {α β : Type} {f : Nat → α → Res (List β)} : ∀ {l : List α},
    (∀ x ∈ l, ∃ N, ∀ fuel, N ≤ fuel → ∃ r, f fuel x = .ok r) → ∃ N, ∀ fuel, N ≤ fuel → ∃ r, concatM (f fuel) l = .ok r := by
  intro l
  induction l with
  | nil => intro _; exact ⟨0, fun _ _ => ⟨[], rfl⟩⟩
  | cons x l ih =>
    intro h
    obtain ⟨N1, h1⟩ := h x List.mem_cons_self
    obtain ⟨N2, h2⟩ := ih (fun y hy => h y (List.mem_cons_of_mem _ hy))
    refine ⟨max N1 N2, fun fuel hf => ?_⟩
    obtain ⟨a, ha⟩ := h1 fuel (by omega)
    obtain ⟨b, hb⟩ := h2 fuel (by omega)
    exact ⟨a ++ b, by simp only [concatM, ha, hb, Res.ok_bind]⟩

/-- The tasks of any job: classes asking for the types of the job or for all types, and structural checks at nodes. -/
theorem tasks_shape (thr' : Nat) (xs : List (RR × Nat × Nat)) (hreg : Regular (xs.map (·.1))) (job : LGraph.Req) {fuel : Nat} {g' : LGraph} {ts : List Task}
    (hts : LGraph.generateECs fuel (labelGraph thr' xs) job = .ok (g', ts)) : ∀ t ∈ ts,
    (∃ q, t = .ec q ∧ (q.types = job.types ∨ q.types = ~~~0)) ∨
    (job.structural = true ∧ ∃ n v s, t = .structural v s ∧ Known (xs.map (·.1)) n ∧ nodeOf (labelGraph thr' xs) n = some v) := by
  obtain ⟨N, ts', h1, h2, h3⟩ := C29_single thr' xs job
  have hEq : ts' = ts := by
    have := mono_agree (f := fun n => LGraph.generateECs n (labelGraph thr' xs) job) (fun n r => generateECs_mono n _ _ r) (h1 N (Nat.le_refl _)) hts
    simp at this; exact this.2
  subst hEq
  intro t ht
  by_cases hs : Short (stringToLabels job.domain)
  · obtain ⟨m, ⟨k, hk⟩, -, h5, h6⟩ := h3 hs
    by_cases hm : m = (stringToLabels job.domain).length
    · cases hsub : job.subdomains with
      | false =>
        rw [h5 hm hsub, List.mem_singleton] at ht
        exact .inl ⟨_, ht, .inl rfl⟩
      | true =>
        obtain ⟨names, h⟩ := labelGraph_rep thr' xs
        obtain ⟨ts2, h7, h8⟩ := h.generate_full hreg job (Nat.le_refl _) ((lengthCheck_iff _).mpr hs) hsub ⟨k, hm ▸ hk⟩
        have : ts2 = ts' := by
          have := mono_agree (f := fun n => LGraph.generateECs n (labelGraph thr' xs) job) (fun n r => generateECs_mono n _ _ r) h7 hts
          simp at this; exact this.2
        subst this
        obtain ⟨k2, -, ⟨n, k3, b, -, -, ⟨-, rfl⟩ | rfl⟩ | ⟨hst, rest, w, hkn, -, hn, rfl⟩⟩ := (h8 t).mp ht
        · exact .inl ⟨_, rfl, .inl rfl⟩
        · exact .inl ⟨_, rfl, belowClass_types _ _ _⟩
        · exact .inr ⟨hst, _, _, _, rfl, hkn, hn⟩
    · rw [h6 hm, List.mem_singleton] at ht
      exact .inl ⟨_, ht, .inl rfl⟩
  · rw [h2 hs] at ht; cases ht

theorem run_total {ctx : Context} {w : World} {xs : List (RR × Nat × Nat)} {job : Job} (hr : Represents ctx w) (hw : WellFormed w)
    (hreg : Regular (xs.map (·.1))) (hlab : ∀ n, Known (xs.map (·.1)) n → ∀ l ∈ n, l.length ≤ 63)
    (ht : job.types ≠ 0) (hpf : ∀ f ∈ job.pathFns, f.Configured) (hnf : ∀ f ∈ job.nodeFns, f.Configured w)
    (hst : job.structural = true → Registered ctx w xs ∧ ∀ n, InZones w n (zonesWith xs n)) (thr thr' : Nat) :
    ∃ N, ∀ fuel, N ≤ fuel → ∃ r, Driver.runSequential fuel thr ctx (labelGraph thr' xs) job = .ok r := by
  obtain ⟨N1, ts, h1⟩ := C22_generation_never_aborts thr' xs (Driver.req job)
  have hleg := C25_legal thr' xs hlab (Driver.req job) N1 _ ts (h1 N1 (Nat.le_refl _))
  have hshape := tasks_shape thr' xs hreg (Driver.req job) (h1 N1 (Nat.le_refl _))
  obtain ⟨N2, h2⟩ : ∃ N, ∀ fuel, N ≤ fuel → ∃ r, concatM (Driver.process fuel thr ctx (labelGraph thr' xs) job) ts = .ok r := by
    apply concatM_total (f := fun fuel => Driver.process fuel thr ctx (labelGraph thr' xs) job)
    intro t htm
    rcases hshape t htm with ⟨q, rfl, hq⟩ | ⟨hs, n, v, d, rfl, hk, hn⟩
    · have hne : q.types ≠ 0 := by
        rcases hq with e | e <;> rw [e]
        · exact ht
        · exact other_ne all_other
      obtain ⟨N, h⟩ := C38_processing_total ctx w hr hw thr job.pathFns job.nodeFns hpf hnf q (hleg q ((mem_classes q ts).mpr htm)).1 hne
      refine ⟨N, fun fuel hf => ?_⟩
      obtain ⟨r, e⟩ := h fuel hf
      exact ⟨r.1, by simp only [Driver.process, e, Res.ok_bind]⟩
    · obtain ⟨hx, hz⟩ := hst hs
      exact ⟨0, fun fuel _ => ⟨_, C53_structural ctx w hr xs hx thr thr' n v hn d (hz n)⟩⟩
  refine ⟨max N1 N2, fun fuel hf => ?_⟩
  obtain ⟨r, e⟩ := h2 fuel (by omega)
  exact ⟨(labelGraph thr' xs, ts, r), by simp only [Driver.runSequential, h1 fuel (by omega), e, Res.ok_bind]⟩

/-- A job read from a job file is configured. -/
theorem configured_of_setJob {prev job : Job} {u : UJob} (h : Driver.setJob prev u = .ok job) (hnum : Numbered u) (w : World) (hw : w.top ≠ []) :
    (∀ f ∈ job.pathFns, f.Configured) ∧ ∀ f ∈ job.nodeFns, f.Configured w := by
  obtain ⟨ws, h1, h2, h3⟩ := ((C57_job prev u job).mp h).checks
  have key : ∀ x ∈ ws, (∀ f, x = .path f → f.Configured) ∧ ∀ f, x = .node f → f.Configured w := by
    intro x hx
    obtain ⟨p, hp, ha⟩ := forall₂_mem h1 hx
    constructor
    · rintro f rfl
      cases ha with
      | queryRewrite l _ _ hl => exact fun e => hl (List.map_eq_nil_iff.mp e)
      | nsContact l _ _ hl => exact fun e => hl (List.map_eq_nil_iff.mp e)
      | misfit b hname hv =>
        obtain ⟨n, hn⟩ := hnum p hp hname
        rcases hv with ⟨-, hv⟩ | ⟨-, hv | ⟨l, hv⟩⟩ <;> rw [hn] at hv <;> cases hv
      | _ => trivial
    · rintro f rfl
      cases ha with
      | value ts l vs _ _ _ _ hs _ => exact ⟨hs, hw⟩
      | _ => trivial
  constructor
  · intro f hf
    rw [h2] at hf
    obtain ⟨x, hx, e⟩ := List.mem_filterMap.mp hf
    cases x <;> simp only [Wanted.path?, reduceCtorEq, Option.some.injEq] at e
    subst e
    exact (key _ hx).1 _ rfl
  · intro f hf
    rw [h3] at hf
    obtain ⟨x, hx, e⟩ := List.mem_filterMap.mp hf
    cases x <;> simp only [Wanted.node?, reduceCtorEq, Option.some.injEq] at e
    subst e
    exact (key _ hx).2 _ rfl

/-- What a zone is known to hold can be read off the loaded zone. -/
theorem held_of_log {ctx : Context} {w : World} (h : Represents ctx w) {id : Nat} {r : RR} (hr : r ∈ w.log id) :
    ∃ p ∈ ctx.zones, (∀ s ∈ w.log id, s ∈ heldBy p.2) ∧ r ∈ heldBy p.2 := by
  obtain ⟨-, -, thr, zones, hz, hall⟩ := h
  have key : ∃ p ∈ ctx.zones, ∀ s ∈ w.log id, s ∈ heldBy p.2 := by
    have hlog : w.log id = stored ((zones.lookup id).getD []) := by
      have := lookup_alike hall id
      unfold World.log
      cases h1 : w.zones.lookup id <;> cases h2 : zones.lookup id <;> rw [h1, h2] at this <;> simp_all
    rw [hlog] at hr ⊢
    cases hl : zones.lookup id with
    | none => rw [hl] at hr; simp [stored] at hr
    | some rs =>
      refine ⟨(id, Zone.afterAdds thr id rs), by rw [hz]; exact List.mem_map.mpr ⟨(id, rs), mem_of_lookup hl, rfl⟩, fun s hs => ?_⟩
      obtain ⟨names, hrep⟩ := Zone.rep_afterAdds thr id rs
      have hn : s.name ∈ names := (hrep.mem _).mpr (.inr ⟨s, hs, [], by simp⟩)
      obtain ⟨v, hv⟩ := List.mem_iff_getElem?.mp hn
      have hd := hrep.data v _ hv
      have hs' : s ∈ (Zone.afterAdds thr id rs).rrsAt v := by rw [hd]; exact mem_recordsAt.mpr ⟨hs, rfl⟩
      have hlt : v < (Zone.afterAdds thr id rs).g.verts.length := by rw [← hrep.inv.len]; exact (List.getElem?_eq_some_iff.mp hv).1
      refine List.mem_flatMap.mpr ⟨(Zone.afterAdds thr id rs).g.verts[v], List.getElem_mem hlt, ?_⟩
      unfold Zone.rrsAt Trie.vtx at hs'
      rw [List.getD_eq_getElem?_getD, List.getElem?_eq_getElem hlt] at hs'
      exact hs'
  obtain ⟨p, hp, h⟩ := key
  exact ⟨p, hp, h, h r hr⟩

end Groot
