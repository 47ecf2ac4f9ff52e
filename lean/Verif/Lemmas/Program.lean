import Verif.Spec.Program
import Verif.Props.File
import Verif.Props.InZone
import Verif.Props.Watched
import Verif.Props.Delegation
import Verif.Props.Final
import Verif.Props.Main
import Verif.Props.Json
import Verif.Props.Verdict

/-!
# Lemmas for C86
-/

namespace Groot

open Spec

/-! ### The zones of each server -/

theorem nodup_eraseDups (l : List Str) : l.eraseDups.Nodup := by
  match l with
  | [] => simp
  | a :: l =>
    rw [List.eraseDups_cons, List.nodup_cons]
    have : (l.filter (fun b => !b == a)).length < l.length + 1 := Nat.lt_succ_of_le (List.length_filter_le _ _)
    refine ⟨?_, nodup_eraseDups _⟩
    rw [List.mem_eraseDups]
    simp
termination_by l.length

theorem pushZone_new (s : Str) (k : Nat) (f : Str → List Nat) (l : List Str) (h : s ∉ l) :
    pushZone s k (l.map (fun a => (a, f a))) = l.map (fun a => (a, f a)) ++ [(s, [k])] := by
  induction l with
  | nil => rfl
  | cons a l ih =>
    rw [List.mem_cons, not_or] at h
    rw [List.map_cons]
    unfold pushZone
    rw [if_neg (fun e => h.1 e.symm), ih h.2]; rfl

theorem pushZone_old (s : Str) (k : Nat) (f : Str → List Nat) (l : List Str) (h : s ∈ l) (hn : l.Nodup) :
    pushZone s k (l.map (fun a => (a, f a))) = l.map (fun a => (a, if a = s then f a ++ [k] else f a)) := by
  induction l with
  | nil => cases h
  | cons a l ih =>
    rw [List.nodup_cons] at hn
    rw [List.map_cons, List.map_cons]
    unfold pushZone
    by_cases e : a = s
    · rw [if_pos e, if_pos e]
      subst e
      congr 1
      refine List.map_congr_left (fun b hb => ?_)
      rw [if_neg (fun (e : b = a) => hn.1 (e ▸ hb))]
    · rw [if_neg e, if_neg e, ih ((List.mem_cons.mp h).resolve_left (fun e' => e e'.symm)) hn.2]

theorem servedBy_push (sites : List (Nat × Str × List RR)) (k : Nat) (s : Str) (rs : List RR) :
    servedBy (sites ++ [(k, s, rs)]) = pushZone s k (servedBy sites) := by
  unfold servedBy
  rw [List.map_append, List.eraseDups_append]
  by_cases h : s ∈ sites.map (·.2.1)
  · rw [pushZone_old s k _ _ (List.mem_eraseDups.mpr h) (nodup_eraseDups _)]
    have : ([(k, s, rs)].map (·.2.1)).removeAll (sites.map (·.2.1)) = [] := by
      unfold List.removeAll
      simpa using h
    rw [this, List.eraseDups_nil, List.append_nil]
    refine List.map_congr_left (fun a _ => ?_)
    rw [List.filter_append, List.map_append]
    by_cases e : a = s
    · rw [if_pos e]; simp [e]
    · rw [if_neg e]
      have : s ≠ a := fun e' => e e'.symm
      simp [this]
  · rw [pushZone_new s k _ _ (fun h' => h (List.mem_eraseDups.mp h'))]
    have : ([(k, s, rs)].map (·.2.1)).removeAll (sites.map (·.2.1)) = [s] := by
      unfold List.removeAll
      simpa using h
    rw [this, List.map_append]
    have e1 : [s].eraseDups = [s] := by simp [List.eraseDups_cons]
    rw [e1, List.map_singleton]
    have e2 : sites.filter (fun x => decide (x.2.1 = s)) = [] := by
      rw [List.filter_eq_nil_iff]
      intro x hx hc
      exact h (List.mem_map.mpr ⟨x, hx, by simpa using hc⟩)
    congr 1
    · refine List.map_congr_left (fun a ha => ?_)
      have : s ≠ a := fun e => h (e ▸ List.mem_eraseDups.mp ha)
      simp [List.filter_append, this]
    · simp [List.filter_append, e2]

/-! ### Loading the files -/

theorem stored_eq_of_exclusive (l : List RR) (h : Exclusive l) : stored l = l := by
  induction l using List.reverseRecOn with
  | nil => rfl
  | append_singleton l r ih =>
    unfold Exclusive at h
    rw [List.pairwise_append] at h
    obtain ⟨h1, -, h3⟩ := h
    rw [stored_append, ih h1, if_pos]
    have h3 : ∀ x ∈ l, x.name = r.name → _ := fun x hx => h3 x hx r (List.mem_singleton_self r)
    refine ⟨?_, ?_, ?_, ?_⟩
    · rintro ⟨x, hx, e, e1, e2, e3⟩; exact (h3 x hx e).2.2.2 ⟨e1, e2, e3⟩
    · rintro ⟨x, hx, e, e1⟩; exact (h3 x hx e).1 e1
    · rintro ⟨e1, x, hx, e⟩; exact (h3 x hx e).2.1 e1
    · rintro ⟨e1, x, hx, e, e2⟩; exact (h3 x hx e).2.2.1 ⟨e2, e1⟩

theorem stored_stored (rs : List RR) : stored (stored rs) = stored rs := stored_eq_of_exclusive _ (exclusive_stored rs)

/-- An entry of the metadata as it is read from the file. -/
def Spec.Listing.entry (z : Listing) : Driver.UZone := { fileName := some z.1, nameServer := some z.2.1, origin := z.2.2 }

theorem load_files (thr : Nat) (lint : Bool) (read : Str → Str) (zs : List Listing) (ess : List (List (Entry × Nat)))
    (h : List.Forall₂ (fun z es => GoodFile (read z.1) (toLower (z.2.2.getD [])) es) zs ess) :
    ∀ (d0 : Loaded) (sites : List (Nat × Str × List RR)) (xs : List (RR × Nat × Nat)) (zones : List (Nat × List RR)),
      d0.ctx.nsZones = servedBy sites → d0.ctx.zones = zones.map (fun p => (p.1, Zone.afterAdds thr p.1 p.2)) →
      List.Forall₂ (fun p q => p.1 = q.1 ∧ stored p.2 = stored q.2) zones (sites.map (fun x => (x.1, x.2.2))) →
      d0.lg = labelGraph thr xs →
      ∃ (d : Loaded) (xs' : List (RR × Nat × Nat)) (zones' : List (Nat × List RR)), (zs.map Listing.entry).foldlM (fun d z => loadZone thr lint d (z.fileName.getD []) (read (z.fileName.getD []))
          (toLower (z.nameServer.getD [])) (toLower (z.origin.getD []))) d0 = .ok d ∧
        d.ctx.nsZones = servedBy (sites ++ sitesFrom (d0.ctx.counter + 1) zs ess) ∧ d.ctx.top = d0.ctx.top ∧
        d.ctx.zones = zones'.map (fun p => (p.1, Zone.afterAdds thr p.1 p.2)) ∧
        List.Forall₂ (fun p q => p.1 = q.1 ∧ stored p.2 = stored q.2) zones'
          ((sites ++ sitesFrom (d0.ctx.counter + 1) zs ess).map (fun x => (x.1, x.2.2))) ∧
        d.lg = labelGraph thr (xs ++ xs') ∧ xs'.map (·.1) = allRecords zs ess := by
  induction h with
  | nil =>
    intro d0 sites xs zones h1 h2 h3 h4
    refine ⟨d0, [], zones, rfl, ?_, rfl, h2, ?_, ?_, rfl⟩
    · rw [h1]; simp [sitesFrom]
    · simpa [sitesFrom] using h3
    · simpa using h4
  | @cons z es zs ess hz _ ih =>
    intro d0 sites xs zones h1 h2 h3 h4
    obtain ⟨d1, rs, ys, e1, e2, e3, -, e5, e6, -, -⟩ := C80_file thr lint d0 z.1 (read z.1) (toLower z.2.1) (toLower (z.2.2.getD [])) es hz
    have hc : d1.ctx.counter = d0.ctx.counter + 1 := by rw [e6]; split <;> rfl
    have ht : d1.ctx.top = d0.ctx.top := by rw [e6]; split <;> rfl
    have hlg : d1.lg = labelGraph thr (xs ++ ys) := by
      rw [e5, h4]; unfold labelGraph; rw [List.foldl_append]
    have hidem : stored (z.records es) = z.records es := by
      unfold Listing.records; rw [← e2, stored_stored]
    have key : ∃ zones1 : List (Nat × List RR), d1.ctx.nsZones = servedBy (sites ++ (if HasSOA es then [(d0.ctx.counter + 1, toLower z.2.1, z.records es)] else [])) ∧
        d1.ctx.zones = zones1.map (fun p => (p.1, Zone.afterAdds thr p.1 p.2)) ∧
        List.Forall₂ (fun p q => p.1 = q.1 ∧ stored p.2 = stored q.2) zones1
          ((sites ++ (if HasSOA es then [(d0.ctx.counter + 1, toLower z.2.1, z.records es)] else [])).map (fun x => (x.1, x.2.2))) := by
      by_cases hs : HasSOA es
      · rw [if_pos hs] at e6 ⊢
        refine ⟨zones ++ [(d0.ctx.counter + 1, rs)], ?_, ?_, ?_⟩
        · rw [servedBy_push, e6]
          show pushZone _ _ d0.ctx.nsZones = _
          rw [h1]
        · rw [e6]
          show d0.ctx.zones ++ _ = _
          rw [h2, List.map_append]; rfl
        · rw [List.map_append]
          refine List.rel_append h3 (.cons ⟨rfl, ?_⟩ .nil)
          rw [hidem]; exact e2
      · rw [if_neg hs] at e6 ⊢
        rw [List.append_nil]
        exact ⟨zones, by rw [e6]; exact h1, by rw [e6]; exact h2, h3⟩
    obtain ⟨zones1, k1, k2, k3⟩ := key
    obtain ⟨d, xs', zones', f1, f2, f3, f4, f5, f6, f7⟩ := ih d1 _ (xs ++ ys) zones1 k1 k2 k3 hlg
    rw [hc, List.append_assoc] at f2 f5
    refine ⟨d, ys ++ xs', zones', ?_, f2, f3.trans ht, f4, f5, by rw [f6, List.append_assoc], ?_⟩
    · rw [List.map_cons, List.foldlM_cons]
      show (loadZone thr lint d0 z.1 (read z.1) (toLower z.2.1) (toLower (z.2.2.getD [])) >>= _) = _
      rw [e1, Res.ok_bind]; exact f1
    · rw [List.map_append, e3, f7]; rfl

/-- The context made of the files is what the files say. -/
theorem load_world (thr : Nat) (lint : Bool) {read : Str → Str} {exists_ : Str → Bool} {m : Driver.Meta} {tops : List Str} {zs : List Listing}
    {ess : List (List (Entry × Nat))} (h : Loadable read exists_ m tops zs ess) :
    ∃ d xs, setContext thr lint read exists_ m = .ok d ∧ Represents d.ctx (worldOf tops zs ess) ∧ d.lg = labelGraph thr xs ∧
      xs.map (·.1) = allRecords zs ess := by
  have hs : Driver.sanityCheck exists_ m = .ok () := (C58_sanity exists_ m).1.mpr ⟨tops, zs, h.good⟩
  obtain ⟨d, xs, zones, f1, f2, f3, f4, f5, f6, f7⟩ := load_files thr lint read zs ess h.files
    { ctx := { top := tops.map toLower } } [] [] [] rfl rfl .nil rfl
  refine ⟨d, xs, ?_, ⟨?_, f3, thr, zones, f4, ?_⟩, by simpa using f6, f7⟩
  · unfold setContext
    rw [hs, Res.ok_bind, h.good.top, h.good.entries]
    exact f1
  · rw [List.nil_append] at f2; exact f2
  · rw [List.nil_append] at f5; exact f5

theorem mem_sitesFrom {k : Nat} {zs : List Listing} {ess : List (List (Entry × Nat))} {x : Nat × Str × List RR} (h : x ∈ sitesFrom k zs ess) :
    k ≤ x.1 ∧ x.2.2 ⊆ allRecords zs ess := by
  induction zs generalizing k ess with
  | nil => simp [sitesFrom] at h
  | cons z zs ih =>
    cases ess with
    | nil => simp [sitesFrom] at h
    | cons es ess =>
      unfold sitesFrom at h
      have hsub : z.records es ⊆ allRecords (z :: zs) (es :: ess) := by
        unfold allRecords; rw [List.zipWith_cons_cons, List.flatten_cons]; exact List.subset_append_left _ _
      rcases List.mem_append.mp h with h | h
      · split at h
        · rw [List.mem_singleton.mp h]; exact ⟨Nat.le_refl _, hsub⟩
        · cases h
      · obtain ⟨h1, h2⟩ := ih h
        refine ⟨by omega, List.Subset.trans h2 ?_⟩
        unfold allRecords; rw [List.zipWith_cons_cons, List.flatten_cons]; exact List.subset_append_right _ _

theorem sitesFrom_increasing (k : Nat) (zs : List Listing) (ess : List (List (Entry × Nat))) :
    ((sitesFrom k zs ess).map (·.1)).Pairwise (· < ·) := by
  induction zs generalizing k ess with
  | nil => simp [sitesFrom]
  | cons z zs ih =>
    cases ess with
    | nil => simp [sitesFrom]
    | cons es ess =>
      unfold sitesFrom
      rw [List.map_append, List.pairwise_append]
      refine ⟨by split <;> simp, ih _ _, ?_⟩
      intro a ha b hb
      obtain ⟨x, hx, rfl⟩ := List.mem_map.mp hb
      have := (mem_sitesFrom hx).1
      split at ha
      · rw [List.map_singleton, List.mem_singleton] at ha; omega
      · cases ha

theorem worldOf_increasing (tops : List Str) (zs : List Listing) (ess : List (List (Entry × Nat))) :
    ((worldOf tops zs ess).zones.map (·.1)).Pairwise (· < ·) := by
  show (((sitesFrom 1 zs ess).map (fun x => (x.1, x.2.2))).map (·.1)).Pairwise (· < ·)
  rw [List.map_map]
  exact sitesFrom_increasing 1 zs ess

theorem worldOf_log {tops : List Str} {zs : List Listing} {ess : List (List (Entry × Nat))} {id : Nat} {r : RR}
    (h : r ∈ (worldOf tops zs ess).log id) : r ∈ allRecords zs ess := by
  unfold World.log at h
  cases hl : (worldOf tops zs ess).zones.lookup id with
  | none => rw [hl] at h; simp [stored] at h
  | some rs =>
    rw [hl] at h
    obtain ⟨x, hx, e⟩ := List.mem_map.mp (mem_of_lookup hl)
    injection e with e1 e2
    exact (mem_sitesFrom hx).2 (by rw [e2]; exact stored_subset rs r h)

theorem allRecords_kept {zs : List Listing} {ess : List (List (Entry × Nat))} {r : RR} (h : r ∈ allRecords zs ess) :
    ∃ (i : Nat) (z : Listing) (es : List (Entry × Nat)), zs[i]? = some z ∧ ess[i]? = some es ∧ r ∈ z.records es := by
  induction zs generalizing ess with
  | nil => simp [allRecords] at h
  | cons z zs ih =>
    cases ess with
    | nil => simp [allRecords] at h
    | cons es ess =>
      unfold allRecords at h
      rw [List.zipWith_cons_cons, List.flatten_cons] at h
      rcases List.mem_append.mp h with h | h
      · exact ⟨0, z, es, rfl, rfl, h⟩
      · obtain ⟨i, z', es', h1, h2, h3⟩ := ih h
        exact ⟨i + 1, z', es', h1, h2, h3⟩

theorem keepFrom_mem (log rs : List RR) {r : RR} (h : r ∈ keepFrom log rs) : r ∈ log ∨ r ∈ rs ∧ ∃ l, refusal l r = none := by
  induction rs generalizing log with
  | nil => exact .inl h
  | cons a rs ih =>
    unfold keepFrom at h
    rw [List.foldl_cons] at h
    rcases ih _ h with h | ⟨h, h'⟩
    · split at h
      · rename_i hr
        rcases List.mem_append.mp h with h | h
        · exact .inl h
        · rw [List.mem_singleton.mp h]; exact .inr ⟨List.mem_cons_self, log, hr⟩
      · exact .inl h
    · exact .inr ⟨List.mem_cons_of_mem _ h, h'⟩

theorem kept_mem {offered : List (Nat × RR)} {r : RR} (h : r ∈ kept offered) : (∃ x ∈ offered, x.2 = r) ∧ Short r.name ∧
    (Pointing r → Short (stringToLabels r.rdata)) := by
  rcases keepFrom_mem [] _ h with h | ⟨h, l, hr⟩
  · cases h
  · refine ⟨by simpa using h, ?_⟩
    unfold refusal at hr
    by_cases h1 : Short r.name
    · rw [if_neg (by simpa using h1)] at hr
      refine ⟨h1, fun hp => ?_⟩
      by_contra hc
      rw [if_pos ⟨hp, hc⟩] at hr
      cases hr
    · rw [if_pos h1] at hr; cases hr

/-- What the files give, DNAMEs or not. -/
theorem load_parts (thr : Nat) (lint : Bool) {read : Str → Str} {exists_ : Str → Bool} {m : Driver.Meta} {tops : List Str} {zs : List Listing}
    {ess : List (List (Entry × Nat))} (h : Loadable read exists_ m tops zs ess) :
    ∃ d xs, setContext thr lint read exists_ m = .ok d ∧ d.lg = labelGraph thr xs ∧ xs.map (·.1) = allRecords zs ess ∧
      Represents d.ctx (worldOf tops zs ess) ∧ WellFormed (worldOf tops zs ess) ∧
      (∀ id, ∀ r ∈ (worldOf tops zs ess).log id, r ∈ xs.map (·.1)) ∧
      (∀ r ∈ allRecords zs ess, Short r.name ∧ r.type ≠ .N ∧ (Pointing r → Short (stringToLabels r.rdata))) ∧
      ∀ u job, JobMeans {} u job → Short (stringToLabels (toLower u.domain)) → Testable u →
        Short (stringToLabels job.domain) ∧ AsksOther job.types ∧ (∀ f ∈ job.pathFns, f.Configured) ∧
          ∀ f ∈ job.nodeFns, f.Configured (worldOf tops zs ess) := by
  obtain ⟨d, xs, h1, h2, h3, h4⟩ := load_world thr lint h
  have htop : (worldOf tops zs ess).top ≠ [] := by
    obtain ⟨t, ht, _⟩ := h.good.hosted
    show tops.map toLower ≠ []
    intro e
    rw [List.map_eq_nil_iff.mp e] at ht; cases ht
  have hkept : ∀ r ∈ allRecords zs ess, Short r.name ∧ r.type ≠ .N ∧ (Pointing r → Short (stringToLabels r.rdata)) := by
    intro r hr
    obtain ⟨i, z, es, e1, e2, e3⟩ := allRecords_kept hr
    obtain ⟨⟨x, hx, rfl⟩, e4, e5⟩ := kept_mem e3
    refine ⟨e4, ?_, e5⟩
    have := (List.forall₂_iff_get.mp h.files).2
    obtain ⟨i1, e1⟩ := List.getElem?_eq_some_iff.mp e1
    obtain ⟨i2, e2⟩ := List.getElem?_eq_some_iff.mp e2
    have := this i i1 i2
    simp only [List.get_eq_getElem] at this
    rw [e1, e2] at this
    exact this.supported x hx
  have hwf : WellFormed (worldOf tops zs ess) := by
    obtain ⟨w, ys, g1, -, -, g4, -⟩ := C64_loaded thr lint read exists_ m d h1
    refine ⟨?_, fun id r hr => (hkept r (worldOf_log hr)).2.1, ?_, ?_⟩
    · intro s id hid
      unfold World.hosted at hid
      cases hl : (worldOf tops zs ess).nsZones.lookup s with
      | none => rw [hl] at hid; cases hid
      | some ids =>
        rw [hl] at hid
        obtain ⟨t, -, e⟩ := List.mem_map.mp (mem_of_lookup hl)
        injection e with e1 e2
        subst e2
        obtain ⟨x, hx, rfl⟩ := List.mem_map.mp hid
        have hx := (List.mem_filter.mp hx).1
        have : (x.1, x.2.2) ∈ (worldOf tops zs ess).zones := List.mem_map.mpr ⟨x, hx, rfl⟩
        rw [lookup_of_mem (worldOf_increasing tops zs ess) this]
        simp
    · intro s hs
      obtain ⟨t, ht, rfl⟩ := List.mem_map.mp hs
      have := h.top t ht
      unfold toLower
      rwa [Ne, List.map_eq_nil_iff]
    · intro id r hr ht
      refine ⟨?_, (hkept r (worldOf_log hr)).2.2 (.inl ht)⟩
      obtain ⟨p, hp, -, hr⟩ := held_of_log h2 hr
      have hr := ((log_of_held g1 g4.increasing hp).1 r).mp hr
      obtain ⟨rs, a1, a2, -⟩ := g4.log hr
      exact (g4.fit _ a1 r (stored_subset rs r a2)).ns ht
  refine ⟨d, xs, h1, h3, h4, h2, hwf, fun id r hr => by rw [h4]; exact worldOf_log hr, hkept, fun u job hm hdom ht => ?_⟩
  obtain ⟨hp, hno⟩ := configured_of_setJob ((C57_job _ _ _).mpr hm) ht.numbered (worldOf tops zs ess) htop
  refine ⟨by rw [hm.domain]; exact hdom, ?_, hp, hno⟩
  obtain ⟨p, hp, hor⟩ := ht.types
  rcases hor with e | ⟨l, e, s, hs, t, hnm, hne⟩
  · exact ⟨.NS, by decide, (hm.types _).mpr (.inr ⟨rfl, p, hp, e⟩)⟩
  · exact ⟨t, hne, (hm.types _).mpr (.inl ⟨p, hp, l, e, s, hs, hnm⟩)⟩

/-- The setting of a run, from the files. -/
theorem load_setting (thr : Nat) (lint : Bool) {read : Str → Str} {exists_ : Str → Bool} {m : Driver.Meta} {tops : List Str} {zs : List Listing}
    {ess : List (List (Entry × Nat))} (h : Loadable read exists_ m tops zs ess) (hn : NoDname (allRecords zs ess)) :
    ∃ d xs, setContext thr lint read exists_ m = .ok d ∧ d.lg = labelGraph thr xs ∧ xs.map (·.1) = allRecords zs ess ∧
      ∀ u job, JobMeans {} u job → Short (stringToLabels (toLower u.domain)) → Testable u → ∀ b,
        Setting d.ctx (worldOf tops zs ess) xs { job with structural := b } := by
  obtain ⟨d, xs, h1, h2, h3, h4, h5, h6, h7, h8⟩ := load_parts thr lint h
  refine ⟨d, xs, h1, h2, h3, fun u job hm hdom ht b => ?_⟩
  obtain ⟨g1, g2, g3, g4⟩ := h8 u job hm hdom ht
  refine ⟨h4, h5, h6, ?_, ?_, g1, g2, g3, g4⟩
  · intro x hx
    exact (hn _ (by rw [← h3]; exact List.mem_map_of_mem hx)).1
  · rw [h3]
    rintro n (rfl | ⟨r, hr, _, hk⟩) l hl
    · cases hl
    · rcases hk with ⟨rest, e⟩ | ⟨ht, _⟩
      · have hl' : l ∈ r.name := by rw [e]; exact List.mem_append_left _ hl
        exact ⟨fun e => (hn r hr).2 (e ▸ hl'), (h7 r hr).1.1 l hl'⟩
      · exact absurd ht (hn r hr).1

end Groot
