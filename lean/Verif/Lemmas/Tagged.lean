import Verif.Spec.StructuralRun
import Verif.Lemmas.Program
import Verif.Lemmas.Structural

/-!
# Loading files that are all zones: what the label graph knows about where the records are
-/

namespace Groot

open Spec Driver

/-- A good file, loaded: as `C80_file`, and the vertices in the entries are those of the zone. -/
theorem file_tagged (thr : Nat) (lint : Bool) (d : Loaded) (file contents ns origin : Str) (es : List (Entry × Nat)) (h : GoodFile contents origin es)
    (hs : HasSOA es) :
    ∃ (d' : Loaded) (rs : List RR) (xs : List (RR × Nat × Nat)), loadZone thr lint d file contents ns origin = .ok d' ∧
      xs.map (·.1) = kept (offeredBy origin es) ∧ (∀ x ∈ xs, x.2.1 = d.ctx.counter + 1) ∧
      d'.lg = xs.foldl (fun g x => LGraph.addRecord thr g x.1 x.2.1 x.2.2) d.lg ∧
      d'.ctx = { d.ctx with counter := d.ctx.counter + 1
                            zones := d.ctx.zones ++ [(d.ctx.counter + 1, Zone.afterAdds thr (d.ctx.counter + 1) rs)]
                            nsZones := pushZone ns (d.ctx.counter + 1) d.ctx.nsZones
                            zoneNs := d.ctx.zoneNs ++ [(d.ctx.counter + 1, ns)] } ∧
      ∀ x ∈ xs, ∀ t, (Zone.afterAdds thr (d.ctx.counter + 1) rs).ancestor t x.1.name = (x.2.2, x.1.name.length) := by
  obtain ⟨-, h2⟩ := run_entries (thr := thr) (lint := lint) (lg0 := d.lg) (id := d.ctx.counter + 1) h.read h.standard h.supported
  obtain ⟨st, rs, xs, e1, e2, e3, e4, e5, e6⟩ := h2 h.noOrphan
  unfold loadZone
  dsimp only
  rw [e1, Res.ok_bind]
  refine ⟨_, rs, xs, rfl, ?_, e2.ids, e2.lg, ?_, ?_⟩
  · rw [e2.entries, e3]; rfl
  · dsimp only
    rw [e5, e2.zone, if_pos (decide_eq_true hs)]
  · intro x hx t
    obtain ⟨names, hrep, hv⟩ := e2.vertex
    rw [e2.zone] at hrep
    have hv := hv x hx
    have hp := (hrep.present_iff t x.1.name).mpr ((hrep.mem _).mp (List.mem_of_getElem? hv))
    have := (hrep.ancestor t x.1.name).2.1
    rw [hp, List.take_length] at this
    exact Prod.ext (Trie.name_inj hrep.inv.nodup this hv) hp

/-- The records of the zones with the number of the zone each is in. -/
def tagged (sites : List (Nat × Str × List RR)) : List (RR × Nat) := sites.flatMap (fun x => x.2.2.map (fun r => (r, x.1)))

theorem load_tagged (thr : Nat) (lint : Bool) (read : Str → Str) (zs : List Listing) (ess : List (List (Entry × Nat)))
    (h : List.Forall₂ (fun z es => GoodFile (read z.1) (toLower (z.2.2.getD [])) es) zs ess) :
    ∀ (d0 : Loaded) (xs : List (RR × Nat × Nat)), (∀ es ∈ ess, HasSOA es) → d0.lg = labelGraph thr xs →
      (∀ p ∈ d0.ctx.zones, p.1 ≤ d0.ctx.counter) →
      (∀ x ∈ xs, ∃ z, d0.ctx.zones.lookup x.2.1 = some z ∧ ∃ t, z.ancestor t x.1.name = (x.2.2, x.1.name.length)) →
      ∃ (d : Loaded) (xs' : List (RR × Nat × Nat)), (zs.map Listing.entry).foldlM (fun d z => loadZone thr lint d (z.fileName.getD []) (read (z.fileName.getD []))
          (toLower (z.nameServer.getD [])) (toLower (z.origin.getD []))) d0 = .ok d ∧
        d.lg = labelGraph thr (xs ++ xs') ∧ xs'.map (fun x => (x.1, x.2.1)) = tagged (sitesFrom (d0.ctx.counter + 1) zs ess) ∧
        (∀ x ∈ xs ++ xs', ∃ z, d.ctx.zones.lookup x.2.1 = some z ∧ ∃ t, z.ancestor t x.1.name = (x.2.2, x.1.name.length)) ∧
        d.ctx.zoneNs = d0.ctx.zoneNs ++ (sitesFrom (d0.ctx.counter + 1) zs ess).map (fun x => (x.1, x.2.1)) := by
  induction h with
  | nil =>
    intro d0 xs _ h1 h2 h3
    exact ⟨d0, [], rfl, by simpa using h1, by simp [sitesFrom, tagged], by simpa using h3, by simp [sitesFrom]⟩
  | @cons z es zs ess hz _ ih =>
    intro d0 xs hs h1 h2 h3
    have hes := hs es List.mem_cons_self
    obtain ⟨d1, rs, ys, e1, e2, e3, e4, e5, e6⟩ := file_tagged thr lint d0 z.1 (read z.1) (toLower z.2.1) (toLower (z.2.2.getD [])) es hz hes
    have hc : d1.ctx.counter = d0.ctx.counter + 1 := by rw [e5]
    have hzo : d1.ctx.zones = d0.ctx.zones ++ [(d0.ctx.counter + 1, Zone.afterAdds thr (d0.ctx.counter + 1) rs)] := by rw [e5]
    have hlg : d1.lg = labelGraph thr (xs ++ ys) := by
      rw [e4, h1]; unfold labelGraph; rw [List.foldl_append]
    have hv : ∀ x ∈ xs ++ ys, ∃ z, d1.ctx.zones.lookup x.2.1 = some z ∧ ∃ t, z.ancestor t x.1.name = (x.2.2, x.1.name.length) := by
      intro x hx
      rw [hzo, Trie.lookup_append]
      rcases List.mem_append.mp hx with hx | hx
      · obtain ⟨z, a1, a2⟩ := h3 x hx
        exact ⟨z, by rw [a1]; rfl, a2⟩
      · have : d0.ctx.zones.lookup x.2.1 = none := by
          cases hl : d0.ctx.zones.lookup x.2.1 with
          | none => rfl
          | some z =>
            have := h2 _ (mem_of_lookup hl)
            have := e3 x hx
            dsimp only at *
            omega
        refine ⟨_, ?_, thr, e6 x hx thr⟩
        rw [this, e3 x hx]
        simp [List.lookup]
    obtain ⟨d, xs', f1, f2, f3, f4, f5⟩ := ih d1 (xs ++ ys) (fun e he => hs e (List.mem_cons_of_mem _ he)) hlg (by
      intro p hp
      rw [hzo] at hp
      rw [hc]
      rcases List.mem_append.mp hp with hp | hp
      · have := h2 p hp; omega
      · rw [List.mem_singleton.mp hp]) hv
    have hsit : sitesFrom (d0.ctx.counter + 1) (z :: zs) (es :: ess) =
        (d0.ctx.counter + 1, toLower z.2.1, z.records es) :: sitesFrom (d0.ctx.counter + 1 + 1) zs ess := by
      rw [sitesFrom, if_pos hes]; rfl
    refine ⟨d, ys ++ xs', ?_, by rw [f2, List.append_assoc], ?_, by rw [← List.append_assoc]; exact f4, ?_⟩
    · rw [List.map_cons, List.foldlM_cons]
      show (loadZone thr lint d0 z.1 (read z.1) (toLower z.2.1) (toLower (z.2.2.getD [])) >>= _) = _
      rw [e1, Res.ok_bind]; exact f1
    · rw [hsit, List.map_append, f3, hc]
      unfold tagged
      rw [List.flatMap_cons]
      congr 1
      show _ = (z.records es).map _
      unfold Listing.records
      rw [← e2, List.map_map]
      refine List.map_congr_left (fun x hx => ?_)
      show (x.1, x.2.1) = (x.1, d0.ctx.counter + 1)
      rw [e3 x hx]
    · rw [f5, hsit, hc, e5, List.map_cons]
      simp

/-! ### The zones holding a name -/

theorem firsts_block {acc : List Nat} {k : Nat} (hk : k ∉ acc) (l : List Nat) (hl : ∀ x ∈ l, x = k) :
    l.foldl (fun acc x => if x ∈ acc then acc else acc ++ [x]) acc = if l = [] then acc else acc ++ [k] := by
  cases l with
  | nil => rfl
  | cons x l =>
    rw [List.foldl_cons, hl x List.mem_cons_self, if_neg hk, if_neg (by simp)]
    have : ∀ l : List Nat, (∀ x ∈ l, x = k) → l.foldl (fun acc x => if x ∈ acc then acc else acc ++ [x]) (acc ++ [k]) = acc ++ [k] := by
      intro l
      induction l with
      | nil => intro _; rfl
      | cons y l ih =>
        intro hl
        rw [List.foldl_cons, hl y List.mem_cons_self, if_pos (by simp)]
        exact ih (fun x hx => hl x (List.mem_cons_of_mem _ hx))
    exact this l (fun y hy => hl y (List.mem_cons_of_mem _ hy))

theorem firsts_tagged (n : Name) (sites : List (Nat × Str × List RR)) (hi : (sites.map (·.1)).Pairwise (· < ·))
    (hN : ∀ x ∈ sites, ∀ r ∈ x.2.2, r.type ≠ .N) (acc : List Nat) (ha : ∀ x ∈ sites, x.1 ∉ acc) :
    (((tagged sites).filter (fun x => decide (x.1.type ≠ .N ∧ x.1.name = n))).map (·.2)).foldl (fun acc x => if x ∈ acc then acc else acc ++ [x]) acc =
      acc ++ (sites.filter (fun x => decide (∃ r ∈ x.2.2, r.name = n))).map (·.1) := by
  induction sites generalizing acc with
  | nil => simp [tagged]
  | cons s sites ih =>
    have htag : tagged (s :: sites) = s.2.2.map (fun r => (r, s.1)) ++ tagged sites := by unfold tagged; rw [List.flatMap_cons]
    rw [htag, List.filter_append, List.map_append, List.foldl_append, firsts_block (ha s List.mem_cons_self)]
    · rw [List.map_cons, List.pairwise_cons] at hi
      have hiff : (((s.2.2.map (fun r => (r, s.1))).filter (fun x => decide (x.1.type ≠ .N ∧ x.1.name = n))).map (·.2) = []) ↔
          ¬ ∃ r ∈ s.2.2, r.name = n := by
        rw [List.map_eq_nil_iff, List.filter_eq_nil_iff]
        constructor
        · rintro h ⟨r, hr, e⟩
          exact h (r, s.1) (List.mem_map.mpr ⟨r, hr, rfl⟩) (decide_eq_true ⟨hN s List.mem_cons_self r hr, e⟩)
        · intro h x hx
          obtain ⟨r, hr, rfl⟩ := List.mem_map.mp hx
          simp only [decide_eq_true_eq]
          exact fun c => h ⟨r, hr, c.2⟩
      have hN' : ∀ x ∈ sites, ∀ r ∈ x.2.2, r.type ≠ .N := fun x hx => hN x (List.mem_cons_of_mem _ hx)
      by_cases hc : ∃ r ∈ s.2.2, r.name = n
      · rw [if_neg (by rw [hiff]; simpa using hc), ih hi.2 hN', List.filter_cons_of_pos (by simpa using hc)]
        · simp
        · intro x hx
          rw [List.mem_append, not_or]
          refine ⟨ha x (List.mem_cons_of_mem _ hx), ?_⟩
          have := hi.1 x.1 (List.mem_map_of_mem hx)
          simp only [List.mem_singleton]
          omega
      · rw [if_pos (hiff.mpr hc), ih hi.2 hN', List.filter_cons_of_neg (by simpa using hc)]
        exact fun x hx => ha x (List.mem_cons_of_mem _ hx)
    · intro x hx
      obtain ⟨y, hy, rfl⟩ := List.mem_map.mp hx
      obtain ⟨r, -, rfl⟩ := List.mem_map.mp (List.mem_filter.mp hy).1
      rfl

/-- The server of a zone is the one its file is listed with. -/
theorem sitesFrom_server {k : Nat} {zs : List Listing} {ess : List (List (Entry × Nat))} {x : Nat × Str × List RR} (h : x ∈ sitesFrom k zs ess) :
    (zs[x.1 - k]?).map (fun z => toLower z.2.1) = some x.2.1 := by
  induction zs generalizing k ess with
  | nil => simp [sitesFrom] at h
  | cons z zs ih =>
    cases ess with
    | nil => simp [sitesFrom] at h
    | cons es ess =>
      unfold sitesFrom at h
      rcases List.mem_append.mp h with h | h
      · split at h
        · rw [List.mem_singleton.mp h]; simp
        · cases h
      · have h1 := ih h
        have h2 := (mem_sitesFrom h).1
        have : x.1 - k = (x.1 - (k + 1)) + 1 := by omega
        rw [this, List.getElem?_cons_succ]
        exact h1

end Groot
