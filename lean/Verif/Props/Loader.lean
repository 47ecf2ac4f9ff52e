import Verif.Lemmas.Loader
import Verif.Props.Structural
import Verif.Props.Lexer
import Verif.Props.Resolve

/-!
# C20, C64, C65: loading zone files
-/

namespace Groot

open Spec Parser Lexer

/-! ## C64 -/

/-- The files of a metadata description. -/
def filesOf (m : Driver.Meta) : List Driver.UZone := m.zoneFiles.getD []

/-- No word of any zone file, and no configured origin, is spelt DS. -/
def NoDS (read : Str → Str) (m : Driver.Meta) : Prop :=
  ∀ z ∈ filesOf m, (∀ t ∈ tokens (read (z.fileName.getD [])), toUpper t.text ≠ "DS".toList) ∧ toUpper (z.origin.getD []) ≠ "DS".toList

theorem setContext_loading {thr : Nat} {lint : Bool} {read : Str → Str} {exists_ : Str → Bool} {m : Driver.Meta} {d : Loaded}
    (h : setContext thr lint read exists_ m = .ok d) :
    ∃ w xs, Loading (NoDS read m) thr ((m.topNameServers.getD []).map toLower) d w xs ∧ d.ctx.counter = (filesOf m).length ∧
      ∀ p ∈ d.ctx.zoneNs, ∃ z, (filesOf m)[p.1 - 1]? = some z ∧ p.2 = toLower (z.nameServer.getD []) := by
  unfold setContext at h
  obtain ⟨-, -, h⟩ := bind_ok_iff.mp h
  dsimp only at h
  have key : ∀ (fs pre : List Driver.UZone) (d0 : Loaded) (w : World) (xs : List (RR × Nat × Nat)), fs ⊆ filesOf m →
      Loading (NoDS read m) thr ((m.topNameServers.getD []).map toLower) d0 w xs → d0.ctx.counter = pre.length →
      (∀ p ∈ d0.ctx.zoneNs, ∃ z, pre[p.1 - 1]? = some z ∧ p.2 = toLower (z.nameServer.getD [])) →
      fs.foldlM (fun d z => loadZone thr lint d (z.fileName.getD []) (read (z.fileName.getD [])) (toLower (z.nameServer.getD []))
        (toLower (z.origin.getD []))) d0 = .ok d →
      ∃ w xs, Loading (NoDS read m) thr ((m.topNameServers.getD []).map toLower) d w xs ∧ d.ctx.counter = (pre ++ fs).length ∧
        ∀ p ∈ d.ctx.zoneNs, ∃ z, (pre ++ fs)[p.1 - 1]? = some z ∧ p.2 = toLower (z.nameServer.getD []) := by
    intro fs
    induction fs with
    | nil =>
      intro pre d0 w xs hsub hl hc hz h
      have : d0 = d := by simpa [List.foldlM] using h
      subst this
      rw [List.append_nil]
      exact ⟨w, xs, hl, hc, hz⟩
    | cons z fs ih =>
      intro pre d0 w xs hsub hl hc hz h
      rw [List.foldlM_cons] at h
      obtain ⟨d1, h1, h⟩ := bind_ok_iff.mp h
      obtain ⟨w', xs', hl', hc', hz'⟩ := hl.next h1 (fun hb => by
        have := hb z (hsub List.mem_cons_self)
        exact ⟨this.1, by rw [toUpper_toLower]; exact this.2⟩)
      have e : pre ++ z :: fs = (pre ++ [z]) ++ fs := by simp
      rw [e]
      refine ih (pre ++ [z]) d1 w' xs' (fun x hx => hsub (List.mem_cons_of_mem _ hx)) hl' (by rw [hc', hc]; simp) ?_ h
      have hold : ∀ p ∈ d0.ctx.zoneNs, ∃ y, (pre ++ [z])[p.1 - 1]? = some y ∧ p.2 = toLower (y.nameServer.getD []) := by
        intro p hp
        obtain ⟨y, h1, h2⟩ := hz p hp
        exact ⟨y, by rw [List.getElem?_append_left (List.getElem?_eq_some_iff.mp h1).1]; exact h1, h2⟩
      rcases hz' with q | q
      · rw [q]; exact hold
      · rw [q]
        intro p hp
        rcases List.mem_append.mp hp with e | e
        · exact hold p e
        · rw [List.mem_singleton.mp e]
          refine ⟨z, ?_, rfl⟩
          show (pre ++ [z])[d0.ctx.counter + 1 - 1]? = _
          rw [hc]; simp
  obtain ⟨w, xs, h1, h2, h3⟩ := key (filesOf m) [] _ _ _ (fun x hx => hx) (Loading.start _ thr _) rfl (by simp) h
  exact ⟨w, xs, h1, h2, h3⟩

/-- **C64** Whatever files are loaded, if loading does not abort, then the context represents a world of zones and the label
graph is built from records, such that context, world and label graph go together: ids are distinct, every zone has
the server of the file it came from and is listed for that server only, the entries of the label graph for a loaded
zone are exactly the records of the zone, and they name the vertex where the record is found.  If no word of the files is
spelt DS, all records have supported types. -/
theorem C64_loaded (thr : Nat) (lint : Bool) (read : Str → Str) (exists_ : Str → Bool) (m : Driver.Meta) (d : Loaded)
    (h : setContext thr lint read exists_ m = .ok d) :
    ∃ w xs, Represents d.ctx w ∧ w.top = (m.topNameServers.getD []).map toLower ∧ d.lg = labelGraph thr xs ∧ Coherent d w xs ∧
      d.ctx.counter = (filesOf m).length ∧
      (∀ p ∈ d.ctx.zoneNs, ∃ z, (filesOf m)[p.1 - 1]? = some z ∧ p.2 = toLower (z.nameServer.getD [])) ∧
      (NoDS read m → ∀ id, Supported (w.log id)) := by
  obtain ⟨w, xs, h1, h2, h3⟩ := setContext_loading h
  refine ⟨w, xs, represents_of h1.ns (h1.top.1.trans h1.top.2.symm) h1.zones, h1.top.2, h1.lg, h1.coherent, h2, h3, ?_⟩
  intro hn id r hr
  unfold World.log at hr
  cases hl : w.zones.lookup id with
  | none => rw [hl] at hr; simp [stored] at hr
  | some rs =>
    rw [hl] at hr
    exact h1.supp hn _ (mem_of_lookup hl) r (stored_subset rs r hr)

theorem Spec.Coherent.lookup {d : Loaded} {w : World} {xs : List (RR × Nat × Nat)} (h : Coherent d w xs) {p : Nat × List RR}
    (hp : p ∈ w.zones) : w.zones.lookup p.1 = some p.2 := lookup_of_mem h.increasing hp

theorem Spec.Coherent.log {d : Loaded} {w : World} {xs : List (RR × Nat × Nat)} (h : Coherent d w xs) {id : Nat} {r : RR}
    (hr : r ∈ w.log id) : ∃ rs, (id, rs) ∈ w.zones ∧ r ∈ stored rs ∧ w.log id = stored rs := by
  unfold World.log at hr ⊢
  cases hl : w.zones.lookup id with
  | none => rw [hl] at hr; simp [stored] at hr
  | some rs =>
    rw [hl] at hr
    exact ⟨rs, mem_of_lookup hl, hr, rfl⟩

/-- **C64** The label graph has a node for the owner of every record (of a supported type) stored in a loaded zone. -/
theorem C64_nodes (thr : Nat) (d : Loaded) (w : World) (xs : List (RR × Nat × Nat)) (hg : d.lg = labelGraph thr xs) (hc : Coherent d w xs)
    (id : Nat) (r : RR) (hr : r ∈ w.log id) (ht : r.type ≠ .N) : ∃ v, nodeOf d.lg r.name = some v := by
  obtain ⟨rs, h1, h2, -⟩ := hc.log hr
  obtain ⟨names, hrep⟩ := labelGraph_rep thr xs
  rw [← hc.entries _ h1] at h2
  obtain ⟨x, hx, rfl⟩ := List.mem_map.mp h2
  have hx := (List.mem_filter.mp hx).1
  have hk : Known (xs.map (·.1)) x.1.name := .inr ⟨x.1, List.mem_map_of_mem hx, ht, .inl ⟨[], by simp⟩⟩
  obtain ⟨v, hv⟩ := List.mem_iff_getElem?.mp ((hrep.known _).mpr hk)
  exact ⟨v, by rw [hg, nodeOf_iff hrep.inv]; exact hv⟩

/-- **C64** A loaded world is well-formed, provided no stored record has an unsupported type (only DS can, see C65) and no
top server has an empty name. -/
theorem C64_wellFormed (d : Loaded) (w : World) (xs : List (RR × Nat × Nat)) (hc : Coherent d w xs) (hs : ∀ id, Supported (w.log id))
    (ht : ∀ s ∈ w.top, s ≠ []) : WellFormed w := by
  refine ⟨?_, hs, ht, ?_⟩
  · intro s id hid
    rw [hc.hosted s] at hid
    obtain ⟨p, hp, rfl⟩ := List.mem_map.mp hid
    have : p.1 ∈ w.zones.map (·.1) := by rw [← hc.servers]; exact List.mem_map_of_mem (List.mem_filter.mp hp).1
    obtain ⟨q, hq, e⟩ := List.mem_map.mp this
    rw [← e, hc.lookup hq]
    simp
  · intro id r hr hn
    obtain ⟨rs, h1, h2, -⟩ := hc.log hr
    have := hc.fit _ h1 r (stored_subset rs r h2)
    exact ⟨this.ns hn, this.target (.inl hn)⟩

/-- **C64** If every file gave a zone, the label graph goes with the loaded zones as the structural check needs it. -/
theorem C64_registered (d : Loaded) (w : World) (xs : List (RR × Nat × Nat)) (hr : Represents d.ctx w) (hc : Coherent d w xs)
    (hall : d.ctx.zones.length = d.ctx.counter) : Registered d.ctx w xs := by
  have hkeys : d.ctx.zones.map (·.1) = w.zones.map (·.1) := by
    obtain ⟨-, -, t, zones, hz, hall⟩ := hr
    rw [hz, List.map_map]
    clear hz
    generalize w.zones = qs at hall
    induction hall with
    | nil => rfl
    | cons h _ ih => rw [List.map_cons, List.map_cons, ih, ← h.1]; rfl
  have hfull : ∀ id, 0 < id → id ≤ d.ctx.counter → id ∈ w.zones.map (·.1) := by
    have hl : (w.zones.map (·.1)).length = d.ctx.counter := by rw [← hkeys, List.length_map, hall]
    have hp := hc.positive
    have hi := hc.increasing
    generalize w.zones.map (·.1) = l at hl hp hi
    generalize d.ctx.counter = n at hl hp
    intro id h1 h2
    have hnd : l.Nodup := hi.imp (by intro a b h; omega)
    have hsub : l ⊆ List.range' 1 n := by
      intro x hx
      rw [List.mem_range'_1]
      have := hp x hx
      omega
    have hperm := hnd.subperm hsub
    have := hperm.perm_of_length_le (by rw [hl, List.length_range'])
    rw [this.mem_iff, List.mem_range'_1]
    omega
  have hmem : ∀ x ∈ xs, ∃ p ∈ w.zones, p.1 = x.2.1 := by
    intro x hx
    have := hfull _ (hc.known x hx).1 (hc.known x hx).2
    obtain ⟨p, hp, e⟩ := List.mem_map.mp this
    exact ⟨p, hp, e⟩
  have hlog : ∀ p ∈ w.zones, w.log p.1 = stored p.2 := by
    intro p hp
    unfold World.log
    rw [hc.lookup hp]; rfl
  have hstored : ∀ x ∈ xs, x.1 ∈ w.log x.2.1 := by
    intro x hx
    obtain ⟨p, hp, e⟩ := hmem x hx
    rw [← e, hlog p hp, ← hc.entries p hp]
    exact List.mem_map_of_mem (List.mem_filter.mpr ⟨hx, by simpa using e.symm⟩)
  refine ⟨hstored, ?_, ?_, ?_⟩
  · intro id r hr
    obtain ⟨rs, h1, h2, -⟩ := hc.log hr
    rw [← hc.entries _ h1] at h2
    obtain ⟨x, hx, rfl⟩ := List.mem_map.mp h2
    obtain ⟨hx, e⟩ := List.mem_filter.mp hx
    refine ⟨x.2.2, ?_⟩
    have e : x.2.1 = id := by simpa using e
    rw [← e]; exact hx
  · intro x hx
    obtain ⟨p, hp, e⟩ := hmem x hx
    obtain ⟨z, -, hl, -⟩ := hr.zone (id := x.2.1) (by rw [← e, hc.lookup hp]; simp)
    exact ⟨_, hl, 0, hc.vertices x hx _ hl 0⟩
  · intro x hx
    obtain ⟨p, hp, e⟩ := hmem x hx
    have : x.2.1 ∈ d.ctx.zoneNs.map (·.1) := by rw [hc.servers, ← e]; exact List.mem_map_of_mem hp
    obtain ⟨q, hq, e⟩ := List.mem_map.mp this
    rw [← e, lookup_of_mem (by rw [hc.servers]; exact hc.increasing) hq]
    simp

/-! ## C20 -/

theorem soaOwner_mem {log : List RR} (h : soaOwner log ≠ []) : ∃ r ∈ log, r.type = .SOA ∧ r.name = soaOwner log := by
  unfold soaOwner at h ⊢
  cases hl : (log.filter (fun r => decide (r.type = .SOA))).getLast? with
  | none => rw [hl] at h; exact absurd rfl h
  | some r =>
    have := List.mem_of_getLast? hl
    rw [List.mem_filter] at this
    exact ⟨r, this.1, by simpa using this.2, rfl⟩

theorem inOrder_prefix {rs : List RR} {r : RR} (h : InOrder (rs ++ [r])) : InOrder rs := by
  intro pre x post e
  exact h pre x (post ++ [r]) (by rw [e]; simp)

/-- **C20** In a zone to which records were offered in order, the first record is an SOA and all records lie at or below its
owner. -/
theorem C20_first_soa (rs : List RR) (h : InOrder rs) (hne : stored rs ≠ []) :
    ∃ s rest, stored rs = s :: rest ∧ s.type = .SOA ∧ ∀ r ∈ stored rs, AtOrBelow s.name r.name := by
  induction rs using List.reverseRecOn with
  | nil => exact absurd rfl hne
  | append_singleton rs r ih =>
    have hb := h rs r [] rfl
    have ih := ih (inOrder_prefix h)
    rw [stored_append] at hne ⊢
    by_cases hs : stored rs = []
    · have hadm : Admissible (stored rs) r := by rw [hs]; simp [Admissible, Duplicate, HasType, Owner]
      rw [if_pos hadm, hs]
      rw [hs] at hb
      rcases hb with ⟨e, -⟩ | ⟨e, -⟩
      · refine ⟨r, [], rfl, e, ?_⟩
        intro x hx
        rw [List.nil_append, List.mem_singleton] at hx
        rw [hx]; exact ⟨[], by simp⟩
      · exact absurd rfl e
    · obtain ⟨s, rest, e1, e2, e3⟩ := ih hs
      split
      · refine ⟨s, rest ++ [r], by rw [e1]; rfl, e2, ?_⟩
        intro x hx
        rcases List.mem_append.mp hx with q | q
        · exact e3 x q
        · rw [List.mem_singleton] at q
          subst q
          by_cases h0 : soaOwner (stored rs) = []
          · -- the origin is the root, hence so is the first owner
            have hroot : s.name = [] := by
              have : ∀ l : List RR, (∃ y ∈ l, y.type = .SOA) → ∃ y ∈ l, y.type = .SOA ∧ y.name = soaOwner l := by
                intro l ⟨y, hy, ht⟩
                unfold soaOwner
                cases hl : (l.filter (fun r => decide (r.type = .SOA))).getLast? with
                | none =>
                  rw [List.getLast?_eq_none_iff, List.filter_eq_nil_iff] at hl
                  exact absurd (by simpa using ht) (hl y hy)
                | some z =>
                  have := List.mem_of_getLast? hl
                  rw [List.mem_filter] at this
                  exact ⟨z, this.1, by simpa using this.2, rfl⟩
              obtain ⟨y, hy, -, e⟩ := this (stored rs) ⟨s, by rw [e1]; exact List.mem_cons_self, e2⟩
              obtain ⟨t, ht⟩ := e3 y hy
              rw [e, h0] at ht
              exact (List.append_eq_nil_iff.mp ht.symm).1
            rw [hroot]; exact ⟨x.name, rfl⟩
          · obtain ⟨y, hy, -, e⟩ := soaOwner_mem h0
            have h1 := e3 y hy
            rcases hb with ⟨-, q⟩ | ⟨-, q⟩
            · exact absurd q h0
            · rw [e] at h1
              exact (atOrBelow_iff_prefix _ _).mpr (((atOrBelow_iff_prefix _ _).mp h1).trans ((atOrBelow_iff_prefix _ _).mp q))
      · exact ⟨s, rest, e1, e2, e3⟩

/-- **C20** A loaded zone all of whose SOA records have one owner holds only records at or below the SOA owner. -/
theorem C20_in_zone (d : Loaded) (w : World) (xs : List (RR × Nat × Nat)) (hc : Coherent d w xs) (id : Nat)
    (hone : ∀ r ∈ w.log id, ∀ s ∈ w.log id, r.type = .SOA → s.type = .SOA → r.name = s.name) :
    ∀ r ∈ w.log id, AtOrBelow (w.origin id) r.name := by
  intro r hr
  obtain ⟨rs, h1, h2, h3⟩ := hc.log hr
  obtain ⟨s, rest, e1, e2, e3⟩ := C20_first_soa rs (hc.order _ h1) (List.ne_nil_of_mem h2)
  have : w.origin id = s.name := by
    unfold World.origin
    by_cases h0 : soaOwner (w.log id) = []
    · have hs : s ∈ w.log id := by rw [h3, e1]; exact List.mem_cons_self
      unfold soaOwner at h0 ⊢
      cases hl : ((w.log id).filter (fun r => decide (r.type = .SOA))).getLast? with
      | none =>
        rw [List.getLast?_eq_none_iff, List.filter_eq_nil_iff] at hl
        exact absurd (by simpa using e2) (hl s hs)
      | some z =>
        have := List.mem_of_getLast? hl
        rw [List.mem_filter] at this
        exact hone z this.1 s hs (by simpa using this.2) e2
    · obtain ⟨y, hy, ht, e⟩ := soaOwner_mem h0
      rw [← e]
      exact hone y hy s (by rw [h3, e1]; exact List.mem_cons_self) ht e2
  rw [this]
  exact e3 r h2

/-- **C20** As long as a zone has no origin, a record within the length limits that is not an SOA stops the program; so it
does when the origin is the root. -/
theorem C20_stops (thr id : Nat) (rs : List RR) (st : PState) (hz : st.zone = Zone.afterAdds thr id rs) (h0 : soaOwner (stored rs) = [])
    (r : RR) (ht : r.type ≠ .SOA) (hs : Short r.name) (hp : Pointing r → Short (stringToLabels r.rdata)) : addRR thr st r = .exit := by
  obtain ⟨names, hrep⟩ := Zone.rep_afterAdds thr id rs
  have hm : st.zone.membership r = .exit := by
    unfold Zone.membership
    rw [hz, hrep.origin, h0]
    simp [ht]
  unfold addRR
  dsimp only
  rw [if_neg (by rw [(short_iff _).mpr hs]; simp), if_neg, hm]
  · rfl
  · rw [Bool.and_eq_true, decide_eq_true_eq]
    rintro ⟨h1, h2⟩
    rw [(short_iff _).mpr (hp h1)] at h2
    cases h2

/-- **C64** A loaded zone knows where it is: if all its SOA records have one owner, the zones with records of a name satisfy
what the structural check relies on. -/
theorem C64_inZones (d : Loaded) (w : World) (xs : List (RR × Nat × Nat)) (hc : Coherent d w xs) (hx : Registered d.ctx w xs) (n : Name)
    (hone : ∀ id, ∀ r ∈ w.log id, ∀ s ∈ w.log id, r.type = .SOA → s.type = .SOA → r.name = s.name) : InZones w n (zonesWith xs n) := by
  have hmem : ∀ {α : Type} [DecidableEq α] (l acc : List α) (x : α), x ∈ l.foldl (fun acc x => if x ∈ acc then acc else acc ++ [x]) acc → x ∈ acc ∨ x ∈ l := by
    intro α _ l
    induction l with
    | nil => intro acc x h; exact .inl h
    | cons y l ih =>
      intro acc x h
      rw [List.foldl_cons] at h
      rcases ih _ _ h with q | q
      · split at q
        · exact .inl q
        · rcases List.mem_append.mp q with q | q
          · exact .inl q
          · exact .inr (by rw [List.mem_singleton.mp q]; exact List.mem_cons_self)
      · exact .inr (List.mem_cons_of_mem _ q)
  intro id hid
  have hid' : id ∈ (xs.filter (fun x => decide (x.1.type ≠ .N ∧ x.1.name = n))).map (·.2.1) := by
    rcases hmem _ _ _ hid with q | q
    · cases q
    · exact q
  obtain ⟨x, hx1, rfl⟩ := List.mem_map.mp hid'
  obtain ⟨hx1, hx2⟩ := List.mem_filter.mp hx1
  have hx2 : x.1.type ≠ .N ∧ x.1.name = n := by simpa using hx2
  have hr := hx.stored x hx1
  have hin := C20_in_zone d w xs hc x.2.1 (hone _)
  obtain ⟨rs, h1, h2, h3⟩ := hc.log hr
  obtain ⟨s, rest, e1, e2, e3⟩ := C20_first_soa rs (hc.order _ h1) (List.ne_nil_of_mem h2)
  have hs : s ∈ w.log x.2.1 := by rw [h3, e1]; exact List.mem_cons_self
  have horig : ∀ y ∈ w.log x.2.1, y.type = .SOA → y.name = w.origin x.2.1 := by
    intro y hy hyt
    by_cases h0 : w.origin x.2.1 = []
    · unfold World.origin soaOwner at h0 ⊢
      cases hl : ((w.log x.2.1).filter (fun r => decide (r.type = .SOA))).getLast? with
      | none =>
        rw [List.getLast?_eq_none_iff, List.filter_eq_nil_iff] at hl
        exact absurd (by simpa using hyt) (hl y hy)
      | some z =>
        have := List.mem_of_getLast? hl
        rw [List.mem_filter] at this
        exact hone _ y hy z this.1 hyt (by simpa using this.2)
    · obtain ⟨z, hz, ht, e⟩ := soaOwner_mem h0
      rw [World.origin, ← e]
      exact hone _ y hy z hz hyt ht
  refine ⟨?_, ?_⟩
  · rintro ⟨y, hy, hyn, hyt⟩
    rw [← horig y hy hyt, hyn]
  · intro hno
    refine ⟨?_, by rw [← hx2.2]; exact hin _ hr⟩
    intro h0
    -- the origin is the root: nothing but SOA records at the root
    have hall : ∀ (ps : List RR), InOrder ps → (∀ y ∈ stored ps, y.type = .SOA → y.name = []) → ∀ y ∈ stored ps, y.type = .SOA := by
      intro ps
      induction ps using List.reverseRecOn with
      | nil => intro _ _ y hy; simp [stored] at hy
      | append_singleton ps r ih =>
        intro ho hn y hy
        rw [stored_append] at hy hn
        have hb := ho ps r [] rfl
        split at hy
        · rename_i hadm
          rw [if_pos hadm] at hn
          have hn' : ∀ y ∈ stored ps, y.type = .SOA → y.name = [] := fun y hy => hn y (List.mem_append_left _ hy)
          rcases List.mem_append.mp hy with q | q
          · exact ih (inOrder_prefix ho) hn' y q
          · rw [List.mem_singleton.mp q]
            rcases hb with ⟨e, -⟩ | ⟨e, -⟩
            · exact e
            · obtain ⟨z, hz, ht, e'⟩ := soaOwner_mem e
              exact absurd ((e'.symm).trans (hn' z hz ht)) e
        · rename_i hadm
          rw [if_neg hadm] at hn
          exact ih (inOrder_prefix ho) hn y hy
    have hsoa := hall rs (hc.order _ h1) (by
      intro y hy hyt
      rw [horig y (by rw [h3]; exact hy) hyt, h0]) x.1 h2
    exact hno ⟨x.1, hr, hx2.2, hsoa⟩

/-- **C64** End to end: after loading files without DS and with non-empty top server names, resolving any question never
aborts. -/
theorem C64_resolves (thr : Nat) (lint : Bool) (read : Str → Str) (exists_ : Str → Bool) (m : Driver.Meta) (d : Loaded)
    (h : setContext thr lint read exists_ m = .ok d) (hds : NoDS read m) (htop : ∀ s ∈ m.topNameServers.getD [], s ≠ [])
    (q : EC) (hq : Short q.name) : ∃ N g, ∀ fuel, N ≤ fuel → buildIG fuel thr d.ctx q = .ok g := by
  obtain ⟨w, xs, h1, h2, h3, h4, h5, h6, h7⟩ := C64_loaded thr lint read exists_ m d h
  refine C30_construction_terminates d.ctx w h1 (C64_wellFormed d w xs h4 (h7 hds) ?_) thr q hq
  rw [h2]
  intro s hs
  obtain ⟨t, ht, rfl⟩ := List.mem_map.mp hs
  have := htop t ht
  unfold toLower
  rwa [Ne, List.map_eq_nil_iff]

/-- Two zone files on two servers; the second one has an out-of-zone and a duplicate record. -/
def twoFiles : Driver.Meta where
  topNameServers := some ["S.".toList]
  zoneFiles := some [⟨some "f1".toList, some "S.".toList, none⟩, ⟨some "f2".toList, some "ns.Sub.com.".toList, some "sub.com.".toList⟩]

def twoContents (f : Str) : Str :=
  if f = "f1".toList then
    "com. SOA x\na.com. 300 IN CNAME www.sub.com.\nsub.com. NS ns.sub.com.\nns.sub.com. A 1.1.1.1\n".toList
  else "@ SOA x\nwww A 2.2.2.2\nnet. A 3.3.3.3\nwww A 2.2.2.2\n".toList

/-- The sample is loaded as it should be. -/
theorem twoFiles_loaded : ∃ d, setContext 500 true twoContents (fun _ => true) twoFiles = .ok d ∧
    d.ctx.zones.length = d.ctx.counter ∧ d.ctx.nsZones = [("s.".toList, [1]), ("ns.sub.com.".toList, [2])] ∧
    d.issues.map (fun p => p.2.length) = [0, 2] := by
  have h : ∀ r : Res Loaded, (match r with
      | .ok d => decide (d.ctx.zones.length = d.ctx.counter ∧ d.ctx.nsZones = [("s.".toList, [1]), ("ns.sub.com.".toList, [2])] ∧
        d.issues.map (fun p => p.2.length) = [0, 2])
      | _ => false) = true → ∃ d, r = .ok d ∧ d.ctx.zones.length = d.ctx.counter ∧
        d.ctx.nsZones = [("s.".toList, [1]), ("ns.sub.com.".toList, [2])] ∧ d.issues.map (fun p => p.2.length) = [0, 2] := by
    intro r hr
    cases r with
    | ok d => exact ⟨d, rfl, of_decide_eq_true hr⟩
    | _ => cases hr
  exact h _ (by decide +kernel)

example : NoDS twoContents twoFiles ∧ ∀ s ∈ twoFiles.topNameServers.getD [], s ≠ [] := by
  unfold NoDS
  exact ⟨by decide +kernel, by decide⟩

/-- **C64** (disagreement) A file whose SOA line starts with a blank (the owner being that of the line before) is not loaded as a
zone, but its records are in the label graph; the structural check of such a name stops the program. -/
theorem C64_disagreement_blank_soa :
    (match loadZone 500 false {} "f".toList "x. 1d TXT t\n SOA a\nx. NS n.\n".toList "s.".toList [] with
      | .ok d => d.ctx.zones.isEmpty && (match nodeOf d.lg ["x".toList] with
        | some v => (match LGraph.structuralCheck 500 d.lg d.ctx "x.".toList v with | .exit => true | _ => false)
        | none => false)
      | _ => false) = true := by
  decide +kernel

/-- **C64** (disagreement) A file whose only record is an SOA with an over-long owner is loaded as an empty zone; its origin being
empty, it is taken to contain every name. -/
theorem C64_disagreement_empty_zone :
    (match loadZone 500 false {} "f".toList (List.replicate 64 'x' ++ ". SOA a\n".toList) "s.".toList [] with
      | .ok d => (match d.ctx.zones with | [(1, z)] => decide (z.origin = [] ∧ z.rrsAt 0 = [] ∧ z.g.verts.length = 1) | _ => false)
      | _ => false) = true := by
  decide +kernel

/-- **C20** (disagreement) The record after the SOA of the root zone stops the program. -/
theorem C20_disagreement_root :
    (match loadZone 500 false {} "f".toList ". SOA a\ncom. NS n.\n".toList "s.".toList [] with | .exit => true | _ => false) = true ∧
    (match loadZone 500 false {} "f".toList "com. SOA a\ncom. NS n.\n".toList "s.".toList [] with | .ok _ => true | _ => false) = true := by
  decide +kernel

/-- **C20** (disagreement) With two SOA records of different owners the second becomes the origin, and later records of the
first part of the zone are rejected. -/
theorem C20_disagreement_two_soas :
    recordsRead "x." "x. SOA a\nb.x. SOA a\nc.x. A 1\n" =
      some [⟨["x".toList], .SOA, 1, 0, "a".toList⟩, ⟨["x".toList, "b".toList], .SOA, 1, 0, "a".toList⟩] := by
  decide +kernel

example : ∃ rs : List RR, InOrder rs ∧ stored rs ≠ [] ∧ rs.length = 2 := by
  refine ⟨[⟨["x".toList], .SOA, 1, 0, "a".toList⟩, ⟨["x".toList, "b".toList], .A, 1, 0, "a".toList⟩], ?_, by decide, rfl⟩
  intro pre r post e
  match pre, e with
  | [], e => cases e; exact .inl ⟨rfl, by decide⟩
  | [_], e =>
    injection e with e1 e2
    injection e2 with e2 e3
    subst e1 e2
    exact .inr ⟨by decide, ["b".toList], rfl⟩
  | _ :: _ :: pre, e =>
    injection e with e1 e2
    injection e2 with e2 e3
    simp at e3

/-! ## C65 -/

/-- **C65** A word taken for a record type names a supported type, or is DS. -/
theorem C65_only_ds (s : Str) (h : LooksLikeType s) : stringToType (toUpper s) = .N ↔ toUpper s = "DS".toList := by
  constructor
  · intro hn
    by_contra hd
    exact typeField_supported ((looksLike_iff s).mpr h) hd hn
  · intro e; rw [e]; decide

/-- **C65** Records of unsupported types leave no trace in the label graph. -/
theorem C65_label_graph (thr : Nat) (xs : List (RR × Nat × Nat)) :
    labelGraph thr xs = labelGraph thr (xs.filter (fun x => decide (x.1.type ≠ .N))) := by
  unfold labelGraph
  generalize LGraph.init = g
  induction xs generalizing g with
  | nil => rfl
  | cons x xs ih =>
    by_cases h : x.1.type = .N
    · rw [List.filter_cons_of_neg (by simpa using h), List.foldl_cons, ← ih]
      congr 1
      unfold LGraph.addRecord
      rw [if_pos h]
    · rw [List.filter_cons_of_pos (by simpa using h), List.foldl_cons, List.foldl_cons, ih]

/-- **C65** Files in which nothing is spelt DS give zones of supported records only. -/
theorem C65_no_ds (thr : Nat) (lint : Bool) (read : Str → Str) (exists_ : Str → Bool) (m : Driver.Meta) (d : Loaded)
    (h : setContext thr lint read exists_ m = .ok d) (hn : NoDS read m) :
    ∃ w, Represents d.ctx w ∧ ∀ id, Supported (w.log id) := by
  obtain ⟨w, _, h1, _, _, _, _, _, h7⟩ := C64_loaded thr lint read exists_ m d h
  exact ⟨w, h1, h7 hn⟩

/-- **C65** (disagreement) A DS record that is rejected — as a duplicate, out of the zone, or over-long — throws, whether or
not linting is on: it is printed before the lint setting is looked at. -/
theorem C65_disagreement_rejected (thr : Nat) (st : PState) (r : RR) (ht : r.type = .N)
    (h : ¬ Short r.name ∨ st.zone.membership r = .ok false ∨
      (st.zone.membership r = .ok true ∧ (st.zone.addRecord thr r).2.1 = .DUPLICATE)) :
    addRR thr st r = .throw := by
  have hs : r.toStr = .throw := by unfold RR.toStr; rw [if_pos ht]
  have hp : decide (r.type = .NS ∨ r.type = .CNAME ∨ r.type = .DNAME) = false := by rw [ht]; decide
  unfold addRR
  dsimp only
  by_cases h1 : Short r.name
  · rw [if_neg (by rw [(short_iff _).mpr h1]; simp), hp, if_neg (by simp)]
    rcases h with h | h | ⟨h, h'⟩
    · exact absurd h1 h
    · rw [h]
      simp only [Res.ok_bind, Bool.false_eq_true, if_false]
      rw [hs]; rfl
    · rw [h]
      simp only [Res.ok_bind, if_true]
      rw [h']
      split
      · rename_i e _; cases e
      · show rejected _ r .DUPLICATE _ = _
        unfold rejected
        dsimp only
        rw [hs]; rfl
  · have : (lengthCheck r.name).1 = false := by
      cases hc : (lengthCheck r.name).1
      · rfl
      · exact absurd ((short_iff _).mp hc) h1
    rw [if_pos (by rw [this]; rfl)]
    unfold lengthIssue
    rw [hs]; rfl

/-- A duplicate DS in a file, without linting. -/
example : (match loadZone 500 false {} "f".toList "x. SOA a\nb.x. DS 1\nb.x. DS 1\n".toList "s.".toList [] with
    | .throw => true | _ => false) = true := by decide +kernel

/-- **C65** (disagreement) Looking up a name at which a DS record is stored is undefined behaviour. -/
theorem C65_disagreement_lookup :
    (match loadZone 500 false {} "f".toList "x. SOA a\nb.x. DS 1\n".toList "s.".toList [] with
      | .ok d => (match buildIG 60 500 { d.ctx with top := ["s.".toList] } { name := ["x".toList, "b".toList], types := TypeSet.single .A } with
        | .ub => true | _ => false)
      | _ => false) = true := by
  decide +kernel

end Groot
