import Mathlib.Data.List.Perm.Basic
import Verif.Lemmas.Order

/-!
# C97: the order in which the zone files are listed
-/

namespace Groot

open Spec Driver

/-! ### One job -/

/-- The report of a structural check. -/
def IsStructural (v : Violation) : Prop := ∃ d ps, v = .structural d ps

theorem items_of_classes {fuel thr : Nat} {ctx : Context} {lg g : LGraph} {job : Job} {ts : List Task} {vs : List Violation}
    (h : runSequential fuel thr ctx lg job = .ok (g, ts, vs)) : LGraph.generateECs fuel lg (req job) = .ok (g, ts) ∧
      (∀ q ∈ classes ts, ∃ r, processEC fuel thr ctx job.pathFns job.nodeFns q = .ok r ∧ ∀ v ∈ r.1, v ∈ vs) ∧
      ∀ v ∈ vs, IsStructural v ∨ ∃ q ∈ classes ts, ∃ r, processEC fuel thr ctx job.pathFns job.nodeFns q = .ok r ∧ v ∈ r.1 := by
  unfold runSequential at h
  obtain ⟨r, h1, h⟩ := bind_ok_iff.mp h
  obtain ⟨w, h2, h⟩ := bind_ok_iff.mp h
  injection h with h
  injection h with e1 h
  injection h with e2 e3
  subst e1 e2 e3
  obtain ⟨g, ts⟩ := r
  dsimp only at h1 h2 ⊢
  refine ⟨h1, fun q hq => ?_, fun v hv => ?_⟩
  · obtain ⟨rx, h3, h4⟩ := concatM_all h2 _ ((mem_classes q ts).mp hq)
    unfold Driver.process at h3
    obtain ⟨x, h5, h6⟩ := bind_ok_iff.mp h3
    injection h6 with h6
    subst h6
    exact ⟨x, h5, h4⟩
  · obtain ⟨rs, h3, rfl⟩ := concatM_split h2
    obtain ⟨r, hr, hv⟩ := List.mem_flatten.mp hv
    obtain ⟨t, ht, h4⟩ := forall₂_mem h3 hr
    cases t with
    | ec q =>
      right
      unfold Driver.process at h4
      obtain ⟨x, h5, h6⟩ := bind_ok_iff.mp h4
      injection h6 with h6
      subst h6
      exact ⟨q, (mem_classes q ts).mpr ht, x, h5, hv⟩
    | structural u shown =>
      left
      have h4 : LGraph.structuralCheck thr g ctx shown u = .ok r := h4
      unfold LGraph.structuralCheck at h4
      dsimp only at h4
      split at h4
      · obtain ⟨x, h5, h6⟩ := bind_ok_iff.mp h4
        obtain ⟨y, h7, h8⟩ := bind_ok_iff.mp h6
        split at h8
        · injection h8 with h8
          subst h8
          cases hv
        · injection h8 with h8
          subst h8
          rw [List.mem_singleton.mp hv]
          exact ⟨shown, y, rfl⟩
      · injection h4 with h4
        subst h4
        cases hv

/-- What two runs of a job contribute, if they find the same but for the structural reports. -/
theorem contributes_but {a b : List Violation} (hab : ∀ v, v ∈ a → IsStructural v ∨ v ∈ b) (hba : ∀ v, v ∈ b → IsStructural v ∨ v ∈ a)
    {v : Violation} (h : Contributes a v) : IsStructural v ∨ Contributes b v := by
  have al : ∀ q c, Violation.alias q c ∈ a ↔ Violation.alias q c ∈ b := fun q c =>
    ⟨fun h => (hab _ h).resolve_left (fun ⟨_, _, e⟩ => nomatch e), fun h => (hba _ h).resolve_left (fun ⟨_, _, e⟩ => nomatch e)⟩
  cases h with
  | direct v h hd => exact (hab v h).imp id fun h => .direct v h hd
  | aliases q c h g hg =>
    refine .inr (.aliases q c ((al q c).mp h) g ⟨hg.keys, fun c qs hc => ?_, fun q c hq => hg.all q c ((al q c).mpr hq)⟩)
    obtain ⟨h1, h2, h3⟩ := hg.members c qs hc
    exact ⟨h1, h2, fun q => (h3 q).trans (al q c)⟩

/-- The violations `out` give account of the jobs. -/
def Told (fuel thr : Nat) (d : Loaded) (us : List UJob) (out : List Violation) : Prop :=
  ∃ rs : List (List Task × List Violation), rs.length = us.length ∧ (∀ i r, rs[i]? = some r → Alone fuel thr d us i r.1 r.2) ∧
    (∀ v ∈ out, ∃ l ∈ rs.map (·.2), Contributes l v) ∧ ∀ l ∈ rs.map (·.2), ∀ v, Contributes l v → ∃ v' ∈ out, SameUpToOrder v v'

/-- Two loaded sets of zones that are the same for the classes. -/
structure SameZones (thr : Nat) (d d' : Loaded) : Prop where
  ctx : SameAnswers thr d.ctx d'.ctx
  graph : ∃ xs xs', d.lg = labelGraph thr xs ∧ d'.lg = labelGraph thr xs' ∧ Regular (xs.map (·.1)) ∧ ∀ r, r ∈ xs.map (·.1) ↔ r ∈ xs'.map (·.1)

theorem SameAnswers.symm {thr : Nat} {ctx ctx' : Context} (h : SameAnswers thr ctx ctx') : SameAnswers thr ctx' ctx where
  top := h.top.symm
  listed := fun s => (h.listed s).symm
  zone := fun s n => by
    rcases h.zone s n with ⟨a, b⟩ | ⟨k, k', a, b, z, z', c1, c2, c3⟩
    · exact .inl ⟨b, a⟩
    · refine .inr ⟨k', k, b, a, z', z, c2, c1, fun q => ?_⟩
      obtain ⟨as, x, y, e1, e2⟩ := c3 q
      exact ⟨as, y, x, e2, e1⟩

theorem SameZones.symm {thr : Nat} {d d' : Loaded} (h : SameZones thr d d') : SameZones thr d' d where
  ctx := h.ctx.symm
  graph := by
    obtain ⟨xs, xs', h1, h2, h3, h4⟩ := h.graph
    exact ⟨xs', xs, h2, h1, Regular.congr h4 h3, fun r => (h4 r).symm⟩

theorem SameZones.items {fuel thr : Nat} {d d' : Loaded} (h : SameZones thr d d') {job : Job} {g g' : LGraph} {ts ts' : List Task} {vs vs' : List Violation}
    (h1 : runSequential fuel thr d.ctx d.lg job = .ok (g, ts, vs)) (h2 : runSequential fuel thr d'.ctx d'.lg job = .ok (g', ts', vs')) :
    ∀ v ∈ vs, IsStructural v ∨ v ∈ vs' := by
  obtain ⟨xs, xs', e1, e2, hr, hmem⟩ := h.graph
  rw [e1] at h1
  rw [e2] at h2
  obtain ⟨a1, a2, a3⟩ := items_of_classes h1
  obtain ⟨b1, b2, b3⟩ := items_of_classes h2
  intro v hv
  refine (a3 v hv).imp id ?_
  rintro ⟨q, hq, r, hr1, hr2⟩
  obtain ⟨r', c1, c2⟩ := b2 q (classes_congr hmem hr _ a1 b1 q hq)
  rw [← h.ctx.processEC, hr1] at c1
  injection c1 with c1
  subst c1
  exact c2 v hr2

theorem SameZones.told {fuel thr : Nat} {d d' : Loaded} (h : SameZones thr d d') {us : List UJob} {out out' : List Violation}
    (h1 : Told fuel thr d us out) (h2 : Told fuel thr d' us out') : ∀ v ∈ out, IsStructural v ∨ ∃ v' ∈ out', SameUpToOrder v v' := by
  obtain ⟨rs, a1, a2, a3, a4⟩ := h1
  obtain ⟨rs', b1, b2, b3, b4⟩ := h2
  intro v hv
  obtain ⟨l, hl, hc⟩ := a3 v hv
  obtain ⟨r, hr, rfl⟩ := List.mem_map.mp hl
  obtain ⟨i, hi⟩ := List.mem_iff_getElem?.mp hr
  have hlt : i < rs'.length := by rw [b1, ← a1]; exact (List.getElem?_eq_some_iff.mp hi).1
  have hi' : rs'[i]? = some rs'[i] := List.getElem?_eq_getElem hlt
  obtain ⟨u, j, lg, c1, c2, c3⟩ := a2 i r hi
  obtain ⟨u', j', lg', d1, d2, d3⟩ := b2 i _ hi'
  rw [c1] at d1
  injection d1 with d1
  subst d1
  rw [c2] at d2
  injection d2 with d2
  subst d2
  refine (contributes_but (h.items c3 d3) (h.symm.items d3 c3) hc).imp id fun hc => ?_
  exact b4 rs'[i].2 (List.mem_map.mpr ⟨_, List.getElem_mem hlt, rfl⟩) v hc

/-! ### The program -/

/-- What the program with its threads gives account of. -/
theorem told_threads {thr : Nat} {lint : Bool} {read : Str → Str} {exists_ : Str → Bool} {m : Meta} {us : List UJob} {tops : List Str} {zs : List Listing}
    {ess : List (List (Entry × Nat))} (h : GoodInput read exists_ m us tops zs ess) {fuel : Nat} {t : Totals}
    (hmain : main fuel thr lint read exists_ m (some us) = .ok t) {d : Loaded} (hd : setContext thr lint read exists_ m = .ok d)
    {out : List Violation} (ho : Schedules fuel thr d.ctx d.lg {} [] us out) : Told fuel thr d us out := by
  obtain ⟨d1, xs, h1, h2, h3, h4⟩ := load_redirecting thr lint h.loadable h.redirects
  rw [hd] at h1
  injection h1 with h1
  subst h1
  have hka := producers_apart (thr := thr) (xs := xs) (rs := allRecords zs ess) (fun x hx => by rw [← h3]; exact List.mem_map_of_mem hx)
    (fun u hu => (h.jobs u hu).2.2)
  rw [main_eq, hd, Res.ok_bind] at hmain
  unfold afterLoading at hmain
  dsimp only at hmain
  obtain ⟨rs, is, e1, e2, e3, e4⟩ := schedule_runs h2 us [] {} hka {} t (by simp [SomeStructural]) hmain ho
  have hrep : Reported is out := by rw [e3]; simpa using reported_foldl [] is [] reported_nil
  refine ⟨rs, e1, fun i r hr => by simpa using e2 i r hr, fun v hv => ?_, fun l hl v hc => ?_⟩
  · obtain ⟨l, hl, hc⟩ := hrep.sound v hv
    obtain ⟨r, hr, hp⟩ := forall₂_mem' e4 hl
    exact ⟨r.2, List.mem_map_of_mem hr, contributes_perm (fun v => hp.mem_iff) hc⟩
  · obtain ⟨r, hr, rfl⟩ := List.mem_map.mp hl
    obtain ⟨l', hl', hp⟩ := forall₂_mem e4 hr
    exact hrep.complete l' hl' v (contributes_perm (fun v => hp.mem_iff.symm) hc)

theorem told_in_turn {fuel thr : Nat} {lint : Bool} {read : Str → Str} {exists_ : Str → Bool} {m : Meta} {us : List UJob} {t : Totals}
    (hmain : main fuel thr lint read exists_ m (some us) = .ok t) {d : Loaded} (hd : setContext thr lint read exists_ m = .ok d) :
    Told fuel thr d us t.violations := by
  obtain ⟨d1, rs, g1, g2, g3, g4, -⟩ := C75_report fuel thr lint read exists_ m us t hmain
  rw [hd] at g1
  injection g1 with g1
  subst g1
  exact ⟨rs, g2, g3, g4.sound, g4.complete⟩

/-! ### The listing -/

theorem zip_unzip {α β : Type} (P : List (α × β)) : (P.map (·.1)).zip (P.map (·.2)) = P := by
  induction P with
  | nil => rfl
  | cons p P ih => simp [ih]

/-- The same files in another order are read as the same entries in that order. -/
theorem relist {read : Str → Str} {exists_ : Str → Bool} {m : Meta} {us : List UJob} {tops : List Str} {zs : List Listing}
    {ess : List (List (Entry × Nat))} (h : GoodInput read exists_ m us tops zs ess) {l l' : List UZone} (hl : m.zoneFiles = some l) (hp : l.Perm l') :
    ∃ zs' ess', (zs.zip ess).Perm (zs'.zip ess') ∧ GoodInput read exists_ { m with zoneFiles := some l' } us tops zs' ess' := by
  have hlen := h.loadable.files.length_eq
  have hmap : l = (zs.zip ess).map (fun p => ({ fileName := some p.1.1, nameServer := some p.1.2.1, origin := p.1.2.2 } : UZone)) := by
    have e := h.loadable.good.entries
    rw [hl] at e
    injection e with e
    rw [e, ← List.map_fst_zip (l₁ := zs) (l₂ := ess) (by omega), List.map_map, List.map_fst_zip (by omega)]
    rfl
  have hf : List.Forall₂ (fun (u : UZone) p => u = ({ fileName := some p.1.1, nameServer := some p.1.2.1, origin := p.1.2.2 } : UZone)) l (zs.zip ess) := by
    rw [hmap]
    exact List.forall₂_map_left_iff.mpr (List.forall₂_same.mpr fun _ _ => rfl)
  obtain ⟨P, hP1, hP2⟩ := List.perm_comp_forall₂ hp.symm hf
  have hperm : (zs.zip ess).Perm ((P.map (·.1)).zip (P.map (·.2))) := by rw [zip_unzip]; exact hP2.symm
  have hmem : ∀ p, p ∈ P ↔ p ∈ zs.zip ess := fun p => hP2.mem_iff
  have hzs : ∀ z, z ∈ P.map (·.1) ↔ z ∈ zs := fun z => by
    rw [(hP2.map (·.1)).mem_iff, List.map_fst_zip (by omega)]
  have hess : ∀ es, es ∈ P.map (·.2) ↔ es ∈ ess := fun es => by
    rw [(hP2.map (·.2)).mem_iff, List.map_snd_zip (by omega)]
  have hrec : ∀ rs, rs ∈ List.zipWith Listing.records (P.map (·.1)) (P.map (·.2)) ↔ rs ∈ List.zipWith Listing.records zs ess := fun rs => by
    rw [← List.map_uncurry_zip_eq_zipWith, ← List.map_uncurry_zip_eq_zipWith, (hperm.map _).mem_iff]
  have hall : ∀ r, r ∈ allRecords (P.map (·.1)) (P.map (·.2)) ↔ r ∈ allRecords zs ess := fun r => by
    unfold allRecords
    rw [List.mem_flatten, List.mem_flatten]
    exact exists_congr fun rs => and_congr_left fun _ => hrec rs
  refine ⟨P.map (·.1), P.map (·.2), hperm, ?_⟩
  refine ⟨⟨⟨h.loadable.good.top, ?_, fun z hz => h.loadable.good.files z ((hzs z).mp hz), ?_⟩, ?_, h.loadable.top⟩, ⟨?_, ?_⟩, ?_, ?_, ?_⟩
  · show some l' = some _
    congr 1
    rw [List.map_map]
    have : ∀ {l : List UZone} {P : List (Listing × List (Entry × Nat))},
        List.Forall₂ (fun (u : UZone) p => u = ({ fileName := some p.1.1, nameServer := some p.1.2.1, origin := p.1.2.2 } : UZone)) l P →
        l = P.map (fun p => ({ fileName := some p.1.1, nameServer := some p.1.2.1, origin := p.1.2.2 } : UZone)) := by
      intro l P h
      induction h with
      | nil => rfl
      | cons h _ ih => rw [List.map_cons, ← ih, h]
    exact this hP1
  · obtain ⟨t, ht, z, hz, e⟩ := h.loadable.good.hosted
    exact ⟨t, ht, z, (hzs z).mpr hz, e⟩
  · refine List.forall₂_iff_zip.mpr ⟨by simp, fun {a b} hab => ?_⟩
    rw [zip_unzip] at hab
    exact (List.forall₂_iff_zip.mp h.loadable.files).2 ((hmem _).mp hab)
  · exact fun es he => h.zones.soa es ((hess es).mp he)
  · exact fun rs hrs => h.zones.apex rs ((hrec rs).mp hrs)
  · have al : ∀ {n t}, Alias (allRecords (P.map (·.1)) (P.map (·.2))) n t → Alias (allRecords zs ess) n t := fun ha => Alias.mono (fun r => (hall r).mp) ha
    exact ⟨fun n t n' t' a b c => h.redirects.flat n t n' t' (al a) (al b) c, fun r hr => h.redirects.root r ((hall r).mp hr),
      fun r hr => h.redirects.owners r ((hall r).mp hr), fun r hr => h.redirects.targets r ((hall r).mp hr)⟩
  · exact fun u hu => ⟨(h.jobs u hu).1, (h.jobs u hu).2.1, fun r hr => (h.jobs u hu).2.2 r ((hall r).mp hr)⟩
  · rintro s (hs | ⟨x, hx, z, hz, hs⟩ | hs)
    · exact h.utf8 s (.inl hs)
    · injection hx with hx
      subst hx
      exact h.utf8 s (.inr (.inl ⟨l, hl, z, hp.mem_iff.mpr hz, hs⟩))
    · exact h.utf8 s (.inr (.inr hs))

/-- What is loaded is the same for the classes. -/
theorem sameZones {thr : Nat} {lint : Bool} {read : Str → Str} {exists_ : Str → Bool} {m m' : Meta} {us us' : List UJob} {tops : List Str}
    {zs zs' : List Listing} {ess ess' : List (List (Entry × Nat))} (h : GoodInput read exists_ m us tops zs ess)
    (h' : GoodInput read exists_ m' us' tops zs' ess') (hp : ∀ p, p ∈ zs.zip ess ↔ p ∈ zs'.zip ess') (hd : OneZoneEach zs ess) {d d' : Loaded}
    (h1 : setContext thr lint read exists_ m = .ok d) (h2 : setContext thr lint read exists_ m' = .ok d') : SameZones thr d d' := by
  have hd' : OneZoneEach zs' ess' := fun a ha b hb => hd a ((hp a).mpr ha) b ((hp b).mpr hb)
  obtain ⟨d1, xs, a1, a2, a3, a4, a5, -, a6, -⟩ := load_parts thr lint h.loadable
  obtain ⟨d2, xs', b1, b2, b3, b4, b5, -, -, -⟩ := load_parts thr lint h'.loadable
  rw [h1] at a1
  rw [h2] at b1
  injection a1 with a1
  injection b1 with b1
  subst a1 b1
  refine ⟨sameAnswers_of_reordered thr a4 a5 b4 b5 (reordered_of_perm hp) (singleZones_of h'.loadable.files hd'), xs, xs', a2, b2, ?_, fun r => ?_⟩
  · rw [a3]
    constructor
    · rintro n (rfl | ⟨r, hr, _, hk⟩) hl
      · cases hl
      · rcases hk with ⟨rest, e⟩ | ⟨ht, ⟨rest, e⟩⟩
        · have hl' : ['.'] ∈ r.name := by rw [e]; exact List.mem_append_left _ hl
          exact h.redirects.owners r hr hl'
        · have hl' : ['.'] ∈ stringToLabels r.rdata := by rw [e]; exact List.mem_append_left _ hl
          exact h.redirects.targets r hr ht hl'
    · rintro t ⟨r, hr, ht, e, -⟩
      exact h.redirects.root r hr ht e
  · rw [a3, b3]
    unfold allRecords
    rw [List.mem_flatten, List.mem_flatten, ← List.map_uncurry_zip_eq_zipWith, ← List.map_uncurry_zip_eq_zipWith]
    refine exists_congr fun rs => and_congr_left fun _ => ?_
    rw [List.mem_map, List.mem_map]
    exact exists_congr fun p => and_congr_left fun _ => hp p

/-! ### Disagreements about delegations -/

theorem pairsOf_mem {α : Type} {l : List α} {a b : α} (ha : a ∈ l) (hb : b ∈ l) : a = b ∨ (a, b) ∈ pairsOf l ∨ (b, a) ∈ pairsOf l := by
  induction l with
  | nil => cases ha
  | cons x l ih =>
    unfold pairsOf
    rcases List.mem_cons.mp ha with e | ha'
    · rcases List.mem_cons.mp hb with e' | hb'
      · exact .inl (e.trans e'.symm)
      · exact .inr (.inl (List.mem_append_left _ (List.mem_map.mpr ⟨b, hb', by rw [e]⟩)))
    · rcases List.mem_cons.mp hb with e' | hb'
      · exact .inr (.inr (List.mem_append_left _ (List.mem_map.mpr ⟨a, ha', by rw [e']⟩)))
      · rcases ih ha' hb' with h | h | h
        · exact .inl h
        · exact .inr (.inl (List.mem_append_right _ h))
        · exact .inr (.inr (List.mem_append_right _ h))

section

variable {w w' : World} {n : Name} {ids ids' : List Nat}

/-- Every zone of the one list is in the other. -/
def Covers (w w' : World) (ids ids' : List Nat) : Prop := ∀ id ∈ ids, ∃ id' ∈ ids', w.log id = w'.log id'

theorem Covers.child (h : Covers w w' ids ids') : Covers w w' (childZones w n ids) (childZones w' n ids') := by
  intro id hid
  obtain ⟨h1, h2⟩ := List.mem_filter.mp hid
  obtain ⟨id', h3, h4⟩ := h id h1
  exact ⟨id', List.mem_filter.mpr ⟨h3, by rw [← h4]; exact h2⟩, h4⟩

theorem Covers.outer (h : Covers w w' ids ids') : Covers w w' (outerZones w n ids) (outerZones w' n ids') := by
  intro id hid
  obtain ⟨h1, h2⟩ := List.mem_filter.mp hid
  obtain ⟨id', h3, h4⟩ := h id h1
  exact ⟨id', List.mem_filter.mpr ⟨h3, by rw [← h4]; exact h2⟩, h4⟩

theorem Covers.parent (h : Covers w w' ids ids') (hb : Covers w' w ids' ids) : Covers w w' (parentZones w n ids) (parentZones w' n ids') := by
  intro id hid
  obtain ⟨h1, h2⟩ := List.mem_filter.mp hid
  obtain ⟨id', h3, h4⟩ := h.outer id h1
  refine ⟨id', List.mem_filter.mpr ⟨h3, decide_eq_true fun j hj => ?_⟩, h4⟩
  obtain ⟨k, h5, h6⟩ := hb.outer j hj
  have := of_decide_eq_true h2 k h5
  unfold World.origin at this ⊢
  rw [h6, ← h4]
  exact this

theorem Covers.empty (h : Covers w w' ids ids') (hb : Covers w' w ids' ids) : childZones w n ids = [] ↔ childZones w' n ids' = [] := by
  constructor
  · intro e
    refine List.eq_nil_iff_forall_not_mem.mpr fun x hx => ?_
    obtain ⟨y, hy, -⟩ := hb.child (n := n) x hx
    rw [e] at hy; cases hy
  · intro e
    refine List.eq_nil_iff_forall_not_mem.mpr fun x hx => ?_
    obtain ⟨y, hy, -⟩ := h.child (n := n) x hx
    rw [e] at hy; cases hy

theorem addressesFor_congr {i i' : Nat} (e : w.log i = w'.log i') : addressesFor w n i = addressesFor w' n i' := by
  unfold addressesFor; rw [e]

theorem needsGlue_congr {i i' : Nat} (e : w.log i = w'.log i') : NeedsGlue w n i ↔ NeedsGlue w' n i' := by
  unfold NeedsGlue World.origin; rw [e]

theorem childGlue_congr {i i' : Nat} (e : w.log i = w'.log i') : childGlue w n i = childGlue w' n i' := by
  unfold childGlue
  rw [addressesFor_congr e]
  by_cases h : NeedsGlue w n i
  · rw [if_pos h, if_pos ((needsGlue_congr e).mp h)]
  · rw [if_neg h, if_neg (fun c => h ((needsGlue_congr e).mpr c))]

theorem parentGlue_congr (h : Covers w w' ids ids') (hb : Covers w' w ids' ids) {i i' : Nat} (e : w.log i = w'.log i') :
    parentGlue w n ids i = parentGlue w' n ids' i' := by
  unfold parentGlue
  rw [addressesFor_congr e]
  refine List.filter_congr fun r _ => ?_
  rw [Bool.decide_or, Bool.decide_or, decide_eq_decide.mpr (h.empty (n := n) hb)]

/-- If some comparison of the zones fails, some comparison fails after reordering. -/
theorem Covers.disagree (h : Covers w w' ids ids') (hb : Covers w' w ids' ids) (hc : ∃ c ∈ comparisons w n ids, ¬ c.Agrees) :
    ∃ c ∈ comparisons w' n ids', ¬ c.Agrees := by
  obtain ⟨c, hc, hd⟩ := hc
  unfold comparisons at hc ⊢
  rcases List.mem_append.mp hc with hc | hc
  · rcases List.mem_append.mp hc with hc | hc
    · obtain ⟨p, hp, hc⟩ := List.mem_flatMap.mp hc
      obtain ⟨k, hk, rfl⟩ := List.mem_map.mp hc
      obtain ⟨p', hp', e1⟩ := h.parent hb p hp
      obtain ⟨k', hk', e2⟩ := h.child k hk
      refine ⟨_, List.mem_append_left _ (List.mem_append_left _ (List.mem_flatMap.mpr ⟨p', hp', List.mem_map.mpr ⟨k', hk', rfl⟩⟩)), fun ha => hd ?_⟩
      unfold Comparison.Agrees at ha ⊢
      dsimp only at ha ⊢
      rw [e1, e2, parentGlue_congr h hb e1, addressesFor_congr e2]
      refine ⟨ha.1, fun g hg => ha.2 g ?_⟩
      by_cases hn : NeedsGlue w n k
      · rw [if_pos hn] at hg
        rw [if_pos ((needsGlue_congr e2).mp hn)]
        exact hg
      · rw [if_neg hn] at hg; cases hg
    · obtain ⟨x, hx, rfl⟩ := List.mem_map.mp hc
      obtain ⟨hx1, hx2⟩ := mem_pairsOf hx
      obtain ⟨a, ha, e1⟩ := h.parent hb _ hx1
      obtain ⟨b, hb', e2⟩ := h.parent hb _ hx2
      unfold Comparison.Agrees at hd
      dsimp only at hd
      rw [e1, e2, parentGlue_congr h hb e1, parentGlue_congr h hb e2] at hd
      rcases pairsOf_mem ha hb' with rfl | hm | hm
      · exact absurd ⟨List.Perm.refl _, fun g hg => by cases hg; exact List.Perm.refl _⟩ hd
      · exact ⟨_, List.mem_append_left _ (List.mem_append_right _ (List.mem_map.mpr ⟨_, hm, rfl⟩)), hd⟩
      · refine ⟨_, List.mem_append_left _ (List.mem_append_right _ (List.mem_map.mpr ⟨_, hm, rfl⟩)), fun hg => hd ?_⟩
        exact ⟨hg.1.symm, fun g hgg => by cases hgg; exact (hg.2 _ rfl).symm⟩
  · obtain ⟨x, hx, rfl⟩ := List.mem_map.mp hc
    obtain ⟨hx1, hx2⟩ := mem_pairsOf hx
    obtain ⟨a, ha, e1⟩ := h.child _ hx1
    obtain ⟨b, hb', e2⟩ := h.child _ hx2
    unfold Comparison.Agrees at hd
    dsimp only at hd
    rw [e1, e2, childGlue_congr e1, childGlue_congr e2] at hd
    rcases pairsOf_mem ha hb' with rfl | hm | hm
    · exact absurd ⟨List.Perm.refl _, fun g hg => by cases hg; exact List.Perm.refl _⟩ hd
    · exact ⟨_, List.mem_append_right _ (List.mem_map.mpr ⟨_, hm, rfl⟩), hd⟩
    · refine ⟨_, List.mem_append_right _ (List.mem_map.mpr ⟨_, hm, rfl⟩), fun hg => hd ?_⟩
      exact ⟨hg.1.symm, fun g hgg => by cases hgg; exact (hg.2 _ rfl).symm⟩

end

theorem covers_holding {tops : List Str} {zs zs' : List Listing} {ess ess' : List (List (Entry × Nat))} (hp : ∀ p, p ∈ zs.zip ess ↔ p ∈ zs'.zip ess') (n : Name) :
    Covers (worldOf tops zs ess) (worldOf tops zs' ess') (holding (worldOf tops zs ess) n) (holding (worldOf tops zs' ess') n) := by
  intro id hid
  obtain ⟨⟨i, rs⟩, h1, rfl⟩ := List.mem_map.mp hid
  obtain ⟨h1, h2⟩ := List.mem_filter.mp h1
  obtain ⟨⟨i', s, rs'⟩, h3, e⟩ := List.mem_map.mp h1
  injection e with e1 e2
  dsimp only at e1 e2
  subst e1 e2
  obtain ⟨p, a1, a2⟩ := mem_sites.mp ⟨_, h3⟩
  obtain ⟨j, h4⟩ := mem_sites.mpr (⟨p, (hp p).mp a1, a2⟩ : ∃ p ∈ zs'.zip ess', HasSOA p.2 ∧ s = toLower p.1.2.1 ∧ rs' = p.1.records p.2)
  refine ⟨j, List.mem_map.mpr ⟨(j, rs'), List.mem_filter.mpr ⟨List.mem_map.mpr ⟨_, h4, rfl⟩, h2⟩, rfl⟩, ?_⟩
  rw [worldOf_site h3, worldOf_site h4]

theorem unsettled_of_perm {tops : List Str} {zs zs' : List Listing} {ess ess' : List (List (Entry × Nat))} (hp : ∀ p, p ∈ zs.zip ess ↔ p ∈ zs'.zip ess')
    {n : Name} (h : DelegationUnsettled (worldOf tops zs ess) n) : DelegationUnsettled (worldOf tops zs' ess') n := by
  obtain ⟨⟨id, r, hr, h1⟩, h2⟩ := h
  constructor
  · have hr' := hr
    unfold World.log at hr'
    cases hl : (worldOf tops zs ess).zones.lookup id with
    | none => rw [hl] at hr'; simp [stored] at hr'
    | some rs =>
      obtain ⟨⟨i', s, rs'⟩, h3, e⟩ := List.mem_map.mp (mem_of_lookup hl)
      injection e with e1 e2
      dsimp only at e1 e2
      subst e1 e2
      obtain ⟨p, a1, a2⟩ := mem_sites.mp ⟨_, h3⟩
      obtain ⟨j, h4⟩ := mem_sites.mpr (⟨p, (hp p).mp a1, a2⟩ : ∃ p ∈ zs'.zip ess', HasSOA p.2 ∧ s = toLower p.1.2.1 ∧ rs' = p.1.records p.2)
      rw [worldOf_site h3] at hr
      exact ⟨j, r, by rw [worldOf_site h4]; exact hr, h1⟩
  · obtain ⟨c, hc⟩ := List.exists_mem_of_ne_nil _ h2
    obtain ⟨c1, c2⟩ := List.mem_filter.mp hc
    obtain ⟨c', d1, d2⟩ := (covers_holding hp n).disagree (covers_holding (fun p => (hp p).symm) n) ⟨c, c1, of_decide_eq_true c2⟩
    exact List.ne_nil_of_mem (List.mem_filter.mpr ⟨d1, decide_eq_true d2⟩)

/-! ### The output files -/

section

variable {ord : List Str → List Str} {thr : Nat} {lint : Bool} {read : Str → Str} {exists_ : Str → Bool} {jm jm' jj : JVal} {m m' : Meta}
  {us : List UJob} {tops : List Str} {zs zs' : List Listing} {ess ess' : List (List (Entry × Nat))} {l l' : List UZone}

/-- The objects of two files that give account of the jobs, the files in different orders. -/
theorem objects_of_told (h : GoodInput read exists_ m us tops zs ess) (h' : GoodInput read exists_ m' us tops zs' ess')
    (hp : ∀ p, p ∈ zs.zip ess ↔ p ∈ zs'.zip ess') (hone : OneZoneEach zs ess) {d d' : Loaded} (hd : setContext thr lint read exists_ m = .ok d)
    (hd' : setContext thr lint read exists_ m' = .ok d') {fuel : Nat} {out out' : List Violation} (ht : Told fuel thr d us out)
    (ht' : Told fuel thr d' us out') {js js' : List Json} (k1 : ∀ j ∈ js, ∃ v ∈ out, (leaves j).Perm (entries ord v))
    (k2 : ∀ v ∈ out', ∃ j ∈ js', (leaves j).Perm (entries ord v)) : ∀ j ∈ js, (∃ j' ∈ js', SameObject ord j j') ∨
      (SomeStructural us ∧ ∃ n, TellsOf n ord j ∧ ∃ j' ∈ js', TellsOf n ord j') := by
  intro j hj
  obtain ⟨v, hv, e⟩ := k1 j hj
  rcases (sameZones h h' hp hone hd hd').told ht ht' v hv with ⟨shown, ps, rfl⟩ | ⟨v', hv', hs⟩
  · right
    obtain ⟨rs, a1, a2, a3, -⟩ := ht
    obtain ⟨rs', b1, b2, -, b4⟩ := ht'
    obtain ⟨l, hl, hc⟩ := a3 _ hv
    obtain ⟨r, hr, rfl⟩ := List.mem_map.mp hl
    obtain ⟨i, hi⟩ := List.mem_iff_getElem?.mp hr
    have hlt : i < rs'.length := by rw [b1, ← a1]; exact (List.getElem?_eq_some_iff.mp hi).1
    obtain ⟨u, job, lg, c1, c2, c3⟩ := a2 i r hi
    obtain ⟨u', job', lg', d1, d2, d3⟩ := b2 i _ (List.getElem?_eq_getElem hlt)
    rw [c1] at d1
    injection d1 with d1
    subst d1
    rw [c2] at d2
    injection d2 with d2
    subst d2
    have hu := List.mem_of_getElem? c1
    have hj := (C57_job _ _ _).mp c2
    cases hc with
    | direct _ hv _ =>
      obtain ⟨f1, f2, f3, n, f4, f5, f6, f7⟩ := (structural_of_run h hd hu hj c3 _ _).mp hv
      have f6' := unsettled_of_perm hp f6
      have hin : unsettledReport (worldOf tops zs' ess') zs' n ∈ rs'[i].2 :=
        (structural_of_run h' hd' hu hj d3 _ _).mpr ⟨f1, f2, f3, n, f4, f5, f6', rfl⟩
      obtain ⟨v', hv', hs⟩ := b4 rs'[i].2 (List.mem_map.mpr ⟨_, List.getElem_mem hlt, rfl⟩) _ (.direct _ hin trivial)
      cases hs with
      | refl =>
        obtain ⟨j', hj', e'⟩ := k2 _ hv'
        unfold unsettledReport at f7
        injection f7 with f7 f8
        exact ⟨some_of_take f1, n, ⟨ps, by rw [← f7]; exact e⟩, j', hj', _, e'⟩
  · left
    obtain ⟨j', hj', e'⟩ := k2 v' hv'
    exact ⟨j', hj', v, v', hs, e, e'⟩

/-- The same input with the zone files listed in another order. -/
theorem relisted (h : GoodInput read exists_ m us tops zs ess) (hl : m.zoneFiles = some l) (hl' : m'.zoneFiles = some l')
    (htop : m'.topNameServers = m.topNameServers) (hp : l.Perm l') :
    ∃ zs' ess', (zs.zip ess).Perm (zs'.zip ess') ∧ GoodInput read exists_ m' us tops zs' ess' := by
  have : m' = { m with zoneFiles := some l' } := by
    cases m; cases m'
    dsimp only at hl' htop
    subst hl' htop
    rfl
  rw [this]
  exact relist h hl hp

/-- The two runs, in turn or with threads, and what is in their output files. -/
theorem told_texts (hord : ∀ l, (ord l).Perm l) (hm : MetaOf jm m) (hus : JobsOf jj us) (h : GoodInput read exists_ m us tops zs ess) :
    ∃ N d, setContext thr lint read exists_ m = .ok d ∧ ∀ fuel, N ≤ fuel → ∀ text,
      Leaves ord fuel thr lint read exists_ jm jj text →
      ∃ out js, Told fuel thr d us out ∧ JsonText.parse text = some (.arr js) ∧ js.Nodup ∧ (∀ v ∈ out, ∃ j ∈ js, (leaves j).Perm (entries ord v)) ∧
        ∀ j ∈ js, ∃ v ∈ out, (leaves j).Perm (entries ord v) := by
  obtain ⟨N, d, t, h1, h2⟩ := threaded_parts hord thr lint h.loadable h.zones h.redirects (fun u hu => ⟨(h.jobs u hu).1, (h.jobs u hu).2.1⟩)
    (fun u hu => (h.jobs u hu).2.2) h.utf8
  refine ⟨N, d, h1, fun fuel hf text ht => ?_⟩
  obtain ⟨k1, -, h3⟩ := h2 fuel hf
  rcases ht with ⟨whole, ht⟩ | ⟨f, hp, rfl⟩
  · obtain ⟨d', out, g1, g2, g3⟩ := (threaded_of hm hus).mp ht
    rw [h1] at g1
    injection g1 with g1
    subst g1
    obtain ⟨-, -, a3, a4, -⟩ := h3 out g2
    have hw : whole = true := by rwa [g3] at a4
    subst hw
    obtain ⟨js, b1, b2, b3, b4⟩ := written hord a3 g3
    exact ⟨out, js, told_threads h k1 h1 g2, b1, b2, b3, b4⟩
  · obtain ⟨-, -, t', js, h4, h5, h6, h7, h8⟩ := C77_utf8_output ord hord fuel thr lint read exists_ m (some us) h.utf8 f (program_of_values hm hus hp)
    rw [k1] at h4
    injection h4 with h4
    subst h4
    exact ⟨t.violations, js, told_in_turn k1 h1, h5, h6, h7, h8⟩

/-- **C97** The order in which the zone files are listed does not matter: the objects of the output files are the same, but for those that tell of a
disagreement about a delegation, which are about the same names. -/
theorem C97_same (hord : ∀ l, (ord l).Perm l) (hm : MetaOf jm m) (hm' : MetaOf jm' m') (hus : JobsOf jj us)
    (h : GoodInput read exists_ m us tops zs ess) (hone : OneZoneEach zs ess) (hl : m.zoneFiles = some l) (hl' : m'.zoneFiles = some l')
    (htop : m'.topNameServers = m.topNameServers) (hp : l.Perm l') :
    ∃ N, ∀ fuel, N ≤ fuel → ∀ text text', Leaves ord fuel thr lint read exists_ jm jj text → Leaves ord fuel thr lint read exists_ jm' jj text' →
      ∃ js js', JsonText.parse text = some (.arr js) ∧ JsonText.parse text' = some (.arr js') ∧ js.Nodup ∧ js'.Nodup ∧
        (∀ j ∈ js, (∃ j' ∈ js', SameObject ord j j') ∨ (SomeStructural us ∧ ∃ n, TellsOf n ord j ∧ ∃ j' ∈ js', TellsOf n ord j')) ∧
        ∀ j' ∈ js', (∃ j ∈ js, SameObject ord j j') ∨ (SomeStructural us ∧ ∃ n, TellsOf n ord j' ∧ ∃ j ∈ js, TellsOf n ord j) := by
  obtain ⟨zs', ess', hperm, h'⟩ := relisted h hl hl' htop hp
  obtain ⟨N, d, a1, a2⟩ := told_texts (thr := thr) (lint := lint) hord hm hus h
  obtain ⟨N', d', b1, b2⟩ := told_texts (thr := thr) (lint := lint) hord hm' hus h'
  refine ⟨max N N', fun fuel hf text text' ht ht' => ?_⟩
  obtain ⟨out, js, c1, c2, c3, c4, c5⟩ := a2 fuel (by omega) text ht
  obtain ⟨out', js', e1, e2, e3, e4, e5⟩ := b2 fuel (by omega) text' ht'
  have hpm : ∀ p, p ∈ zs.zip ess ↔ p ∈ zs'.zip ess' := fun p => hperm.mem_iff
  have hone' : OneZoneEach zs' ess' := fun a ha b hb => hone a ((hpm a).mpr ha) b ((hpm b).mpr hb)
  refine ⟨js, js', c2, e2, c3, e3, objects_of_told h h' hpm hone a1 b1 c1 e1 c5 e4, fun j hj => ?_⟩
  rcases objects_of_told h' h (fun p => (hpm p).symm) hone' b1 a1 e1 c1 e5 c4 j hj with ⟨j', hj', v, v', hs, x, y⟩ | hq
  · exact .inl ⟨j', hj', v', v, hs.symm, y, x⟩
  · exact .inr hq

/-- **C97** If no job asks for the structural check, nothing depends on the order. -/
theorem C97_without_structural (hord : ∀ l, (ord l).Perm l) (hm : MetaOf jm m) (hm' : MetaOf jm' m') (hus : JobsOf jj us)
    (h : GoodInput read exists_ m us tops zs ess) (hone : OneZoneEach zs ess) (hl : m.zoneFiles = some l) (hl' : m'.zoneFiles = some l')
    (htop : m'.topNameServers = m.topNameServers) (hp : l.Perm l') (hns : ¬ SomeStructural us) :
    ∃ N, ∀ fuel, N ≤ fuel → ∀ text text', Leaves ord fuel thr lint read exists_ jm jj text → Leaves ord fuel thr lint read exists_ jm' jj text' →
      ∃ js js', JsonText.parse text = some (.arr js) ∧ JsonText.parse text' = some (.arr js') ∧
        (∀ j ∈ js, ∃ j' ∈ js', SameObject ord j j') ∧ ∀ j' ∈ js', ∃ j ∈ js, SameObject ord j j' := by
  obtain ⟨N, hN⟩ := C97_same (thr := thr) (lint := lint) hord hm hm' hus h hone hl hl' htop hp
  refine ⟨N, fun fuel hf text text' ht ht' => ?_⟩
  obtain ⟨js, js', h1, h2, -, -, h3, h4⟩ := hN fuel hf text text' ht ht'
  exact ⟨js, js', h1, h2, fun j hj => (h3 j hj).resolve_right (fun c => hns c.1), fun j hj => (h4 j hj).resolve_right (fun c => hns c.1)⟩

/-- **C97** With the files in the other order the program gets to its end as well, in turn and with its threads. -/
theorem C97_ends (hord : ∀ l, (ord l).Perm l) (hm' : MetaOf jm' m') (hus : JobsOf jj us)
    (h : GoodInput read exists_ m us tops zs ess) (hl : m.zoneFiles = some l) (hl' : m'.zoneFiles = some l')
    (htop : m'.topNameServers = m.topNameServers) (hp : l.Perm l') :
    ∃ N, ∀ fuel, N ≤ fuel → (∃ f, programJ ord fuel thr lint read exists_ jm' (some jj) = .ok f ∧ f.finished = true) ∧
      ∃ text, Threaded ord fuel thr lint read exists_ jm' jj text true := by
  obtain ⟨zs', ess', -, h'⟩ := relisted h hl hl' htop hp
  obtain ⟨N, f, h1, h2⟩ := C90_ends (thr := thr) (lint := lint) hord hm' hus h'
  obtain ⟨N', h3⟩ := C90_threads_end (thr := thr) (lint := lint) hord hm' hus h'
  exact ⟨max N N', fun fuel hf => ⟨⟨f, h1 fuel (by omega), h2⟩, (h3 fuel (by omega)).1⟩⟩

end

/-! ### Runs -/

private def k (s : String) (v : JVal) : Str × JVal := (s.toList, v)
private def t (s : String) : JVal := .str s.toList

/-- The two files of C91's sample in the other order. -/
def splitMetaBack : Meta := ⟨some ["NS.x.".toList], some [⟨some "c".toList, some "n1.s.X.".toList, some "s.x.".toList⟩,
  ⟨some "p".toList, some "NS.x.".toList, some "X.".toList⟩]⟩

def splitMetaBackJ : JVal := .obj [k "TopNameServers" (.arr [t "NS.x."]), k "ZoneFiles" (.arr [
  .obj [k "FileName" (t "c"), k "NameServer" (t "n1.s.X."), k "Origin" (t "s.x.")],
  .obj [k "FileName" (t "p"), k "NameServer" (t "NS.x."), k "Origin" (t "X.")]])]

theorem splitMetaBackJ_of : MetaOf splitMetaBackJ splitMetaBack where
  top := ⟨_, ["NS.x.".toList], ⟨_, rfl, rfl⟩, .array _, rfl⟩
  files := ⟨_, _, _, ⟨_, rfl, rfl⟩, .array _,
    .cons ⟨⟨_, ⟨_, rfl, rfl⟩, rfl⟩, ⟨_, ⟨_, rfl, rfl⟩, rfl⟩, .inr ⟨_, ⟨_, rfl, rfl⟩, rfl⟩⟩
      (.cons ⟨⟨_, ⟨_, rfl, rfl⟩, rfl⟩, ⟨_, ⟨_, rfl, rfl⟩, rfl⟩, .inr ⟨_, ⟨_, rfl, rfl⟩, rfl⟩⟩ .nil), rfl⟩

theorem split_single : OneZoneEach splitListing [parentEntries, childEntries] := by
  unfold OneZoneEach; decide +kernel

/-- The hypotheses of the theorems are met by the sample, in which a disagreement is reported; and the files are left. -/
example : ∃ fuel text text' js js', Leaves id fuel 500 true splitRead (fun _ => true) splitMetaJ (.arr [splitJobJ]) text ∧
    Leaves id fuel 500 true splitRead (fun _ => true) splitMetaBackJ (.arr [splitJobJ]) text' ∧ JsonText.parse text = some (.arr js) ∧
    JsonText.parse text' = some (.arr js') ∧ ∀ j ∈ js, (∃ j' ∈ js', SameObject id j j') ∨
      (SomeStructural [splitUJob] ∧ ∃ n, TellsOf n id j ∧ ∃ j' ∈ js', TellsOf n id j') := by
  have hp : List.Perm [(⟨some "p".toList, some "NS.x.".toList, some "X.".toList⟩ : UZone), ⟨some "c".toList, some "n1.s.X.".toList, some "s.x.".toList⟩]
    [⟨some "c".toList, some "n1.s.X.".toList, some "s.x.".toList⟩, ⟨some "p".toList, some "NS.x.".toList, some "X.".toList⟩] := .swap _ _ _
  obtain ⟨N, h1⟩ := C97_same (ord := id) (thr := 500) (lint := true) (fun _ => .refl _) splitMetaJ_of splitMetaBackJ_of splitJobJ_of split_sane split_single
    rfl rfl rfl hp
  obtain ⟨N1, f, h2, -⟩ := C90_ends (ord := id) (thr := 500) (lint := true) (fun _ => .refl _) splitMetaJ_of splitJobJ_of split_sane
  obtain ⟨N2, h3⟩ := C97_ends (ord := id) (thr := 500) (lint := true) (fun _ => .refl _) splitMetaBackJ_of splitJobJ_of split_sane rfl rfl rfl hp
  obtain ⟨-, text', ht'⟩ := h3 (max N (max N1 N2)) (by omega)
  have ht : Leaves id (max N (max N1 N2)) 500 true splitRead (fun _ => true) splitMetaJ (.arr [splitJobJ]) f.output := .inr ⟨f, h2 _ (by omega), rfl⟩
  have ht' : Leaves id (max N (max N1 N2)) 500 true splitRead (fun _ => true) splitMetaBackJ (.arr [splitJobJ]) text' := .inl ⟨_, ht'⟩
  obtain ⟨js, js', g1, g2, -, -, g3, -⟩ := h1 _ (by omega) _ _ ht ht'
  exact ⟨_, _, _, js, js', ht, ht', g1, g2, g3⟩

/-- Two files of one server, both for the origin `x`, that say different things about `w.x`. -/
def rivalRead (f : Str) : Str := if f = "p".toList then "@ SOA n1 h 1\nw CNAME v\nv A 1.1.1.1\n".toList else "@ SOA n1 h 1\nw A 1.1.1.1\n".toList

def rivalMetaJ (f g : String) : JVal := .obj [k "TopNameServers" (.arr [t "NS.x."]), k "ZoneFiles" (.arr [
  .obj [k "FileName" (t f), k "NameServer" (t "NS.x."), k "Origin" (t "X.")],
  .obj [k "FileName" (t g), k "NameServer" (t "NS.x."), k "Origin" (t "X.")]])]

/-- At most no rewriting at `w.x`. -/
def rivalJobJ : JVal := .obj [k "Domain" (t "w.x"), k "Properties" (.arr [
  .obj [k "PropertyName" (t "Rewrites"), k "Types" (.arr [t "A"]), k "Value" (.int 0)]]), k "SubDomain" (.bool false)]

/-- **C97** (disagreement) If two files of one server are for the same origin, the order matters: the first one listed is asked, and the other one is
never looked at. -/
theorem C97_disagreement_same_origin :
    (∃ f, programJ id 300 500 true rivalRead (fun _ => true) (rivalMetaJ "p" "q") (some (.arr [rivalJobJ])) = .ok f ∧
      (JsonText.parse f.output).map (fun j => match j with | .arr l => l.length | _ => 0) = some 1) ∧
    ∃ f, programJ id 300 500 true rivalRead (fun _ => true) (rivalMetaJ "q" "p") (some (.arr [rivalJobJ])) = .ok f ∧
      JsonText.parse f.output = some (.arr []) :=
  ⟨files_of_check (by decide +kernel), files_of_check (by decide +kernel)⟩

end Groot
