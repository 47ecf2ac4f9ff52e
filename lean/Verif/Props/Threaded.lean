import Verif.Spec.Threaded
import Verif.Props.Whole
import Verif.Props.Text

/-!
# C90: the program with its threads, from the input files to the output file
-/

namespace Groot

open Spec Driver

/-! ### Loading -/

theorem sitesFrom_full {k : Nat} {zs : List Listing} {ess : List (List (Entry × Nat))} (hl : zs.length = ess.length) (h : ∀ es ∈ ess, HasSOA es) :
    (sitesFrom k zs ess).length = zs.length := by
  induction zs generalizing k ess with
  | nil => simp [sitesFrom]
  | cons z zs ih =>
    cases ess with
    | nil => cases hl
    | cons es ess =>
      unfold sitesFrom
      rw [if_pos (h es (by simp)), List.length_append, ih (by simpa using hl) (fun e he => h e (by simp [he]))]
      simp only [List.length_cons, List.length_nil]
      omega

theorem sitesFrom_zone {k : Nat} {zs : List Listing} {ess : List (List (Entry × Nat))} {x : Nat × Str × List RR} (h : x ∈ sitesFrom k zs ess) :
    x.2.2 ∈ List.zipWith Listing.records zs ess := by
  induction zs generalizing k ess with
  | nil => simp [sitesFrom] at h
  | cons z zs ih =>
    cases ess with
    | nil => simp [sitesFrom] at h
    | cons es ess =>
      unfold sitesFrom at h
      rw [List.zipWith_cons_cons]
      rcases List.mem_append.mp h with h | h
      · split at h
        · rw [List.mem_singleton.mp h]; exact List.mem_cons_self
        · cases h
      · exact List.mem_cons_of_mem _ (ih h)

theorem worldOf_zone {tops : List Str} {zs : List Listing} {ess : List (List (Entry × Nat))} {id : Nat} {r : RR} (h : r ∈ (worldOf tops zs ess).log id) :
    ∃ rs ∈ List.zipWith Listing.records zs ess, ∀ s ∈ (worldOf tops zs ess).log id, s ∈ rs := by
  unfold World.log at h ⊢
  cases hl : (worldOf tops zs ess).zones.lookup id with
  | none => rw [hl] at h; simp [stored] at h
  | some rs =>
    obtain ⟨x, hx, e⟩ := List.mem_map.mp (mem_of_lookup hl)
    injection e with e1 e2
    refine ⟨rs, e2 ▸ sitesFrom_zone hx, fun s hs => stored_subset _ _ hs⟩

/-- What is loaded from files each of which is a zone. -/
theorem load_zones (thr : Nat) (lint : Bool) {read : Str → Str} {exists_ : Str → Bool} {m : Meta} {tops : List Str} {zs : List Listing}
    {ess : List (List (Entry × Nat))} (h : Loadable read exists_ m tops zs ess) (hz : EachZone zs ess) (hn : Redirects (allRecords zs ess)) {d : Loaded}
    (hd : setContext thr lint read exists_ m = .ok d) :
    d.ctx.zones.length = d.ctx.counter ∧ Tidy d.ctx ∧ (∀ p ∈ d.ctx.zones, ∀ r ∈ heldBy p.2, r ∈ allRecords zs ess ∧ r.type ≠ .N) := by
  obtain ⟨d', xs, h1, h2, h3, h4, h5, h6, h7, -⟩ := load_parts thr lint h
  rw [hd] at h1
  injection h1 with h1
  subst h1
  have held := fun {p : Nat × Zone} (hp : p ∈ d.ctx.zones) => (log_of_held h4 (worldOf_increasing tops zs ess) hp).1
  have hrec : ∀ p ∈ d.ctx.zones, ∀ r ∈ heldBy p.2, r ∈ allRecords zs ess := fun p hp r hr => worldOf_log ((held hp r).mp hr)
  refine ⟨?_, ⟨?_, ?_, ?_⟩, fun p hp r hr => ⟨hrec p hp r hr, (h7 r (hrec p hp r hr)).2.1⟩⟩
  · obtain ⟨w, ys, -, -, -, -, g1, -⟩ := C64_loaded thr lint read exists_ m d hd
    obtain ⟨-, -, t, zones, e1, e2⟩ := h4
    rw [g1, e1, List.length_map, e2.length_eq]
    show ((sitesFrom 1 zs ess).map _).length = _
    rw [List.length_map, sitesFrom_full h.files.length_eq hz.soa]
    unfold filesOf
    rw [h.good.entries]
    simp
  · exact fun p hp r hr => hn.owners r (hrec p hp r hr)
  · exact fun p hp r hr ht => ⟨hn.targets r (hrec p hp r hr) ht, hn.root r (hrec p hp r hr) ht⟩
  · intro p hp r hr s hs e1 e2
    obtain ⟨rs, a1, a2⟩ := worldOf_zone ((held hp r).mp hr)
    exact hz.apex rs a1 r (a2 r ((held hp r).mp hr)) s (a2 s ((held hp s).mp hs)) e1 e2

/-- The program gets to its end, in turn. -/
theorem ends_in_turn (thr : Nat) (lint : Bool) {read : Str → Str} {exists_ : Str → Bool} {m : Meta} {tops : List Str} {zs : List Listing}
    {ess : List (List (Entry × Nat))} (h : Loadable read exists_ m tops zs ess) (hz : EachZone zs ess) (hn : Redirects (allRecords zs ess))
    {us : List UJob} (hu : ∀ u ∈ us, Acceptable u ∧ AsksType u) :
    ∃ N t, ∀ fuel, N ≤ fuel → main fuel thr lint read exists_ m (some us) = .ok t := by
  obtain ⟨d, xs, h1, -⟩ := load_parts thr lint h
  obtain ⟨hall, ht, hN⟩ := load_zones thr lint h hz hn h1
  obtain ⟨w, ys, g1, g2, g3, g4, -⟩ := C64_loaded thr lint read exists_ m d h1
  have htop : ∀ s ∈ m.topNameServers.getD [], s ≠ [] := by rw [h.good.top]; exact h.top
  have hs : ∀ id, Supported (w.log id) := by
    intro id r hr
    obtain ⟨p, hp, -, hr⟩ := held_of_log g1 hr
    exact (hN p hp r hr).2
  obtain ⟨f1, f2, f3, f4, f5, f6, f7⟩ := facts_of h1 htop hall g1 g2 g3 g4 hs
  exact main_ends h1 (fun _ _ _ hj hnum hty => ends_of f1 f2 f3 f4 f5 f6 f7 hj hnum hty ht) us hu

/-! ### Threads -/

theorem Spec.SameUpToOrder.trans {a b c : Violation} (h : SameUpToOrder a b) (h' : SameUpToOrder b c) : SameUpToOrder a c := by
  cases h with
  | refl => exact h'
  | groups g g' h =>
    generalize e : Violation.allAliases g' = b at h'
    cases h' with
    | refl => subst e; exact .groups _ _ h
    | groups g1 g2 h' => injection e with e; subst e; exact .groups _ _ (h.trans h')

theorem schedule_runs {fuel thr thr' : Nat} {d : Loaded} {xs : List (RR × Nat × Nat)} (hd : d.lg = labelGraph thr' xs) (us pre : List UJob) (job : Job)
    (hka : ∀ u ∈ us, ∀ req : LGraph.Req, req.domain = toLower u.domain → OnExisting xs req → ∃ es, Disjoint thr' xs req es)
    (t t' : Totals) (hp : job.structural = decide (SomeStructural pre)) (h : jobLoop fuel thr d.ctx d.lg job t us = .ok t') {vs out : List Violation}
    (ho : Schedules fuel thr d.ctx d.lg job vs us out) :
    ∃ (rs : List (List Task × List Violation)) (is : List (List Violation)), rs.length = us.length ∧
      (∀ i r, rs[i]? = some r → Alone fuel thr d (pre ++ us) (pre.length + i) r.1 r.2) ∧
      out = is.foldl collect vs ∧ List.Forall₂ (fun l r => l.Perm r.2) is rs := by
  induction us generalizing pre job t vs with
  | nil =>
    cases ho
    exact ⟨[], [], rfl, by simp, rfl, .nil⟩
  | cons u us ih =>
    unfold jobLoop at h
    obtain ⟨j, h1, h⟩ := bind_ok_iff.mp h
    obtain ⟨r, h2, h⟩ := bind_ok_iff.mp h
    unfold runJob at h2
    obtain ⟨x, h3, h2⟩ := bind_ok_iff.mp h2
    injection h2 with h2
    subst h2
    have hx : x.1 = d.lg := by rw [hd] at h3 ⊢; exact runSequential_graph h3
    dsimp only at h
    rw [hx] at h
    obtain ⟨j0, h4, h5⟩ := setJob_history hp h1
    cases ho with
    | job _ lg' _ job' _ items _ _ _ hj ht hrest =>
    rw [h1] at hj
    injection hj with hj
    subst hj
    obtain ⟨lg, ts, v⟩ := x
    dsimp only at hx
    subst hx
    have hit : items.Perm v ∧ lg' = d.lg := by
      rw [hd] at ht h3 ⊢
      exact threads_items ht (fun he => hka u (by simp) (req j) ((C57_job _ _ _).mp h1).domain he) h3
    rw [hit.2] at hrest
    obtain ⟨rs, is, e1, e2, e3, e4⟩ := ih (pre ++ [u]) j (fun w hw => hka w (by simp [hw])) _ (by rw [h5]) h hrest
    refine ⟨(ts, v) :: rs, items :: is, by simp [e1], ?_, by rw [e3]; rfl, .cons hit.1 e4⟩
    intro i r hr
    cases i with
    | zero =>
      simp only [List.getElem?_cons_zero, Option.some.injEq] at hr
      subst hr
      refine ⟨u, j0, d.lg, by simp, h4, ?_⟩
      have : (pre ++ u :: us).take (pre.length + 0 + 1) = pre ++ [u] := by
        rw [Nat.add_zero, List.take_append]; simp
      rw [this, ← h5, h3]
    | succ i =>
      have := e2 i r hr
      simp only [List.append_assoc, List.singleton_append, List.length_append, List.length_singleton] at this
      rwa [show pre.length + (i + 1) = pre.length + 1 + i by omega]

/-- The file is written whole, and its objects are those of the violations. -/
theorem written {ord : List Str → List Str} (hord : ∀ l, (ord l).Perm l) {out : List Violation} (hr : ∀ v ∈ out, RolesOk v) {text : Str}
    (h : writeViolations ord out = (text, true)) :
    ∃ js, JsonText.parse text = some (.arr js) ∧ js.Nodup ∧ (∀ v ∈ out, ∃ j ∈ js, (leaves j).Perm (entries ord v)) ∧
      ∀ j ∈ js, ∃ v ∈ out, (leaves j).Perm (entries ord v) := by
  obtain ⟨s1, s2⟩ := violationSet_spec ord out
  have hc : ∀ j ∈ violationSet ord out, Json.textOk j = true := by
    by_contra hc
    have := (writeViolations_cut hc).1
    rw [h] at this
    cases this
  rw [writeViolations_done hc] at h
  injection h with h
  subst h
  refine ⟨_, Json.parse_list _, before_nodup s1, ?_, ?_⟩
  · intro v hv
    exact ⟨_, (s2 _).mpr ⟨v, hv, rfl⟩, C76_entries ord hord v (hr v hv)⟩
  · intro j hj
    obtain ⟨v, hv, rfl⟩ := (s2 j).mp hj
    exact ⟨v, hv, C76_entries ord hord v (hr v hv)⟩

theorem written_whole {ord : List Str → List Str} (hord : ∀ l, (ord l).Perm l) {out : List Violation} (hr : ∀ v ∈ out, RolesOk v)
    (ht : ∀ v ∈ out, TextEntries (entries ord v)) : (writeViolations ord out).2 = true := by
  obtain ⟨s1, s2⟩ := violationSet_spec ord out
  rw [writeViolations_done (fun j hj => ?_)]
  obtain ⟨v, hv, rfl⟩ := (s2 j).mp hj
  exact (Json.textOk_toJson ord hord v (hr v hv)).mpr (ht v hv)

theorem rolesOk_same {v v' : Violation} (h : SameUpToOrder v v') (hr : RolesOk v') : RolesOk v := by
  cases h with
  | refl => exact hr
  | groups => trivial

theorem clean_same {K : Str → Prop} {v v' : Violation} (h : SameUpToOrder v v') (hr : Clean K v') : Clean K v := by
  cases h with
  | refl => exact hr
  | groups g g' hp => exact fun x hx => hr x (hp.mem_iff.mp hx)

theorem producers_apart {thr : Nat} {xs : List (RR × Nat × Nat)} {rs : List RR} (hxs : ∀ x ∈ xs, x.1 ∈ rs) {us : List UJob} (ha : ∀ u ∈ us, NoneAbove rs u) :
    ∀ u ∈ us, ∀ req : LGraph.Req, req.domain = toLower u.domain → OnExisting xs req → ∃ es, Disjoint thr xs req es := by
  intro u hu rq hq _
  obtain ⟨e, he⟩ := C74_below_no_dname thr xs rq (by
    rintro p tg hp hne ⟨r, hr, ht, rfl, _⟩
    obtain ⟨x, hx, rfl⟩ := List.mem_map.mp hr
    rw [hq] at hp hne
    exact hne (ha u hu _ (hxs x hx) ht hp))
  exact ⟨[e], he⟩

/-- Everything about the program under its threads. -/
theorem threaded_parts {ord : List Str → List Str} (hord : ∀ l, (ord l).Perm l) (thr : Nat) (lint : Bool) {read : Str → Str} {exists_ : Str → Bool}
    {m : Meta} {us : List UJob} {tops : List Str} {zs : List Listing} {ess : List (List (Entry × Nat))} (hl : Loadable read exists_ m tops zs ess)
    (hz : EachZone zs ess) (hn : Redirects (allRecords zs ess)) (hu : ∀ u ∈ us, Acceptable u ∧ AsksType u) (ha : ∀ u ∈ us, NoneAbove (allRecords zs ess) u)
    (hin : ∀ s, OfInput read m (some us) s → Utf8 s) :
    ∃ N d t, setContext thr lint read exists_ m = .ok d ∧ ∀ fuel, N ≤ fuel → main fuel thr lint read exists_ m (some us) = .ok t ∧
      (∃ out, Schedules fuel thr d.ctx d.lg {} [] us out) ∧ ∀ out, Schedules fuel thr d.ctx d.lg {} [] us out →
        (∀ v ∈ out, ∃ v' ∈ t.violations, SameUpToOrder v v') ∧ (∀ v ∈ t.violations, ∃ v' ∈ out, SameUpToOrder v v') ∧
        (∀ v ∈ out, RolesOk v) ∧ (writeViolations ord out).2 = true ∧
        ∀ js, (∀ v ∈ out, ∃ j ∈ js, (leaves j).Perm (entries ord v)) → (∀ j ∈ js, ∃ v ∈ out, (leaves j).Perm (entries ord v)) →
          AccountAt ord fuel thr d us js := by
  obtain ⟨N, t, hmain⟩ := ends_in_turn thr lint hl hz hn hu
  obtain ⟨d, xs, h1, h2, h3, h4⟩ := load_redirecting thr lint hl hn
  have hka := producers_apart (thr := thr) (xs := xs) (rs := allRecords zs ess) (fun x hx => by rw [← h3]; exact List.mem_map_of_mem hx) ha
  refine ⟨N, d, t, h1, fun fuel hf => ⟨hmain fuel hf, ?_, fun out ho => ?_⟩⟩
  · rw [h2]
    exact C75_some_schedule fuel thr thr d.ctx xs us (fun u h => (hu u h).1) hka
  have hm := hmain fuel hf
  have hm' := hm
  rw [main_eq, h1, Res.ok_bind] at hm'
  unfold afterLoading at hm'
  dsimp only at hm'
  obtain ⟨g1, g2⟩ := C75_every_schedule fuel thr thr d.ctx xs us t (by rw [h2] at hm'; exact hm') hka out (by rw [h2] at ho; exact ho)
  have hr : ∀ v ∈ out, RolesOk v := fun v hv => by
    obtain ⟨v', hv', hs⟩ := g1 v hv
    exact rolesOk_same hs (main_roles hm v' hv')
  refine ⟨g1, g2, hr, written_whole hord hr (fun v hv => ?_), fun js k1 k2 => ?_⟩
  · obtain ⟨v', hv', hs⟩ := g1 v hv
    exact entries_has textLike_utf8 hord (clean_same hs (main_has textLike_utf8 hin hm v' hv'))
  · obtain ⟨rs, is, e1, e2, e3, e4⟩ := schedule_runs h2 us [] {} hka {} t (by simp [SomeStructural]) hm' ho
    have hrep : Reported is out := by rw [e3]; simpa using reported_foldl [] is [] reported_nil
    refine account_of e1 (fun i r hr => by simpa using e2 i r hr) (fun v hv => ?_) (fun l hl v hc => ?_) k1 k2
    · obtain ⟨l, hl, hc⟩ := hrep.sound v hv
      obtain ⟨r, hr, hp⟩ := forall₂_mem' e4 hl
      exact ⟨r.2, List.mem_map_of_mem hr, contributes_perm (fun v => hp.mem_iff) hc⟩
    · obtain ⟨r, hr, rfl⟩ := List.mem_map.mp hl
      obtain ⟨l', hl', hp⟩ := forall₂_mem e4 hr
      exact hrep.complete l' hl' v (contributes_perm (fun v => hp.mem_iff.symm) hc)

section

variable {ord : List Str → List Str} {thr : Nat} {lint : Bool} {read : Str → Str} {exists_ : Str → Bool} {jm jj : JVal} {m : Meta} {us : List UJob}
  {tops : List Str} {zs : List Listing} {ess : List (List (Entry × Nat))}

theorem threaded_of (hm : MetaOf jm m) (hus : JobsOf jj us) {fuel : Nat} {text : Str} {whole : Bool} :
    Threaded ord fuel thr lint read exists_ jm jj text whole ↔ ∃ d out, setContext thr lint read exists_ m = .ok d ∧
      Schedules fuel thr d.ctx d.lg {} [] us out ∧ writeViolations ord out = (text, whole) := by
  constructor
  · rintro ⟨m', us', d, out, h1, h2, h3⟩
    rw [(C78_unique jm).1 m m' hm h1, (C78_unique jj).2.2.2.2 us us' hus h2]
    exact ⟨d, out, h3⟩
  · rintro ⟨d, out, h⟩
    exact ⟨m, us, d, out, hm, hus, h⟩

/-- **C90** On good input the program ends when everything happens in turn, and writes complete files, always the same. -/
theorem C90_ends (hord : ∀ l, (ord l).Perm l) (hm : MetaOf jm m) (hus : JobsOf jj us) (h : GoodInput read exists_ m us tops zs ess) :
    ∃ N f, (∀ fuel, N ≤ fuel → programJ ord fuel thr lint read exists_ jm (some jj) = .ok f) ∧ f.finished = true := by
  obtain ⟨N, t, ht⟩ := ends_in_turn thr lint h.loadable h.zones h.redirects (fun u hu => ⟨(h.jobs u hu).1, (h.jobs u hu).2.1⟩)
  have hall : ∀ fuel, N ≤ fuel → ∃ f, program ord fuel thr lint read exists_ m (some us) = .ok f := fun fuel hf =>
    (C77_utf8_lint ord fuel thr lint read exists_ m (some us) h.utf8).mpr ⟨t, ht fuel hf⟩
  obtain ⟨f, hf⟩ := hall N (Nat.le_refl _)
  refine ⟨N, f, fun fuel hfuel => ?_, (C77_utf8_output ord hord N thr lint read exists_ m (some us) h.utf8 f hf).1⟩
  obtain ⟨f', hf'⟩ := hall fuel hfuel
  refine (C78_program ord fuel thr lint read exists_ jm (some jj) f).mpr ⟨m, some us, hm, hus, ?_⟩
  obtain ⟨d, glue, t1, a1, a2, -, a4, a5⟩ := main_ok_of_program hf
  obtain ⟨d', glue', t2, b1, b2, -, b4, b5⟩ := main_ok_of_program hf'
  rw [a1] at b1
  injection b1 with b1
  subst b1
  rw [a2] at b2
  injection b2 with b2
  subst b2
  rw [ht N (Nat.le_refl _)] at a4
  rw [ht fuel hfuel] at b4
  injection a4 with a4
  injection b4 with b4
  rw [hf', a5, b5, ← a4, ← b4]

/-- **C90** On good input the threads can get to the end, and whatever they do, the output file is written whole. -/
theorem C90_threads_end (hord : ∀ l, (ord l).Perm l) (hm : MetaOf jm m) (hus : JobsOf jj us) (h : GoodInput read exists_ m us tops zs ess) :
    ∃ N, ∀ fuel, N ≤ fuel → (∃ text, Threaded ord fuel thr lint read exists_ jm jj text true) ∧
      ∀ text whole, Threaded ord fuel thr lint read exists_ jm jj text whole → whole = true := by
  obtain ⟨N, d, t, h1, h2⟩ := threaded_parts hord thr lint h.loadable h.zones h.redirects (fun u hu => ⟨(h.jobs u hu).1, (h.jobs u hu).2.1⟩)
    (fun u hu => (h.jobs u hu).2.2) h.utf8
  refine ⟨N, fun fuel hf => ?_⟩
  obtain ⟨-, ⟨out, ho⟩, h3⟩ := h2 fuel hf
  constructor
  · refine ⟨(writeViolations ord out).1, (threaded_of hm hus).mpr ⟨d, out, h1, ho, ?_⟩⟩
    rw [← (h3 out ho).2.2.2.1]
  · intro text whole ht
    obtain ⟨d', out', g1, g2, g3⟩ := (threaded_of hm hus).mp ht
    rw [h1] at g1
    injection g1 with g1
    subst g1
    have := (h3 out' g2).2.2.2.1
    rwa [g3] at this

/-- **C90** The schedule does not matter: whatever the threads do, the output file has the same objects as when everything happens in turn, only
groups of aliases can be in another order. -/
theorem C90_same (hord : ∀ l, (ord l).Perm l) (hm : MetaOf jm m) (hus : JobsOf jj us) (h : GoodInput read exists_ m us tops zs ess) :
    ∃ N, ∀ fuel, N ≤ fuel → ∀ f text whole, programJ ord fuel thr lint read exists_ jm (some jj) = .ok f →
      Threaded ord fuel thr lint read exists_ jm jj text whole →
      ∃ js js', JsonText.parse f.output = some (.arr js) ∧ JsonText.parse text = some (.arr js') ∧ js.Nodup ∧ js'.Nodup ∧
        (∀ j ∈ js, ∃ j' ∈ js', SameObject ord j j') ∧ ∀ j' ∈ js', ∃ j ∈ js, SameObject ord j j' := by
  obtain ⟨N, d, t, h1, h2⟩ := threaded_parts hord thr lint h.loadable h.zones h.redirects (fun u hu => ⟨(h.jobs u hu).1, (h.jobs u hu).2.1⟩)
    (fun u hu => (h.jobs u hu).2.2) h.utf8
  refine ⟨N, fun fuel hf f text whole hp ht => ?_⟩
  obtain ⟨k1, -, h3⟩ := h2 fuel hf
  obtain ⟨-, -, t', js, h4, h5, h6, h7, h8⟩ := C77_utf8_output ord hord fuel thr lint read exists_ m (some us) h.utf8 f (program_of_values hm hus hp)
  rw [k1] at h4
  injection h4 with h4
  subst h4
  obtain ⟨d', out, g1, g2, g3⟩ := (threaded_of hm hus).mp ht
  rw [h1] at g1
  injection g1 with g1
  subst g1
  obtain ⟨a1, a2, a3, a4, -⟩ := h3 out g2
  have hw : whole = true := by rwa [g3] at a4
  subst hw
  obtain ⟨js', b1, b2, b3, b4⟩ := written hord a3 g3
  refine ⟨js, js', h5, b1, h6, b2, fun j hj => ?_, fun j hj => ?_⟩
  · obtain ⟨v, hv, e⟩ := h8 j hj
    obtain ⟨v', hv', hs⟩ := a2 v hv
    obtain ⟨j', hj', e'⟩ := b3 v' hv'
    exact ⟨j', hj', v, v', hs, e, e'⟩
  · obtain ⟨v, hv, e⟩ := b4 j hj
    obtain ⟨v', hv', hs⟩ := a1 v hv
    obtain ⟨j', hj', e'⟩ := h7 v' hv'
    exact ⟨j', hj', v', v, hs.symm, e', e⟩

/-- The output file of the program with its threads gives account of the jobs. -/
theorem threaded_account_at (hord : ∀ l, (ord l).Perm l) (hm : MetaOf jm m) (hus : JobsOf jj us) (h : GoodInput read exists_ m us tops zs ess) :
    ∃ N, ∀ fuel, N ≤ fuel → ∀ text whole, Threaded ord fuel thr lint read exists_ jm jj text whole →
      ∃ d js, setContext thr lint read exists_ m = .ok d ∧ JsonText.parse text = some (.arr js) ∧ AccountAt ord fuel thr d us js := by
  obtain ⟨N, d, t, h1, h2⟩ := threaded_parts hord thr lint h.loadable h.zones h.redirects (fun u hu => ⟨(h.jobs u hu).1, (h.jobs u hu).2.1⟩)
    (fun u hu => (h.jobs u hu).2.2) h.utf8
  refine ⟨N, fun fuel hf text whole ht => ?_⟩
  obtain ⟨k1, -, h3⟩ := h2 fuel hf
  obtain ⟨d', out, g1, g2, g3⟩ := (threaded_of hm hus).mp ht
  rw [h1] at g1
  injection g1 with g1
  subst g1
  obtain ⟨a1, a2, a3, a4, a5⟩ := h3 out g2
  have hw : whole = true := by rwa [g3] at a4
  subst hw
  obtain ⟨js', b1, b2, b3, b4⟩ := written hord a3 g3
  exact ⟨d, js', h1, b1, a5 js' b3 b4⟩

theorem threaded_account (hord : ∀ l, (ord l).Perm l) (hm : MetaOf jm m) (hus : JobsOf jj us) (h : GoodInput read exists_ m us tops zs ess) :
    ∃ N, ∀ fuel, N ≤ fuel → ∀ text whole, Threaded ord fuel thr lint read exists_ jm jj text whole →
      ∃ d js, setContext thr lint read exists_ m = .ok d ∧ JsonText.parse text = some (.arr js) ∧ Account ord fuel thr d us js := by
  obtain ⟨N, hN⟩ := threaded_account_at (thr := thr) (lint := lint) hord hm hus h
  refine ⟨N, fun fuel hf text whole ht => ?_⟩
  obtain ⟨d, js, h1, h2, h3⟩ := hN fuel hf text whole ht
  exact ⟨d, js, h1, h2, h3.account⟩

/-- **C90** Every problem is reported, whatever the threads do: if a property of a job forbids something, and it happens to some name in the scope of the
job, the output file has an object that says so — or one that tells of a loop. -/
theorem C90_found (hord : ∀ l, (ord l).Perm l) (hm : MetaOf jm m) (hus : JobsOf jj us) (h : GoodInput read exists_ m us tops zs ess) :
    ∃ N, ∀ fuel, N ≤ fuel → ∀ text whole, Threaded ord fuel thr lint read exists_ jm jj text whole → ∃ js, JsonText.parse text = some (.arr js) ∧
      ∀ u ∈ us, ∀ job, JobMeans {} u job → Short (stringToLabels (toLower u.domain)) → Testable u → ∀ n, InScope job n →
        Fits (worldOf tops zs ess) ⟨n, job.types, false⟩ → ∀ p ∈ u.properties, ∀ want, Asks p want → ∀ report : Violation → Prop,
        Trouble (worldOf tops zs ess) (allRecords zs ess) job n want report →
        (∃ ns, ∃ j ∈ js, (leaves j).Perm (entries ord (.loop ns))) ∨ ∃ v, report v ∧ ∃ j ∈ js, (leaves j).Perm (entries ord v) := by
  obtain ⟨N, hN⟩ := threaded_account (thr := thr) (lint := lint) hord hm hus h
  refine ⟨N, fun fuel hf text whole ht => ?_⟩
  obtain ⟨d, js, h1, h2, h3⟩ := hN fuel hf text whole ht
  exact ⟨js, h2, fun u hu job hj hdom ht n hs hsh p hp want ha report hpr =>
    found_of_account h.loadable h.redirects h1 h3 hu hj hdom ht hs hsh hp ha hpr⟩

/-- **C90** If resolving some name in the scope of a job can go in circles, the output file has an object that tells of a loop, whatever the threads do. -/
theorem C90_loop_found (hord : ∀ l, (ord l).Perm l) (hm : MetaOf jm m) (hus : JobsOf jj us) (h : GoodInput read exists_ m us tops zs ess) :
    ∃ N, ∀ fuel, N ≤ fuel → ∀ text whole, Threaded ord fuel thr lint read exists_ jm jj text whole → ∃ js, JsonText.parse text = some (.arr js) ∧
      ∀ u ∈ us, ∀ job, JobMeans {} u job → Short (stringToLabels (toLower u.domain)) → Testable u → ∀ n, InScope job n →
        Fits (worldOf tops zs ess) ⟨n, job.types, false⟩ → Circular (worldOf tops zs ess) ⟨n, job.types, false⟩ →
        ∃ ns, ∃ j ∈ js, (leaves j).Perm (entries ord (.loop ns)) := by
  obtain ⟨N, hN⟩ := threaded_account (thr := thr) (lint := lint) hord hm hus h
  refine ⟨N, fun fuel hf text whole ht => ?_⟩
  obtain ⟨d, js, h1, h2, h3⟩ := hN fuel hf text whole ht
  exact ⟨js, h2, fun u hu job hj hdom ht n hs hsh hc => loop_of_account h.loadable h.redirects h1 h3 hu hj hdom ht hs hsh hc⟩

/-- **C90** Every report is true, whatever the threads do. -/
theorem C90_all_true (hord : ∀ l, (ord l).Perm l) (hm : MetaOf jm m) (hus : JobsOf jj us) (h : GoodInput read exists_ m us tops zs ess)
    (hfree : FreeLabel (allRecords zs ess))
    (hjobs : ∀ u ∈ us, Short (stringToLabels (toLower u.domain)) ∧ octets (stringToLabels (toLower u.domain)) < 253 ∧ Testable u) :
    ∃ N, ∀ fuel, N ≤ fuel → ∀ text whole, Threaded ord fuel thr lint read exists_ jm jj text whole → ∃ js, JsonText.parse text = some (.arr js) ∧
      ∀ j ∈ js, ∃ v, (leaves j).Perm (entries ord v) ∧ ∃ u ∈ us, ∃ job, JobMeans {} u job ∧
        ((SomeStructural us ∧ ∃ d ps, v = .structural d ps) ∨ (∃ q, Sustained (worldOf tops zs ess) (allRecords zs ess) job q v) ∨
          ∃ groups, v = .allAliases groups ∧ groups ≠ [] ∧ ∀ c als, (c, als) ∈ groups → als ≠ [] ∧ ∀ al ∈ als,
            ∃ q, Sustained (worldOf tops zs ess) (allRecords zs ess) job q (.alias al c)) := by
  obtain ⟨N, hN⟩ := threaded_account (thr := thr) (lint := lint) hord hm hus h
  refine ⟨N, fun fuel hf text whole ht => ?_⟩
  obtain ⟨d, js, h1, h2, h3⟩ := hN fuel hf text whole ht
  exact ⟨js, h2, fun j hj => true_of_account h.loadable h.redirects hfree hjobs h1 h3 hj⟩

/-- **C90** A clean bill: if the output file is an empty list after some schedule of the threads, nothing a property of a job forbids happens to any
name in the scope of the job, and no resolution of one goes in circles. -/
theorem C90_clean (hord : ∀ l, (ord l).Perm l) (hm : MetaOf jm m) (hus : JobsOf jj us) (h : GoodInput read exists_ m us tops zs ess) :
    ∃ N, ∀ fuel, N ≤ fuel → ∀ text whole, Threaded ord fuel thr lint read exists_ jm jj text whole → JsonText.parse text = some (.arr []) →
      ∀ u ∈ us, ∀ job, JobMeans {} u job → Short (stringToLabels (toLower u.domain)) → Testable u → ∀ n, InScope job n →
        Fits (worldOf tops zs ess) ⟨n, job.types, false⟩ → ¬ Circular (worldOf tops zs ess) ⟨n, job.types, false⟩ ∧
        ∀ p ∈ u.properties, ∀ want, Asks p want → ∀ report, ¬ Trouble (worldOf tops zs ess) (allRecords zs ess) job n want report := by
  obtain ⟨N, hN⟩ := threaded_account (thr := thr) (lint := lint) hord hm hus h
  refine ⟨N, fun fuel hf text whole ht hempty u hu job hj hdom hty n hs hsh => ?_⟩
  obtain ⟨d, js, h1, h2, h3⟩ := hN fuel hf text whole ht
  rw [hempty] at h2
  injection h2 with h2
  injection h2 with h2
  subst h2
  constructor
  · intro hc
    obtain ⟨_, j, hj', -⟩ := loop_of_account h.loadable h.redirects h1 h3 hu hj hdom hty hs hsh hc
    cases hj'
  · intro p hp want ha report hpr
    rcases found_of_account h.loadable h.redirects h1 h3 hu hj hdom hty hs hsh hp ha hpr with ⟨_, j, hj', -⟩ | ⟨_, -, j, hj', -⟩ <;> cases hj'

end

/-! ### A run -/

/-- The file with a DNAME and its job are good input. -/
theorem redirect_sane : GoodInput (fun _ => redirectFile) (fun _ => true) programMeta [redirectUJob 0] ["NS.x.".toList] redirectListing [redirectEntries] where
  loadable := redirect_loadable
  zones := ⟨by decide +kernel, by decide +kernel⟩
  redirects := by
    refine ⟨?_, by decide +kernel, by decide +kernel, by decide +kernel⟩
    have h : ∀ r ∈ allRecords redirectListing [redirectEntries], r.type = .DNAME → ∀ r' ∈ allRecords redirectListing [redirectEntries], r'.type = .DNAME →
        AtOrBelow r'.name (stringToLabels r.rdata) → r'.name = stringToLabels r.rdata := by decide +kernel
    rintro n t n' t' ⟨r, h1, h2, rfl, rfl⟩ ⟨r', h3, h4, rfl, rfl⟩ hb
    exact h r h1 h2 r' h3 h4 hb
  jobs := by
    intro u hu
    rw [List.mem_singleton.mp hu]
    refine ⟨⟨fun p hp => ?_, by decide +kernel⟩, ⟨_, List.mem_singleton.mpr rfl, .inr ⟨_, rfl, by simp⟩⟩, by unfold NoneAbove; decide +kernel⟩
    rw [List.mem_singleton.mp hp]
    refine ⟨?_, _, .rewrites 0 rfl rfl⟩
    intro l hl s hs
    injection hl with hl
    subst hl
    rw [List.mem_singleton.mp hs]
    exact ⟨.A, by unfold Names; decide +kernel⟩
  utf8 := by
    intro s hs
    have h : (inputStrings (fun _ => redirectFile) programMeta (some [redirectUJob 0])).all Json.utf8Ok = true := by decide +kernel
    exact (Json.utf8Ok_iff s).mp (List.all_eq_true.mp h s (ofInput_mem hs))

/-- So there are schedules of its threads that get to the end; by C89's sample, the job is violated by the name `u.d.x`. -/
example : ∃ fuel text, Threaded id fuel 500 true (fun _ => redirectFile) (fun _ => true) programMetaJ (.arr [redirectJobJ 0]) text true := by
  obtain ⟨N, h⟩ := C90_threads_end (ord := id) (thr := 500) (lint := true) (fun _ => .refl _) programMetaJ_of (redirectJobJ_of 0 (by decide)) redirect_sane
  obtain ⟨⟨text, ht⟩, -⟩ := h N (Nat.le_refl _)
  exact ⟨N, text, ht⟩

end Groot
