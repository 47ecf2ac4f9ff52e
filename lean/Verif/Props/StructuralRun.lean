import Verif.Spec.StructuralRun
import Verif.Lemmas.Tagged
import Verif.Props.Threaded
import Verif.Props.Structural

/-!
# C91: the reports of the structural check, from the text of the zone files to the output file
-/

namespace Groot

open Spec Driver

/-! ### Loading -/

/-- Two descriptions of what is loaded agree on what is in the zones. -/
theorem logs_agree {ctx : Context} {w w' : World} (h : Represents ctx w) (h' : Represents ctx w') (hi : (w.zones.map (·.1)).Pairwise (· < ·))
    (hi' : (w'.zones.map (·.1)).Pairwise (· < ·)) {id : Nat} {r : RR} (hr : r ∈ w.log id) :
    (∀ s, s ∈ w.log id ↔ s ∈ w'.log id) ∧ w.origin id = w'.origin id := by
  have key : ∃ p ∈ ctx.zones, p.1 = id := by
    obtain ⟨-, -, thr, zones, hz, hall⟩ := h
    unfold World.log at hr
    cases hl : w.zones.lookup id with
    | none => rw [hl] at hr; simp [stored] at hr
    | some rs =>
      obtain ⟨q, hq, e1, -⟩ := forall₂_mem hall (mem_of_lookup hl)
      exact ⟨(q.1, Zone.afterAdds thr q.1 q.2), by rw [hz]; exact List.mem_map.mpr ⟨q, hq, rfl⟩, e1⟩
  obtain ⟨p, hp, rfl⟩ := key
  obtain ⟨a1, a2⟩ := log_of_held h hi hp
  obtain ⟨b1, b2⟩ := log_of_held h' hi' hp
  exact ⟨fun s => (a1 s).symm.trans (b1 s), a2.symm.trans b2⟩

theorem records_stored {read : Str → Str} {zs : List Listing} {ess : List (List (Entry × Nat))}
    (h : List.Forall₂ (fun z es => GoodFile (read z.1) (toLower (z.2.2.getD [])) es) zs ess) {rs : List RR} (hr : rs ∈ List.zipWith Listing.records zs ess) :
    stored rs = rs := by
  induction h with
  | nil => simp at hr
  | @cons z es zs ess hz _ ih =>
    rw [List.zipWith_cons_cons] at hr
    rcases List.mem_cons.mp hr with rfl | hr
    · obtain ⟨-, rs, -, -, e2, -⟩ := C80_file 0 false {} z.1 (read z.1) [] (toLower (z.2.2.getD [])) es hz
      show stored (kept _) = kept _
      rw [← e2, stored_stored]
    · exact ih hr

theorem lookup_sites {k : Nat} {zs : List Listing} {ess : List (List (Entry × Nat))} (hl : zs.length = ess.length) (hs : ∀ es ∈ ess, HasSOA es) (id : Nat) :
    (((sitesFrom k zs ess).map (fun x => (x.1, x.2.1))).lookup id) = if k ≤ id then (zs[id - k]?).map (fun z => toLower z.2.1) else none := by
  induction zs generalizing k ess with
  | nil => simp [sitesFrom]
  | cons z zs ih =>
    cases ess with
    | nil => cases hl
    | cons es ess =>
      unfold sitesFrom
      rw [if_pos (hs es (by simp)), List.singleton_append, List.map_cons, List.lookup_cons, ih (by simpa using hl) (fun e he => hs e (by simp [he]))]
      by_cases h0 : id = k
      · subst h0; simp
      · have : (id == k) = false := by simpa using h0
        dsimp only
        rw [this]
        by_cases h1 : k ≤ id
        · rw [if_pos h1, if_pos (by omega)]
          have : id - k = (id - (k + 1)) + 1 := by omega
          rw [this, List.getElem?_cons_succ]
        · rw [if_neg h1, if_neg (by omega)]

theorem worldOf_lookup {tops : List Str} {zs : List Listing} {ess : List (List (Entry × Nat))} {x : Nat × Str × List RR} (h : x ∈ sitesFrom 1 zs ess) :
    (worldOf tops zs ess).zones.lookup x.1 = some x.2.2 :=
  lookup_of_mem (worldOf_increasing tops zs ess) (p := (x.1, x.2.2)) (List.mem_map.mpr ⟨x, h, rfl⟩)

theorem mem_firsts_iff {α : Type} [DecidableEq α] {l : List α} {x : α} : x ∈ firsts l ↔ x ∈ l := mem_firsts l x

/-- The setting of a run with the structural check, from files each of which is a zone. -/
theorem load_structural (thr : Nat) (lint : Bool) {read : Str → Str} {exists_ : Str → Bool} {m : Meta} {tops : List Str} {zs : List Listing}
    {ess : List (List (Entry × Nat))} (h : Loadable read exists_ m tops zs ess) (hz : EachZone zs ess) (hn : Redirects (allRecords zs ess)) {d : Loaded}
    (hd : setContext thr lint read exists_ m = .ok d) :
    ∃ xs, d.lg = labelGraph thr xs ∧ xs.map (·.1) = allRecords zs ess ∧ (∀ n, zonesWith xs n = holding (worldOf tops zs ess) n) ∧
      (fun id => (d.ctx.zoneNs.lookup id).getD []) = serverOf zs ∧
      (∀ n, (∃ x ∈ xs, x.1.name = n ∧ x.1.type = .NS) ↔ ∃ id, HasType ((worldOf tops zs ess).log id) n .NS) ∧
      ∀ u job, JobMeans {} u job → AsksType u → Numbered u → ∀ b, RunSetting d.ctx (worldOf tops zs ess) xs { job with structural := b } := by
  obtain ⟨d1, zs1, l1, -, -, l4, l5, -, l7, -⟩ := load_parts thr lint h
  rw [hd] at l1
  injection l1 with l1
  subst l1
  have hs : Driver.sanityCheck exists_ m = .ok () := (C58_sanity exists_ m).1.mpr ⟨tops, zs, h.good⟩
  obtain ⟨d2, xs, f1, f2, f3, f4, f5⟩ := load_tagged thr lint read zs ess h.files { ctx := { top := tops.map toLower } } [] hz.soa rfl (by simp) (by simp)
  have hd2 : setContext thr lint read exists_ m = .ok d2 := by
    unfold setContext
    rw [hs, Res.ok_bind, h.good.top, h.good.entries]
    exact f1
  rw [hd] at hd2
  injection hd2 with hd2
  subst hd2
  simp only [List.nil_append] at f2 f4 f5
  change xs.map (fun x => (x.1, x.2.1)) = tagged (sitesFrom 1 zs ess) at f3
  change d.ctx.zoneNs = (sitesFrom 1 zs ess).map (fun x => (x.1, x.2.1)) at f5
  have hrec : ∀ x ∈ sitesFrom 1 zs ess, (worldOf tops zs ess).log x.1 = x.2.2 := by
    intro x hx
    unfold World.log
    rw [worldOf_lookup hx]
    exact records_stored h.files (sitesFrom_zone hx)
  have hxs : xs.map (·.1) = allRecords zs ess := by
    have e1 : xs.map (·.1) = (xs.map (fun x => (x.1, x.2.1))).map (·.1) := by rw [List.map_map]; rfl
    rw [e1, f3]
    have : ∀ (k : Nat) (zs : List Listing) (ess : List (List (Entry × Nat))), (∀ es ∈ ess, HasSOA es) →
        (tagged (sitesFrom k zs ess)).map (·.1) = allRecords zs ess := by
      intro k zs
      induction zs generalizing k with
      | nil => intro ess _; simp [sitesFrom, tagged, allRecords]
      | cons z zs ih =>
        intro ess he
        cases ess with
        | nil => simp [sitesFrom, tagged, allRecords]
        | cons es ess =>
          have := ih (k + 1) ess (fun e h => he e (by simp [h]))
          unfold sitesFrom
          rw [if_pos (he es (by simp)), List.singleton_append]
          unfold tagged allRecords at this ⊢
          rw [List.flatMap_cons, List.map_append, this, List.map_map, List.zipWith_cons_cons, List.flatten_cons]
          congr 1
          show (z.records es).map (fun r => r) = _
          simp
    exact this 1 zs ess hz.soa
  have hmem : ∀ r id v, (r, id, v) ∈ xs → ∃ x ∈ sitesFrom 1 zs ess, x.1 = id ∧ r ∈ x.2.2 := by
    intro r id v hx
    have : (r, id) ∈ tagged (sitesFrom 1 zs ess) := by rw [← f3]; exact List.mem_map.mpr ⟨_, hx, rfl⟩
    obtain ⟨x, hx, e⟩ := List.mem_flatMap.mp this
    obtain ⟨r', hr', e⟩ := List.mem_map.mp e
    injection e with e1 e2
    exact ⟨x, hx, e2, e1 ▸ hr'⟩
  have hall : ∀ id, ∀ r ∈ (worldOf tops zs ess).log id, ∃ v, (r, id, v) ∈ xs := by
    intro id r hr
    have hr' := hr
    unfold World.log at hr'
    cases hl : (worldOf tops zs ess).zones.lookup id with
    | none => rw [hl] at hr'; simp [stored] at hr'
    | some rs =>
      obtain ⟨x, hx, e⟩ := List.mem_map.mp (mem_of_lookup hl)
      injection e with e1 e2
      subst e1
      rw [hrec x hx] at hr
      have : (r, x.1) ∈ tagged (sitesFrom 1 zs ess) := List.mem_flatMap.mpr ⟨x, hx, List.mem_map.mpr ⟨r, hr, rfl⟩⟩
      rw [← f3] at this
      obtain ⟨⟨r', id', v⟩, hy, e⟩ := List.mem_map.mp this
      injection e with e1 e2
      dsimp only at e1 e2
      subst e1 e2
      exact ⟨v, hy⟩
  have hstored : ∀ x ∈ xs, x.1 ∈ (worldOf tops zs ess).log x.2.1 := by
    rintro ⟨r, id, v⟩ hx
    obtain ⟨y, hy, rfl, hr⟩ := hmem r id v hx
    rw [hrec y hy]; exact hr
  have hlook := lookup_sites (k := 1) h.files.length_eq hz.soa
  have hreg : Registered d.ctx (worldOf tops zs ess) xs := by
    refine ⟨hstored, hall, f4, ?_⟩
    rintro ⟨r, id, v⟩ hx
    obtain ⟨y, hy, rfl, hr⟩ := hmem r id v hx
    rw [f5, hlook, if_pos (mem_sitesFrom hy).1, sitesFrom_server hy]
    simp
  have hzw : ∀ n, zonesWith xs n = holding (worldOf tops zs ess) n := by
    intro n
    have := firsts_tagged n (sitesFrom 1 zs ess) (sitesFrom_increasing 1 zs ess)
      (fun x hx r hr => (l7 r ((mem_sitesFrom hx).2 hr)).2.1) [] (by simp)
    rw [List.nil_append, ← f3] at this
    unfold zonesWith firsts holding
    have e1 : (xs.filter (fun x => decide (x.1.type ≠ .N ∧ x.1.name = n))).map (·.2.1) =
        (((xs.map (fun x => (x.1, x.2.1))).filter (fun x => decide (x.1.type ≠ .N ∧ x.1.name = n))).map (·.2)) := by
      rw [List.filter_map, List.map_map]; rfl
    rw [e1, this]
    show _ = (((sitesFrom 1 zs ess).map (fun x => (x.1, x.2.2))).filter _).map _
    rw [List.filter_map, List.map_map]; rfl
  refine ⟨xs, f2, hxs, hzw, ?_, ?_, ?_⟩
  · funext id
    rw [f5, hlook]
    cases id with
    | zero => rfl
    | succ k => rw [if_pos (by omega)]; rfl
  · intro n
    constructor
    · rintro ⟨x, hx, e1, e2⟩
      exact ⟨x.2.1, x.1, hstored x hx, e1, e2⟩
    · rintro ⟨id, r, hr, e1, e2⟩
      obtain ⟨v, hv⟩ := hall id r hr
      exact ⟨_, hv, e1, e2⟩
  · intro u job hm ht hnum b
    have hset : setJob {} u = .ok job := (C57_job _ _ _).mpr hm
    have htop : (worldOf tops zs ess).top ≠ [] := by
      obtain ⟨t, ht, _⟩ := h.good.hosted
      show tops.map toLower ≠ []
      intro e
      rw [List.map_eq_nil_iff.mp e] at ht; cases ht
    obtain ⟨hp, hno⟩ := configured_of_setJob hset hnum (worldOf tops zs ess) htop
    have hlab : ∀ n, Known (xs.map (·.1)) n → ∀ l ∈ n, l ≠ ['.'] ∧ l.length ≤ 63 := by
      rw [hxs]
      rintro n (rfl | ⟨r, hr, _, hk⟩) l hl
      · cases hl
      · rcases hk with ⟨rest, e⟩ | ⟨ht, ⟨rest, e⟩⟩
        · have hl' : l ∈ r.name := by rw [e]; exact List.mem_append_left _ hl
          exact ⟨fun e => hn.owners r hr (e ▸ hl'), (l7 r hr).1.1 l hl'⟩
        · have hl' : l ∈ stringToLabels r.rdata := by rw [e]; exact List.mem_append_left _ hl
          exact ⟨fun e => hn.targets r hr ht (e ▸ hl'), ((l7 r hr).2.2 (by unfold Pointing; simp [ht])).1 l hl'⟩
    refine ⟨l4, l5, ⟨fun n hk hd => (hlab n hk _ hd).1 rfl, ?_⟩, fun n hk l hl => (hlab n hk l hl).2, (types_ne_zero hset ht : job.types ≠ 0), hp, hno,
      fun _ => ⟨hreg, fun n => ?_⟩⟩
    · rw [hxs]
      rintro t ⟨r, hr, ht, e, -⟩
      exact hn.root r hr ht e
    · obtain ⟨w, ys, g1, -, -, g4, -⟩ := C64_loaded thr lint read exists_ m d hd
      obtain ⟨k1, -, -⟩ := load_zones thr lint h hz hn hd
      have hreg' := C64_registered d w ys g1 g4 k1
      have hi := worldOf_increasing tops zs ess
      have hone : ∀ id, ∀ r ∈ w.log id, ∀ s ∈ w.log id, r.type = .SOA → s.type = .SOA → r.name = s.name := by
        intro id r hr s hs e1 e2
        have a := (logs_agree g1 l4 g4.increasing hi hr).1
        obtain ⟨rs, b1, b2⟩ := worldOf_zone ((a r).mp hr)
        exact hz.apex rs b1 r (b2 r ((a r).mp hr)) s (b2 s ((a s).mp hs)) e1 e2
      have hin := C64_inZones d w ys g4 hreg' n hone
      intro id hid
      obtain ⟨x, hx, rfl⟩ := List.mem_map.mp ((mem_firsts_iff).mp hid)
      obtain ⟨hx, hxn⟩ := List.mem_filter.mp hx
      have hxn := of_decide_eq_true hxn
      obtain ⟨a1, a2⟩ := logs_agree l4 g1 hi g4.increasing (hstored x hx)
      obtain ⟨v, hv⟩ := hreg'.all x.2.1 x.1 ((a1 _).mp (hstored x hx))
      have := hin x.2.1 ((mem_firsts_iff).mpr (List.mem_map.mpr ⟨_, List.mem_filter.mpr ⟨hv, decide_eq_true hxn⟩, rfl⟩))
      have hty : HasType ((worldOf tops zs ess).log x.2.1) n .SOA ↔ HasType (w.log x.2.1) n .SOA := by
        unfold HasType
        exact exists_congr (fun s => and_congr_left' (a1 s))
      rw [a2, hty]
      exact this

/-! ### Runs -/

section

variable {ctx : Context} {w : World} {xs : List (RR × Nat × Nat)} {job : Job}

/-- **C91** What the structural check is run on, DNAMEs included: with the check on, for a domain that exists (perhaps by way of DNAMEs above it) and
whose subdomains are asked for, every known name at or below what the domain stands for; the report will show the name as it is below the domain. -/
theorem C91_tasks (thr : Nat) (hr : Regular (xs.map (·.1))) (job : LGraph.Req) {fuel : Nat} {g' : LGraph} {ts : List Task}
    (hts : LGraph.generateECs fuel (labelGraph thr xs) job = .ok (g', ts)) (v : Nat) (shown : Str) :
    Task.structural v shown ∈ ts ↔ job.structural = true ∧ job.subdomains = true ∧ Short (stringToLabels job.domain) ∧
      ∃ k rest, Matches (xs.map (·.1)) (stringToLabels job.domain) k (stringToLabels job.domain).length ∧ Known (xs.map (·.1)) (k ++ rest) ∧
        octets (stringToLabels job.domain ++ rest) < 253 ∧ nodeOf (labelGraph thr xs) (k ++ rest) = some v ∧
        shown = present (stringToLabels job.domain ++ rest) := by
  have hagree : ∀ {N : Nat} {ts' : List Task}, LGraph.generateECs N (labelGraph thr xs) job = .ok (labelGraph thr xs, ts') → ts' = ts := by
    intro N ts' h1
    have := mono_agree (f := fun n => LGraph.generateECs n (labelGraph thr xs) job) (fun n r => generateECs_mono n _ _ r) h1 hts
    simp at this; exact this.2
  obtain ⟨names, h⟩ := labelGraph_rep thr xs
  by_cases hc : Short (stringToLabels job.domain) ∧ job.subdomains = true ∧
      ∃ k, Matches (xs.map (·.1)) (stringToLabels job.domain) k (stringToLabels job.domain).length
  · obtain ⟨hs, hsub, hex⟩ := hc
    obtain ⟨ts', h1, h2⟩ := h.generate_full hr job (Nat.le_refl _) ((lengthCheck_iff _).mpr hs) hsub hex
    have := hagree h1
    subst this
    rw [h2]
    unfold TaskOf
    constructor
    · rintro ⟨k, hk, ⟨_, _, _, _, _, h5⟩ | ⟨hst, rest, u, h3, h4, h5, h6⟩⟩
      · rcases h5 with ⟨_, h5⟩ | h5 <;> cases h5
      · cases h6
        exact ⟨hst, hsub, hs, k, rest, hk, h3, h4, h5, labelsToString_eq _⟩
    · rintro ⟨hst, -, -, k, rest, hk, h3, h4, h5, rfl⟩
      exact ⟨k, hk, .inr ⟨hst, rest, v, h3, h4, h5, by rw [labelsToString_eq]⟩⟩
  · constructor
    · intro ht
      exfalso
      obtain ⟨N, ts', h1, h2, h3⟩ := C29_single thr xs job
      have := hagree (h1 N (Nat.le_refl _))
      subst this
      by_cases hs : Short (stringToLabels job.domain)
      · obtain ⟨i, ⟨k, hk⟩, -, h5, h6⟩ := h3 hs
        by_cases hi : i = (stringToLabels job.domain).length
        · cases hsub : job.subdomains with
          | true => exact hc ⟨hs, hsub, k, hi ▸ hk⟩
          | false => rw [h5 hi hsub] at ht; simp at ht
        · rw [h6 hi] at ht; simp at ht
      · rw [h2 hs] at ht; cases ht
    · rintro ⟨-, hsub, hs, k, rest, hk, -⟩
      exact absurd ⟨hs, hsub, k, hk⟩ hc

/-- **C91** The structural reports of a run are exactly those of the names the check is run on. -/
theorem C91_run (S : RunSetting ctx w xs job) {thr thr' fuel : Nat} {g' : LGraph} {ts : List Task} {vs : List Violation}
    (hrun : runSequential fuel thr ctx (labelGraph thr' xs) job = .ok (g', ts, vs)) (d : Str) (ps : List PairDiff) :
    .structural d ps ∈ vs ↔ job.structural = true ∧ job.subdomains = true ∧ Short (stringToLabels job.domain) ∧
      ∃ k rest, Matches (xs.map (·.1)) (stringToLabels job.domain) k (stringToLabels job.domain).length ∧ Known (xs.map (·.1)) (k ++ rest) ∧
        octets (stringToLabels job.domain ++ rest) < 253 ∧ .structural d ps ∈
          structuralReports w xs (fun id => (ctx.zoneNs.lookup id).getD []) (present (stringToLabels job.domain ++ rest)) (k ++ rest) := by
  obtain ⟨-, hts, -⟩ := RunSetting.generated hrun
  have htask := C91_tasks thr' S.regular (req job) hts
  obtain ⟨rs, h1, rfl⟩ := S.outcomes hrun
  constructor
  · intro hv
    obtain ⟨r, hr, hvr⟩ := List.mem_flatten.mp hv
    obtain ⟨t, ht, h3⟩ := forall₂_mem h1 hr
    cases h3 with
    | test q said _ h => exact absurd (h.kinds _ hvr) (by simp [FromTest])
    | structural u shown n hk hn =>
      obtain ⟨a1, a2, a3, k, rest, a4, a5, a6, a7, rfl⟩ := (htask u shown).mp ht
      have : n = k ++ rest := by
        obtain ⟨names, hrep⟩ := labelGraph_rep thr' xs
        have e1 := (nodeOf_iff hrep.inv _ _).mp hn
        have e2 := (nodeOf_iff hrep.inv _ _).mp a7
        rw [e1] at e2
        injection e2
      subst this
      exact ⟨a1, a2, a3, k, rest, a4, a5, a6, hvr⟩
  · rintro ⟨a1, a2, a3, k, rest, a4, a5, a6, hvr⟩
    obtain ⟨names, hrep⟩ := labelGraph_rep thr' xs
    obtain ⟨u, hu⟩ := List.mem_iff_getElem?.mp ((hrep.known _).mpr a5)
    have hu := (nodeOf_iff hrep.inv _ _).mpr hu
    obtain ⟨r, hr, h3⟩ := forall₂_mem' h1 ((htask u _).mpr ⟨a1, a2, a3, k, rest, a4, a5, a6, hu, rfl⟩)
    refine List.mem_flatten.mpr ⟨r, hr, ?_⟩
    cases h3 with
    | structural _ _ n hk hn =>
      have : n = k ++ rest := by
        have e1 := (nodeOf_iff hrep.inv _ _).mp hn
        have e2 := (nodeOf_iff hrep.inv _ _).mp hu
        rw [e1] at e2
        injection e2
      subst this
      exact hvr

end

theorem matches_self_only {rs : List RR} {dom : Name} (h : ∀ r ∈ rs, r.type = .DNAME → AtOrBelow r.name dom → r.name = dom) :
    ∀ {k : Name} {i : Nat}, Matches rs dom k i → k = dom.take i := by
  intro k i hk
  induction hk with
  | root => simp
  | down n i l _ hl _ ih =>
    subst ih
    obtain ⟨hi, e⟩ := List.getElem?_eq_some_iff.mp hl
    rw [List.take_add_one, hl]; rfl
  | redirect n i t _ hi ha ih =>
    exfalso
    subst ih
    obtain ⟨r, hr, ht, e, -⟩ := ha
    have hb : AtOrBelow r.name dom := ⟨dom.drop i, by rw [e, List.take_append_drop]⟩
    have := congrArg List.length ((h r hr ht hb).symm.trans e)
    rw [List.length_take] at this
    omega

section

variable {ord : List Str → List Str} {thr : Nat} {lint : Bool} {read : Str → Str} {exists_ : Str → Bool} {jm jj : JVal} {m : Meta} {us : List UJob}
  {tops : List Str} {zs : List Listing} {ess : List (List (Entry × Nat))}

/-- The structural reports of a run on loaded files. -/
theorem structural_of_run (h : GoodInput read exists_ m us tops zs ess) {d : Loaded} (hd : setContext thr lint read exists_ m = .ok d) {u : UJob} (hu : u ∈ us)
    {job : Job} (hm : JobMeans {} u job) {b : Bool} {fuel : Nat} {g : LGraph} {ts : List Task} {vs : List Violation}
    (hrun : runSequential fuel thr d.ctx d.lg { job with structural := b } = .ok (g, ts, vs)) (shown : Str) (ps : List PairDiff) :
    .structural shown ps ∈ vs ↔ b = true ∧ u.subdomain = true ∧ Short (stringToLabels (toLower u.domain)) ∧
      ∃ n, AtOrBelow (stringToLabels (toLower u.domain)) n ∧ octets n < 253 ∧ DelegationUnsettled (worldOf tops zs ess) n ∧
        .structural shown ps = unsettledReport (worldOf tops zs ess) zs n := by
  obtain ⟨xs, e1, e2, e3, e4, e5, e6⟩ := load_structural thr lint h.loadable h.zones h.redirects hd
  obtain ⟨hac, hty, hab⟩ := h.jobs u hu
  have S := e6 u job hm hty hac.2 b
  rw [e1] at hrun
  rw [C91_run S hrun]
  show b = true ∧ job.subdomains = true ∧ Short (stringToLabels job.domain) ∧ _ ↔ _
  rw [hm.subdomains, hm.domain]
  refine and_congr_right (fun _ => and_congr_right (fun _ => and_congr_right (fun _ => ?_)))
  unfold NoneAbove at hab
  generalize stringToLabels (toLower u.domain) = dom at hab
  have hrep : ∀ n, .structural shown ps ∈ structuralReports (worldOf tops zs ess) xs (fun id => (d.ctx.zoneNs.lookup id).getD []) (present n) n ↔
      DelegationUnsettled (worldOf tops zs ess) n ∧ .structural shown ps = unsettledReport (worldOf tops zs ess) zs n := by
    intro n
    unfold structuralReports DelegationUnsettled unsettledReport disagreements
    dsimp only
    rw [e3 n, e4]
    by_cases hc : (∃ id, HasType ((worldOf tops zs ess).log id) n .NS) ∧
        (comparisons (worldOf tops zs ess) n (holding (worldOf tops zs ess) n)).filter (fun c => decide (¬ c.Agrees)) ≠ []
    · rw [if_pos ⟨(e5 n).mpr hc.1, hc.2⟩, List.mem_singleton]
      exact ⟨fun h => ⟨hc, h⟩, fun h => h.2⟩
    · rw [if_neg (fun c => hc ⟨(e5 n).mp c.1, c.2⟩)]
      exact ⟨fun h => (by cases h), fun h => absurd h.1 hc⟩
  have honly : ∀ {k}, Matches (xs.map (·.1)) dom k dom.length → k = dom := by
    intro k hk
    have := matches_self_only (by rw [e2]; exact hab) hk
    rwa [List.take_length] at this
  constructor
  · rintro ⟨k, rest, hk, h1, h2, h3⟩
    have := honly hk
    subst this
    exact ⟨_, ⟨rest, rfl⟩, h2, (hrep _).mp h3⟩
  · rintro ⟨n, ⟨rest, rfl⟩, h2, h3⟩
    obtain ⟨x, hx, hxn, hxt⟩ := (e5 _).mpr h3.1.1
    have hkn : ∀ n', (∃ t, dom ++ rest = n' ++ t) → Known (xs.map (·.1)) n' := by
      rintro n' ⟨t, e⟩
      exact .inr ⟨x.1, List.mem_map_of_mem hx, by rw [hxt]; decide, .inl ⟨t, by rw [hxn, e]⟩⟩
    refine ⟨dom, rest, matches_self (hkn _ ⟨rest, rfl⟩), hkn _ ⟨[], by simp⟩, h2, (hrep _).mpr h3⟩

/-- What is in the output file: the structural reports. -/
theorem unsettled_of_account (h : GoodInput read exists_ m us tops zs ess) {fuel : Nat} {d : Loaded} (hd : setContext thr lint read exists_ m = .ok d)
    {js : List Json} (ha : AccountAt ord fuel thr d us js) {i : Nat} {u : UJob} (hon : StructuralOn us i u)
    (hdom : Short (stringToLabels (toLower u.domain))) {n : Name} (hn : AtOrBelow (stringToLabels (toLower u.domain)) n) (ho : octets n < 253)
    (hdu : DelegationUnsettled (worldOf tops zs ess) n) : ∃ j ∈ js, (leaves j).Perm (entries ord (unsettledReport (worldOf tops zs ess) zs n)) := by
  obtain ⟨hi, hs, hsub⟩ := hon
  obtain ⟨job, h1, g, ts, vs, h2, h3, -⟩ := ha.1 i u hi
  refine h3 _ ((structural_of_run h hd (List.mem_of_getElem? hi) h1 h2 _ _).mpr ⟨decide_eq_true hs, hsub, hdom, n, hn, ho, hdu, rfl⟩) trivial ?_
  intro gs e
  cases e

theorem settled_of_account (h : GoodInput read exists_ m us tops zs ess) (hfree : FreeLabel (allRecords zs ess))
    (hjobs : ∀ u ∈ us, Short (stringToLabels (toLower u.domain)) ∧ octets (stringToLabels (toLower u.domain)) < 253 ∧ Testable u)
    {fuel : Nat} {d : Loaded} (hd : setContext thr lint read exists_ m = .ok d)
    {js : List Json} (ha : AccountAt ord fuel thr d us js) {j : Json} (hj : j ∈ js) :
    ∃ v, (leaves j).Perm (entries ord v) ∧ ∃ i u job, us[i]? = some u ∧ JobMeans {} u job ∧
      ((StructuralOn us i u ∧ ∃ n, AtOrBelow (stringToLabels (toLower u.domain)) n ∧ octets n < 253 ∧ DelegationUnsettled (worldOf tops zs ess) n ∧
          v = unsettledReport (worldOf tops zs ess) zs n) ∨
        (∃ q, Sustained (worldOf tops zs ess) (allRecords zs ess) job q v) ∨
        ∃ groups, v = .allAliases groups ∧ groups ≠ [] ∧ ∀ c als, (c, als) ∈ groups → als ≠ [] ∧ ∀ al ∈ als,
          ∃ q, Sustained (worldOf tops zs ess) (allRecords zs ess) job q (.alias al c)) := by
  obtain ⟨v, i, u, job, g, ts, vs, h1, h2, h3, h4, h5⟩ := ha.2 j hj
  refine ⟨v, h1, i, u, job, h2, h3, ?_⟩
  rcases true_of_run h.loadable h.redirects hfree hjobs hd (List.mem_of_getElem? h2) h3 h4 some_of_take h5 with ⟨-, shown, ps, rfl⟩ | h | h
  · left
    cases h5 with
    | direct _ hv _ =>
      obtain ⟨a1, a2, a3, a4⟩ := (structural_of_run h hd (List.mem_of_getElem? h2) h3 h4 _ _).mp hv
      exact ⟨⟨h2, of_decide_eq_true a1, a2⟩, a4⟩
  · exact .inr (.inl h)
  · exact .inr (.inr h)

/-- **C91** Every disagreement about a delegation is reported, whatever the threads do: if the structural check is on for a job, and the zones disagree about
a name at or below the domain, the output file has an object naming all the pairs that disagree. -/
theorem C91_found (hord : ∀ l, (ord l).Perm l) (hm : MetaOf jm m) (hus : JobsOf jj us) (h : GoodInput read exists_ m us tops zs ess) :
    ∃ N, ∀ fuel, N ≤ fuel → ∀ text whole, Threaded ord fuel thr lint read exists_ jm jj text whole → ∃ js, JsonText.parse text = some (.arr js) ∧
      ∀ i u, StructuralOn us i u → Short (stringToLabels (toLower u.domain)) → ∀ n, AtOrBelow (stringToLabels (toLower u.domain)) n → octets n < 253 →
        DelegationUnsettled (worldOf tops zs ess) n → ∃ j ∈ js, (leaves j).Perm (entries ord (unsettledReport (worldOf tops zs ess) zs n)) := by
  obtain ⟨N, hN⟩ := threaded_account_at (thr := thr) (lint := lint) hord hm hus h
  refine ⟨N, fun fuel hf text whole ht => ?_⟩
  obtain ⟨d, js, h1, h2, h3⟩ := hN fuel hf text whole ht
  exact ⟨js, h2, fun i u hon hdom n hn ho hdu => unsettled_of_account h h1 h3 hon hdom hn ho hdu⟩

/-- **C91** Every report is true, whatever the threads do: it is about a job, and says of a name which zones disagree about it (and they do, and the
structural check is on), or is true of the names of some class of the job, or lists aliases each of which is. -/
theorem C91_all_true (hord : ∀ l, (ord l).Perm l) (hm : MetaOf jm m) (hus : JobsOf jj us) (h : GoodInput read exists_ m us tops zs ess)
    (hfree : FreeLabel (allRecords zs ess))
    (hjobs : ∀ u ∈ us, Short (stringToLabels (toLower u.domain)) ∧ octets (stringToLabels (toLower u.domain)) < 253 ∧ Testable u) :
    ∃ N, ∀ fuel, N ≤ fuel → ∀ text whole, Threaded ord fuel thr lint read exists_ jm jj text whole → ∃ js, JsonText.parse text = some (.arr js) ∧
      ∀ j ∈ js, ∃ v, (leaves j).Perm (entries ord v) ∧ ∃ i u job, us[i]? = some u ∧ JobMeans {} u job ∧
        ((StructuralOn us i u ∧ ∃ n, AtOrBelow (stringToLabels (toLower u.domain)) n ∧ octets n < 253 ∧ DelegationUnsettled (worldOf tops zs ess) n ∧
            v = unsettledReport (worldOf tops zs ess) zs n) ∨
          (∃ q, Sustained (worldOf tops zs ess) (allRecords zs ess) job q v) ∨
          ∃ groups, v = .allAliases groups ∧ groups ≠ [] ∧ ∀ c als, (c, als) ∈ groups → als ≠ [] ∧ ∀ al ∈ als,
            ∃ q, Sustained (worldOf tops zs ess) (allRecords zs ess) job q (.alias al c)) := by
  obtain ⟨N, hN⟩ := threaded_account_at (thr := thr) (lint := lint) hord hm hus h
  refine ⟨N, fun fuel hf text whole ht => ?_⟩
  obtain ⟨d, js, h1, h2, h3⟩ := hN fuel hf text whole ht
  exact ⟨js, h2, fun j hj => settled_of_account h hfree hjobs h1 h3 hj⟩

/-- **C91** The same when everything happens in turn: whatever the program writes, if it finished. -/
theorem C91_in_turn (hord : ∀ l, (ord l).Perm l) (hm : MetaOf jm m) (hus : JobsOf jj us) (h : GoodInput read exists_ m us tops zs ess) {fuel : Nat} {f : Files}
    (hp : programJ ord fuel thr lint read exists_ jm (some jj) = .ok f) :
    ∃ js, JsonText.parse f.output = some (.arr js) ∧
      (∀ i u, StructuralOn us i u → Short (stringToLabels (toLower u.domain)) → ∀ n, AtOrBelow (stringToLabels (toLower u.domain)) n → octets n < 253 →
        DelegationUnsettled (worldOf tops zs ess) n → ∃ j ∈ js, (leaves j).Perm (entries ord (unsettledReport (worldOf tops zs ess) zs n))) ∧
      (FreeLabel (allRecords zs ess) →
        (∀ u ∈ us, Short (stringToLabels (toLower u.domain)) ∧ octets (stringToLabels (toLower u.domain)) < 253 ∧ Testable u) →
        ∀ j ∈ js, ∃ v, (leaves j).Perm (entries ord v) ∧ ∃ i u job, us[i]? = some u ∧ JobMeans {} u job ∧
        ((StructuralOn us i u ∧ ∃ n, AtOrBelow (stringToLabels (toLower u.domain)) n ∧ octets n < 253 ∧ DelegationUnsettled (worldOf tops zs ess) n ∧
            v = unsettledReport (worldOf tops zs ess) zs n) ∨
          (∃ q, Sustained (worldOf tops zs ess) (allRecords zs ess) job q v) ∨
          ∃ groups, v = .allAliases groups ∧ groups ≠ [] ∧ ∀ c als, (c, als) ∈ groups → als ≠ [] ∧ ∀ al ∈ als,
            ∃ q, Sustained (worldOf tops zs ess) (allRecords zs ess) job q (.alias al c))) := by
  have hp' := program_of_values hm hus hp
  have hfin := (C77_utf8_output ord hord fuel thr lint read exists_ m (some us) h.utf8 f hp').1
  obtain ⟨d, js, h1, h2, h3⟩ := job_run_at hord hp' hfin
  exact ⟨js, h2, fun i u hon hdom n hn ho hdu => unsettled_of_account h h1 h3 hon hdom hn ho hdu,
    fun hfree hjobs j hj => settled_of_account h hfree hjobs h1 h3 hj⟩

/-- **C91** A clean bill: if the output file is an empty list after some schedule of the threads, the zones do not disagree about any name at or below the
domain of a job the structural check is on for. -/
theorem C91_clean (hord : ∀ l, (ord l).Perm l) (hm : MetaOf jm m) (hus : JobsOf jj us) (h : GoodInput read exists_ m us tops zs ess) :
    ∃ N, ∀ fuel, N ≤ fuel → ∀ text whole, Threaded ord fuel thr lint read exists_ jm jj text whole → JsonText.parse text = some (.arr []) →
      ∀ i u, StructuralOn us i u → Short (stringToLabels (toLower u.domain)) → ∀ n, AtOrBelow (stringToLabels (toLower u.domain)) n → octets n < 253 →
        ¬ DelegationUnsettled (worldOf tops zs ess) n := by
  obtain ⟨N, hN⟩ := C91_found (thr := thr) (lint := lint) hord hm hus h
  refine ⟨N, fun fuel hf text whole ht hempty i u hon hdom n hn ho hdu => ?_⟩
  obtain ⟨js, h1, h2⟩ := hN fuel hf text whole ht
  rw [hempty] at h1
  injection h1 with h1
  injection h1 with h1
  subst h1
  obtain ⟨j, hj, -⟩ := h2 i u hon hdom n hn ho hdu
  cases hj

end

/-! ### A run -/

private def k (s : String) (v : JVal) : Str × JVal := (s.toList, v)
private def t (s : String) : JVal := .str s.toList
private def ln (owner type : String) (rdata : List String) : Line :=
  ⟨owner.toList, none, none, true, type.toList, rdata.map String.toList⟩

/-- A zone `x` that delegates `s.x` to one server, and the zone `s.x` that names another one. -/
def parentFile : Str := "@ SOA n1 h 1\ns NS n1.s\nn1.s A 1.1.1.1\n".toList
def childFile : Str := "@ SOA n1 h 1\n@ NS n2\nn2 A 2.2.2.2\n".toList

def splitRead (f : Str) : Str := if f = "p".toList then parentFile else childFile

def parentEntries : List (Entry × Nat) :=
  [(.atSign (ln "" "SOA" ["n1", "h", "1"]), 1), (.record (ln "s" "NS" ["n1.s"]), 1), (.record (ln "n1.s" "A" ["1.1.1.1"]), 1)]

def childEntries : List (Entry × Nat) :=
  [(.atSign (ln "" "SOA" ["n1", "h", "1"]), 1), (.atSign (ln "" "NS" ["n2"]), 1), (.record (ln "n2" "A" ["2.2.2.2"]), 1)]

def splitListing : List Listing := [("p".toList, "NS.x.".toList, some "X.".toList), ("c".toList, "n1.s.X.".toList, some "s.x.".toList)]

def splitMeta : Meta := ⟨some ["NS.x.".toList], some [⟨some "p".toList, some "NS.x.".toList, some "X.".toList⟩,
  ⟨some "c".toList, some "n1.s.X.".toList, some "s.x.".toList⟩]⟩

def splitMetaJ : JVal := .obj [k "TopNameServers" (.arr [t "NS.x."]), k "ZoneFiles" (.arr [
  .obj [k "FileName" (t "p"), k "NameServer" (t "NS.x."), k "Origin" (t "X.")],
  .obj [k "FileName" (t "c"), k "NameServer" (t "n1.s.X."), k "Origin" (t "s.x.")]])]

theorem splitMetaJ_of : MetaOf splitMetaJ splitMeta where
  top := ⟨_, ["NS.x.".toList], ⟨_, rfl, rfl⟩, .array _, rfl⟩
  files := ⟨_, _, _, ⟨_, rfl, rfl⟩, .array _,
    .cons ⟨⟨_, ⟨_, rfl, rfl⟩, rfl⟩, ⟨_, ⟨_, rfl, rfl⟩, rfl⟩, .inr ⟨_, ⟨_, rfl, rfl⟩, rfl⟩⟩
      (.cons ⟨⟨_, ⟨_, rfl, rfl⟩, rfl⟩, ⟨_, ⟨_, rfl, rfl⟩, rfl⟩, .inr ⟨_, ⟨_, rfl, rfl⟩, rfl⟩⟩ .nil), rfl⟩

/-- A job that asks for the structural check only. -/
def splitJobJ : JVal := .obj [k "Domain" (t "X"), k "Properties" (.arr [.obj [k "PropertyName" (t "StructuralDelegationConsistency")]]),
  k "SubDomain" (.bool true)]

def splitUJob : UJob := ⟨"X".toList, true, [⟨"StructuralDelegationConsistency".toList, none, .missing⟩]⟩

theorem splitJobJ_of : JobsOf (.arr [splitJobJ]) [splitUJob] := by
  refine ⟨_, .array _, .cons ?_ .nil⟩
  exact {
    domain := ⟨_, rfl, rfl⟩
    subdomain := ⟨_, rfl, rfl⟩
    properties := ⟨_, _, ⟨_, rfl, rfl⟩, .array _, .cons ⟨⟨_, rfl, rfl⟩, .inl ⟨fun _ e => by cases e; rfl, rfl⟩, .inl ⟨fun _ e => by cases e; rfl, rfl⟩⟩ .nil⟩ }

theorem says_of_cut {contents : Str} {es : List (Entry × Nat)} (ks : List Nat) (h : cutCheck ks (Lexer.tokens contents) = true)
    (e : (cut ks (Lexer.tokens contents)).map (fun l => (fields l, eols l + 1)) = es.map (fun e => (e.1.words, e.2))) : FileSays contents es := by
  refine ⟨Lexer.tokens contents, cut ks (Lexer.tokens contents), [], tokens_munch _, split_of_check _ _ h, ?_⟩
  generalize cut _ _ = ls at e
  clear h
  induction ls generalizing es with
  | nil => cases es with
    | nil => exact .nil
    | cons x xs => cases e
  | cons l ls ih => cases es with
    | nil => cases e
    | cons x xs =>
      simp only [List.map_cons, List.cons.injEq, Prod.mk.injEq] at e
      exact .cons e.1 (ih e.2)

theorem noOrphan_three {a b c : Nat × RR} (h : a.2.type = .SOA ∧ soaOwner (keepFrom [] [a.2]) ≠ [] ∧ soaOwner (keepFrom (keepFrom [] [a.2]) [b.2]) ≠ []) :
    NoOrphan [a, b, c] := by
  refine (noOrphanFrom_iff [] _).mp ?_
  have : ∀ (log : List RR) (x : Nat × RR), x.2.type = .SOA ∨ soaOwner log ≠ [] → ¬ Orphan log x.2 := by
    rintro log x (h | h) ⟨-, -, h1, h2⟩
    · exact h2 h
    · exact h h1
  exact ⟨this _ _ (.inl h.1), this _ _ (.inr h.2.1), this _ _ (.inr h.2.2), trivial⟩

theorem parentFile_good : GoodFile parentFile "x.".toList parentEntries :=
  ⟨says_of_cut [9, 5, 5] (by decide +kernel) (by decide +kernel),
    ⟨⟨by decide +kernel, standardLine_spec (by decide +kernel)⟩, standardLine_spec (by decide +kernel), standardLine_spec (by decide +kernel), trivial⟩,
    by decide +kernel, noOrphan_three (by decide +kernel)⟩

theorem childFile_good : GoodFile childFile "s.x.".toList childEntries :=
  ⟨says_of_cut [9, 5, 5] (by decide +kernel) (by decide +kernel),
    ⟨⟨by decide +kernel, standardLine_spec (by decide +kernel)⟩, ⟨by decide +kernel, standardLine_spec (by decide +kernel)⟩,
      standardLine_spec (by decide +kernel), trivial⟩, by decide +kernel, noOrphan_three (by decide +kernel)⟩

theorem split_loadable : Loadable splitRead (fun _ => true) splitMeta ["NS.x.".toList] splitListing [parentEntries, childEntries] where
  good := ⟨rfl, rfl, fun _ _ => rfl, "NS.x.".toList, by simp, _, List.mem_cons_self, rfl⟩
  files := .cons parentFile_good (.cons childFile_good .nil)
  top := by simp

/-- The two files and the job are good input. -/
theorem split_sane : GoodInput splitRead (fun _ => true) splitMeta [splitUJob] ["NS.x.".toList] splitListing [parentEntries, childEntries] where
  loadable := split_loadable
  zones := ⟨by decide +kernel, by decide +kernel⟩
  redirects := by
    refine ⟨?_, by decide +kernel, by decide +kernel, by decide +kernel⟩
    have h : ∀ r ∈ allRecords splitListing [parentEntries, childEntries], r.type ≠ .DNAME := by decide +kernel
    rintro n t n' t' ⟨r, h1, h2, -, -⟩
    exact absurd h2 (h r h1)
  jobs := by
    intro u hu
    rw [List.mem_singleton.mp hu]
    refine ⟨⟨fun p hp => ?_, by decide +kernel⟩, ⟨_, List.mem_singleton.mpr rfl, .inl rfl⟩, by unfold NoneAbove; decide +kernel⟩
    rw [List.mem_singleton.mp hp]
    refine ⟨?_, _, .structural rfl⟩
    intro l hl
    cases hl
  utf8 := by
    intro s hs
    have h : (inputStrings splitRead splitMeta (some [splitUJob])).all Json.utf8Ok = true := by decide +kernel
    exact (Json.utf8Ok_iff s).mp (List.all_eq_true.mp h s (ofInput_mem hs))

/-- What the files say. -/
def splitWorld : World where
  zones := [(1, Listing.records ("p".toList, "NS.x.".toList, some "X.".toList) parentEntries),
    (2, Listing.records ("c".toList, "n1.s.X.".toList, some "s.x.".toList) childEntries)]
  nsZones := [("ns.x.".toList, [1]), ("n1.s.x.".toList, [2])]
  top := ["ns.x.".toList]

theorem split_world : worldOf ["NS.x.".toList] splitListing [parentEntries, childEntries] = splitWorld := by
  unfold worldOf splitListing sitesFrom sitesFrom sitesFrom servedBy
  rw [if_pos (show HasSOA parentEntries by decide +kernel), if_pos (show HasSOA childEntries by decide +kernel)]
  rfl

/-- The hypotheses of `C91_found` are met, and this is what is reported. -/
example : StructuralOn [splitUJob] 0 splitUJob ∧ Short (stringToLabels (toLower splitUJob.domain)) ∧
    DelegationUnsettled (worldOf ["NS.x.".toList] splitListing [parentEntries, childEntries]) ["x".toList, "s".toList] ∧
    unsettledReport (worldOf ["NS.x.".toList] splitListing [parentEntries, childEntries]) splitListing ["x".toList, "s".toList] =
      .structural "s.x.".toList [⟨"parent".toList, "child".toList, "ns.x.".toList, "n1.s.x.".toList,
        ([], ["s.x.   NS   n1.s.x.".toList], ["s.x.   NS   n2.s.x.".toList]), some ([], ["n1.s.x.   A   1.1.1.1".toList], ["n2.s.x.   A   2.2.2.2".toList])⟩] := by
  rw [split_world]
  refine ⟨⟨rfl, by decide +kernel, rfl⟩, by decide +kernel, ⟨⟨1, ?_⟩, ?_⟩, ?_⟩
  · unfold HasType; decide +kernel
  · intro h
    have : (disagreements splitWorld ["x".toList, "s".toList]).length = 1 := by decide +kernel
    rw [h] at this
    cases this
  · decide +kernel

/-- The program writes one object, about the one disagreement. -/
theorem split_runs : ∃ f, programJ id 300 500 true splitRead (fun _ => true) splitMetaJ (some (.arr [splitJobJ])) = .ok f ∧
    (JsonText.parse f.output).map (fun j => match j with | .arr l => l.length | _ => 0) = some 1 :=
  files_of_check (by decide +kernel)

/-- **C91** (disagreement) Below a DNAME the report names another name than the one the zones disagree about: with `d.x` redirected to `x`, a job about `s.d.x`
reports a structural inconsistency at `s.d.x`, a name no zone has any record of; the records listed are those of `s.x`.  (This is why no DNAME may be
above the domain in the theorems above.) -/
theorem C91_disagreement_alias :
    (match setContext 500 false (fun f => if f = "p".toList then "@ SOA n1 h 1\nd DNAME x.\ns NS n1.s\nn1.s A 1.1.1.1\n".toList else childFile) (fun _ => true) splitMeta with
      | .ok d => (match runSequential 300 500 d.ctx d.lg { domain := "s.d.x.".toList, subdomains := true, structural := true, types := TypeSet.single .NS } with
        | .ok (_, _, vs) => vs.any (fun v => match v with
            | .structural n ps => decide (n = "s.d.x.".toList ∧ ps.map (·.nsDiff) = [([], ["s.x.   NS   n1.s.x.".toList], ["s.x.   NS   n2.s.x.".toList])])
            | _ => false) && decide (∀ p ∈ d.ctx.zones, ∀ r ∈ heldBy p.2, r.name ≠ stringToLabels "s.d.x.".toList)
        | _ => false)
      | _ => false) = true := by
  decide +kernel

end Groot
