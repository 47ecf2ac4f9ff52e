import Verif.Spec.Main
import Verif.Props.Driver
import Verif.Props.Producers
import Verif.Props.Verdict

/-!
# Lemmas about the whole program
-/

namespace Groot

open Spec Driver

theorem Driver.ecCount_eq (ts : List Task) : ecCount ts = (classes ts).length := by
  unfold ecCount classes
  induction ts with
  | nil => rfl
  | cons t ts ih => cases t <;> simp [ih]

theorem concatM_mono {α β : Type} {f f' : α → Res (List β)} (h : ∀ x r, f x = .ok r → f' x = .ok r) (l : List α) (r : List β)
    (hl : concatM f l = .ok r) : concatM f' l = .ok r := by
  induction l generalizing r with
  | nil => exact hl
  | cons x l ih =>
    unfold concatM at hl ⊢
    obtain ⟨a, h1, hl⟩ := bind_ok_iff.mp hl
    obtain ⟨b, h2, hl⟩ := bind_ok_iff.mp hl
    exact bind_ok_iff.mpr ⟨a, h x a h1, bind_ok_iff.mpr ⟨b, ih b h2, hl⟩⟩

theorem runSequential_mono (thr : Nat) (ctx : Context) (lg : LGraph) (job : Job) (n : Nat) (r : LGraph × List Task × List Violation)
    (h : runSequential n thr ctx lg job = .ok r) : runSequential (n + 1) thr ctx lg job = .ok r := by
  unfold runSequential at h ⊢
  obtain ⟨x, h1, h⟩ := bind_ok_iff.mp h
  obtain ⟨y, h2, h⟩ := bind_ok_iff.mp h
  refine bind_ok_iff.mpr ⟨x, generateECs_mono _ _ _ _ h1, bind_ok_iff.mpr ⟨y, concatM_mono ?_ _ _ h2, h⟩⟩
  intro t r hr
  cases t with
  | ec q =>
    unfold process at hr ⊢
    obtain ⟨z, h3, hr⟩ := bind_ok_iff.mp hr
    exact bind_ok_iff.mpr ⟨z, processEC_mono _ _ _ _ _ _ _ h3, hr⟩
  | structural node domain => exact hr

theorem runJob_mono (thr : Nat) (ctx : Context) (lg : LGraph) (t : Totals) (job : Job) (n : Nat) (r : LGraph × Totals)
    (h : runJob n thr ctx lg t job = .ok r) : runJob (n + 1) thr ctx lg t job = .ok r := by
  unfold runJob at h ⊢
  obtain ⟨x, h1, h⟩ := bind_ok_iff.mp h
  exact bind_ok_iff.mpr ⟨x, runSequential_mono _ _ _ _ _ _ h1, h⟩

theorem jobLoop_mono (thr : Nat) (ctx : Context) (us : List UJob) (n : Nat) (lg : LGraph) (job : Job) (t t' : Totals)
    (h : jobLoop n thr ctx lg job t us = .ok t') : jobLoop (n + 1) thr ctx lg job t us = .ok t' := by
  induction us generalizing lg job t with
  | nil => exact h
  | cons u us ih =>
    unfold jobLoop at h ⊢
    obtain ⟨j, h1, h⟩ := bind_ok_iff.mp h
    obtain ⟨r, h2, h⟩ := bind_ok_iff.mp h
    exact bind_ok_iff.mpr ⟨j, h1, bind_ok_iff.mpr ⟨r, runJob_mono _ _ _ _ _ _ _ h2, ih _ _ _ h⟩⟩

/-! ### The check for missing glue records -/

/-- The missing-glue issues of one zone. -/
theorem glueIssues_of_zone (thr t id : Nat) (rs : List RR) (ns : Str) : ∃ is, (Zone.afterAdds t id rs).glueIssues thr ns = .ok is ∧
    ∀ i, i ∈ is ↔ ∃ r ∈ stored rs, MissesGlue rs r ∧ i = ⟨ns, present (soaOwner (stored rs)), showRecord r⟩ := by
  classical
  obtain ⟨is, h1, h2⟩ := C19_missing_glue t id thr rs ns (fun r => decide (MissesGlue rs r)) (by
    intro r; rw [decide_eq_true_eq, accepted_eq]; exact Iff.rfl)
  refine ⟨is, h1, fun i => ?_⟩
  rw [h2.mem_iff, accepted_eq]
  simp only [List.mem_map, List.mem_filter, decide_eq_true_eq]
  constructor
  · rintro ⟨r, ⟨a, b⟩, c⟩; exact ⟨r, a, b, c.symm⟩
  · rintro ⟨r, a, b, c⟩; exact ⟨r, ⟨a, b⟩, c.symm⟩

theorem glueCheck_spec {thr : Nat} {d : Loaded} {w : World} {xs : List (RR × Nat × Nat)} (hr : Represents d.ctx w) (hc : Coherent d w xs) :
    ∃ is, glueCheck thr d = .ok is ∧ ∀ i, i ∈ is ↔ ∃ p ∈ w.zones, ∃ ns, d.ctx.zoneNs.lookup p.1 = some ns ∧ ∃ r ∈ stored p.2, MissesGlue p.2 r ∧
      i = ⟨ns, present (soaOwner (stored p.2)), showRecord r⟩ := by
  obtain ⟨-, -, t, zones, hz, hall⟩ := hr
  unfold glueCheck
  rw [hz]
  have key : ∀ (zs qs : List (Nat × List RR)), List.Forall₂ (fun p q => p.1 = q.1 ∧ stored p.2 = stored q.2) zs qs →
      ∀ (acc : List Zone.GlueIssue), qs ⊆ w.zones →
      ∃ is, (zs.map (fun p => (p.1, Zone.afterAdds t p.1 p.2))).foldlM (fun acc p =>
        match d.ctx.zoneNs.lookup p.1 with
        | none => (Res.throw : Res (List Zone.GlueIssue))
        | some ns => do
          let r ← p.2.glueIssues thr ns
          .ok (acc ++ r)) acc = .ok is ∧ ∀ i, i ∈ is ↔ i ∈ acc ∨ ∃ p ∈ qs, ∃ ns, d.ctx.zoneNs.lookup p.1 = some ns ∧ ∃ r ∈ stored p.2, MissesGlue p.2 r ∧
            i = ⟨ns, present (soaOwner (stored p.2)), showRecord r⟩ := by
    intro zs qs hf
    induction hf with
    | nil => intro acc _; exact ⟨acc, rfl, by simp⟩
    | @cons p' p zs qs hpq _ ih =>
      intro acc hsub
      have hp : p ∈ w.zones := hsub List.mem_cons_self
      have : p.1 ∈ d.ctx.zoneNs.map (·.1) := by rw [hc.servers]; exact List.mem_map_of_mem hp
      obtain ⟨x, hx, hxe⟩ := List.mem_map.mp this
      have hinc : (d.ctx.zoneNs.map (·.1)).Pairwise (· < ·) := by rw [hc.servers]; exact hc.increasing
      have hl : d.ctx.zoneNs.lookup p.1 = some x.2 := by rw [← hxe]; exact lookup_of_mem hinc hx
      obtain ⟨is, h1, h2⟩ := glueIssues_of_zone thr t p'.1 p'.2 x.2
      have h2 : ∀ i, i ∈ is ↔ ∃ r ∈ stored p.2, MissesGlue p.2 r ∧ i = ⟨x.2, present (soaOwner (stored p.2)), showRecord r⟩ := by
        intro i
        rw [h2]
        unfold MissesGlue
        rw [hpq.2]
      obtain ⟨is', h3, h4⟩ := ih (acc ++ is) (fun y hy => hsub (List.mem_cons_of_mem _ hy))
      refine ⟨is', ?_, ?_⟩
      · rw [List.map_cons, List.foldlM_cons]
        dsimp only
        rw [hpq.1, hl]
        dsimp only
        rw [← hpq.1, h1, Res.ok_bind, Res.ok_bind]
        exact h3
      · intro i
        rw [h4, List.mem_append, h2, or_assoc]
        simp only [List.mem_cons, exists_eq_or_imp]
        rw [hl]
        simp
  obtain ⟨is, h1, h2⟩ := key zones w.zones hall [] (fun x hx => hx)
  exact ⟨is, h1, fun i => by rw [h2]; simp⟩

theorem glueCheck_ok {thr : Nat} {lint : Bool} {read : Str → Str} {exists_ : Str → Bool} {m : Meta} {d : Loaded}
    (h : setContext thr lint read exists_ m = .ok d) : ∃ is, glueCheck thr d = .ok is := by
  obtain ⟨w, xs, h1, -, -, h2, -⟩ := C64_loaded thr lint read exists_ m d h
  obtain ⟨is, h3, -⟩ := glueCheck_spec (thr := thr) h1 h2
  exact ⟨is, h3⟩

/-- `Main` after the files have been loaded. -/
def Driver.afterLoading (fuel thr : Nat) (d : Loaded) (jobs : Option (List UJob)) : Res Totals :=
  match jobs with
  | some us => jobLoop fuel thr d.ctx d.lg {} {} us
  | none => do
    let r ← runJob fuel thr d.ctx d.lg {} (setDefaultJob {} ".".toList)
    .ok r.2

theorem main_eq (fuel thr : Nat) (lint : Bool) (read : Str → Str) (exists_ : Str → Bool) (m : Meta) (jobs : Option (List UJob)) :
    main fuel thr lint read exists_ m jobs = setContext thr lint read exists_ m >>= fun d => afterLoading fuel thr d jobs := by
  unfold main
  cases h : setContext thr lint read exists_ m with
  | ok d =>
    rw [Res.ok_bind, Res.ok_bind]
    cases lint with
    | true =>
      obtain ⟨is, hi⟩ := glueCheck_ok h
      rw [if_pos rfl, hi, Res.ok_bind]
      rfl
    | false => rw [if_neg (by simp), Res.ok_bind]; rfl
  | _ => rfl

theorem main_mono (thr : Nat) (lint : Bool) (read : Str → Str) (exists_ : Str → Bool) (m : Meta) (jobs : Option (List UJob)) (n : Nat) (t : Totals)
    (h : main n thr lint read exists_ m jobs = .ok t) : main (n + 1) thr lint read exists_ m jobs = .ok t := by
  rw [main_eq] at h ⊢
  obtain ⟨d, h1, h⟩ := bind_ok_iff.mp h
  refine bind_ok_iff.mpr ⟨d, h1, ?_⟩
  cases jobs with
  | some us => exact jobLoop_mono _ _ _ _ _ _ _ _ h
  | none =>
    unfold afterLoading at h ⊢
    obtain ⟨r, h2, h⟩ := bind_ok_iff.mp h
    exact bind_ok_iff.mpr ⟨r, runJob_mono _ _ _ _ _ _ _ h2, h⟩

theorem runSequential_graph {fuel thr thr' : Nat} {ctx : Context} {xs : List (RR × Nat × Nat)} {job : Job} {r : LGraph × List Task × List Violation}
    (h : runSequential fuel thr ctx (labelGraph thr' xs) job = .ok r) : r.1 = labelGraph thr' xs := by
  unfold runSequential at h
  obtain ⟨y, h1, h⟩ := bind_ok_iff.mp h
  obtain ⟨z, _, h⟩ := bind_ok_iff.mp h
  injection h with h
  rw [← h]
  exact C23_generation_no_trace thr' xs (Driver.req job) fuel y.1 y.2 h1

/-! ### The loop over the jobs -/

theorem setJob_history {pre : List UJob} {job j : Job} {u : UJob} (hp : job.structural = decide (SomeStructural pre))
    (h : setJob job u = .ok j) :
    ∃ j0, setJob {} u = .ok j0 ∧ j = { j0 with structural := decide (SomeStructural (pre ++ [u])) } := by
  refine ⟨_, C56_only_structural job {} j u h, ?_⟩
  have h2 := ((C57_job _ _ _).mp h).structural
  have : j.structural = decide (SomeStructural (pre ++ [u])) := by
    rw [Bool.eq_iff_iff, h2, hp, decide_eq_true_eq, decide_eq_true_eq]
    simp only [SomeStructural, List.mem_append, List.mem_singleton]
    constructor
    · rintro (⟨v, hv, ha⟩ | ha)
      · exact ⟨v, .inl hv, ha⟩
      · exact ⟨u, .inr rfl, ha⟩
    · rintro ⟨v, hv | hv, ha⟩
      · exact .inl ⟨v, hv, ha⟩
      · exact .inr (hv ▸ ha)
  rw [← this]

theorem jobLoop_runs {fuel thr thr' : Nat} {d : Loaded} {xs : List (RR × Nat × Nat)} (hd : d.lg = labelGraph thr' xs) (us pre : List UJob) (job : Job)
    (t t' : Totals) (hp : job.structural = decide (SomeStructural pre)) (h : jobLoop fuel thr d.ctx d.lg job t us = .ok t') :
    ∃ rs : List (List Task × List Violation), rs.length = us.length ∧
      (∀ i r, rs[i]? = some r → Alone fuel thr d (pre ++ us) (pre.length + i) r.1 r.2) ∧
      t'.violations = (rs.map (·.2)).foldl collect t.violations ∧ t'.ecs = t.ecs + (rs.map (fun r => (classes r.1).length)).sum := by
  induction us generalizing pre job t with
  | nil =>
    unfold jobLoop at h
    injection h with h
    subst h
    exact ⟨[], rfl, by simp, rfl, by simp⟩
  | cons u us ih =>
    unfold jobLoop at h
    obtain ⟨j, h1, h⟩ := bind_ok_iff.mp h
    obtain ⟨r, h2, h⟩ := bind_ok_iff.mp h
    unfold runJob at h2
    obtain ⟨x, h3, h2⟩ := bind_ok_iff.mp h2
    injection h2 with h2
    subst h2
    have hx : x.1 = d.lg := by rw [hd] at h3 ⊢; exact runSequential_graph h3
    dsimp only at h
    rw [hx] at h
    obtain ⟨j0, h4, h5⟩ := setJob_history hp h1
    obtain ⟨rs, e1, e2, e3, e4⟩ := ih (pre ++ [u]) j _ (by rw [h5]) h
    refine ⟨(x.2.1, x.2.2) :: rs, by simp [e1], ?_, by rw [e3]; rfl, by rw [e4, Driver.ecCount_eq]; simp [Nat.add_assoc]⟩
    intro i r hr
    cases i with
    | zero =>
      simp only [List.getElem?_cons_zero, Option.some.injEq] at hr
      subst hr
      refine ⟨u, j0, x.1, by simp, h4, ?_⟩
      have : (pre ++ u :: us).take (pre.length + 0 + 1) = pre ++ [u] := by
        rw [Nat.add_zero, List.take_append]; simp
      rw [this, ← h5, h3]
    | succ i =>
      have := e2 i r hr
      simp only [List.append_assoc, List.singleton_append, List.length_append, List.length_singleton] at this
      rwa [show pre.length + (i + 1) = pre.length + 1 + i by omega]

theorem Spec.Reported.collect {items : List (List Violation)} {vs : List Violation} (h : Reported items vs) (l : List Violation) :
    Reported (items ++ [l]) (Driver.collect vs l) := by
  obtain ⟨g, h1, h2, h3⟩ := collect_spec vs l
  refine ⟨?_, ?_, h3 h.once⟩
  · intro v hv
    rcases (h2 v).mp hv with hv | ⟨hv, hd⟩ | ⟨⟨q, c, hq⟩, rfl⟩
    · obtain ⟨l', hl, hc⟩ := h.sound v hv
      exact ⟨l', by simp [hl], hc⟩
    · exact ⟨l, by simp, .direct v hv hd⟩
    · exact ⟨l, by simp, .aliases q c hq g h1⟩
  · intro l' hl v hc
    rcases List.mem_append.mp hl with hl | hl
    · obtain ⟨v', h4, h5⟩ := h.complete l' hl v hc
      exact ⟨v', (h2 v').mpr (.inl h4), h5⟩
    · rw [List.mem_singleton.mp hl] at hc
      cases hc with
      | direct v hv hd => exact ⟨v, (h2 v).mpr (.inr (.inl ⟨hv, hd⟩)), .refl v⟩
      | aliases q c hq g' hg => exact ⟨.allAliases g, (h2 _).mpr (.inr (.inr ⟨⟨q, c, hq⟩, rfl⟩)), .groups _ _ (hg.perm h1 (fun _ _ => Iff.rfl))⟩

theorem reported_foldl (done items : List (List Violation)) (vs : List Violation) (h : Reported done vs) :
    Reported (done ++ items) (items.foldl collect vs) := by
  induction items generalizing done vs with
  | nil => simpa using h
  | cons l items ih =>
    have := ih (done ++ [l]) _ (h.collect l)
    simpa using this

theorem reported_nil : Reported [] [] := ⟨by simp, by simp, List.nodup_nil⟩

theorem Spec.SameUpToOrder.symm {a b : Violation} (h : SameUpToOrder a b) : SameUpToOrder b a := by
  cases h with
  | refl => exact .refl _
  | groups g g' h => exact .groups _ _ h.symm

theorem contributes_perm {a b : List Violation} (hab : ∀ v, v ∈ a ↔ v ∈ b) {v : Violation} (h : Contributes a v) : Contributes b v := by
  cases h with
  | direct v h hd => exact .direct v ((hab v).mp h) hd
  | aliases q c h g hg =>
    refine .aliases q c ((hab _).mp h) g ⟨hg.keys, fun c qs hc => ?_, fun q c hq => hg.all q c ((hab _).mpr hq)⟩
    obtain ⟨h1, h2, h3⟩ := hg.members c qs hc
    exact ⟨h1, h2, fun q => (h3 q).trans (hab _)⟩

/-- Two reports about the same items are the same up to the order of groups. -/
theorem reported_same {items items' : List (List Violation)} {vs vs' : List Violation} (h : Reported items vs) (h' : Reported items' vs')
    (hs : ∀ l ∈ items, ∃ l' ∈ items', ∀ v, v ∈ l ↔ v ∈ l') : ∀ v ∈ vs, ∃ v' ∈ vs', SameUpToOrder v v' := by
  intro v hv
  obtain ⟨l, hl, hc⟩ := h.sound v hv
  obtain ⟨l', hl', hll⟩ := hs l hl
  exact h'.complete l' hl' v (contributes_perm hll hc)

/-! ### Acceptable jobs -/

theorem setProp_of_asks {job : Job} {p : UProp} (hv : ValidTypes p) {w : Wanted} (hw : Asks p w) : ∃ j, setProp job p = .ok j := by
  rw [setProp_eq]
  rcases htypes : p.types with _ | l
  · exact ⟨_, setNamed_of_asks (fun t => ⟨fun h => absurd h (not_member_zero t), fun ⟨l, hl, _⟩ => by rw [htypes] at hl; cases hl⟩) hw⟩
  · obtain ⟨tr, pt, h1, _, h3⟩ := addTypes_ok l job.types 0 (hv l htypes)
    dsimp only
    rw [h1, Res.ok_bind]
    refine ⟨_, setNamed_of_asks (fun t => ?_) hw⟩
    rw [h3 t, or_iff_right (not_member_zero t)]
    constructor
    · rintro h; exact ⟨l, htypes, h⟩
    · rintro ⟨l', hl', h⟩; rw [htypes] at hl'; cases hl'; exact h

theorem setJob_of_acceptable {prev : Job} {u : UJob} (h : Acceptable u) : ∃ j, setJob prev u = .ok j := by
  unfold setJob
  generalize ({ domain := toLower u.domain, subdomains := u.subdomain, structural := prev.structural } : Job) = j0
  replace h := h.1
  revert h
  generalize u.properties = ps
  intro h
  induction ps generalizing j0 with
  | nil => exact ⟨j0, rfl⟩
  | cons p ps ih =>
    obtain ⟨h1, w, h2⟩ := h p (by simp)
    obtain ⟨j1, h3⟩ := setProp_of_asks (job := j0) h1 h2
    rw [List.foldlM_cons, h3, Res.ok_bind]
    exact ih j1 (fun q hq => h q (by simp [hq]))

theorem types_ne_zero {prev j : Job} {u : UJob} (h : setJob prev u = .ok j) (ha : AsksType u) : j.types ≠ 0 := by
  intro e
  have hm := (C57_job _ _ _).mp h
  obtain ⟨p, hp, ho⟩ := ha
  rcases ho with hn | ⟨l, hl, hne⟩
  · have := (hm.types .NS).mpr (.inr ⟨rfl, p, hp, hn⟩)
    rw [e] at this
    exact not_member_zero _ this
  · cases l with
    | nil => exact hne rfl
    | cons s l =>
      obtain ⟨t, ht⟩ := hm.valid p hp _ hl s (by simp)
      have := (hm.types t).mpr (.inl ⟨p, hp, _, hl, s, by simp, ht⟩)
      rw [e] at this
      exact not_member_zero _ this

end Groot
