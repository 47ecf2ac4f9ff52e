import Verif.Lemmas.Outcome3

/-! # What one class reports -/

namespace Groot
open Spec

variable {w : World} {pf : List PathFn} {nf : List NodeFn} {q : EC} {vs : List Violation} {g : IG} {l : Option Violation} {s : IG.Enum}

theorem emits_about {f : PathFn} {v : Violation} (h : f.Emits v) : AboutPath v := by
  cases f <;> cases v <;> first | trivial | exact h.elim

theorem about_not_node {v : Violation} (h : AboutPath v) : ∀ f, ¬ NodeFn.Emits f v := by
  intro f hf
  cases v <;> first | exact h.elim | (cases f <;> exact hf.elim)

theorem Processed.pathOutcome (h : Processed w pf nf q vs g l s) (hw : WellFormed w) (hpf : ∀ f ∈ pf, f.Configured) :
    PathOutcome w (saidBy g) (ask q) pf vs where
  sound := by
    intro v hv ha
    obtain ⟨p, hp, f, hf, he, y, hy, hm⟩ := h.path_source hv (by rintro ns rfl; exact ha.elim) (about_not_node ha)
    obtain ⟨us, rfl⟩ := h.path_cons hp
    obtain ⟨t, h1, h2⟩ := h.to_examined hp
    obtain ⟨y', h3, h4, _⟩ := reports_run h.inv hw (h.resolution _ hp) f (hpf f hf)
    have : y = y' := by have := hy.symm.trans h3; injection this
    subst this
    refine ⟨f, hf, t, h1, ?_⟩
    rw [transcript_eq h.inv h2]
    exact h4 v hm
  complete := by
    intro f hf p hp v hv
    obtain ⟨us, h1, h2⟩ := h.examined hw hp
    obtain ⟨y, h3, _, h4⟩ := reports_run h.inv hw (h.resolution _ h1) f (hpf f hf)
    rw [transcript_eq h.inv h2] at hv
    obtain ⟨v', hm, ha⟩ := h4 v hv
    exact ⟨v', (h.mem _).mpr (.inr (.inl ⟨_, h1, f, hf, y, h3, hm⟩)), ha⟩

/-! ### Final answers -/

theorem Processed.endsAt (h : Processed w pf nf q vs g l s) (hw : WellFormed w) (x : Visit) :
    EndsAt w (saidBy g) (ask q) x ↔ ∃ u ∈ s.ends, Server g u ∧ view g u = x := by
  constructor
  · rintro ⟨p, hp, hl⟩
    obtain ⟨us, h1, h2⟩ := h.examined hw hp
    rw [transcript_eq h.inv h2, List.getLast?_map] at hl
    cases hu : us.getLast? with
    | none => rw [hu] at hl; cases hl
    | some u =>
      rw [hu] at hl
      simp only [Option.map_some, Option.some.injEq] at hl
      refine ⟨u, (h.ends u).mpr ⟨_, h1, ?_⟩, rest_servers (h.resolution _ h1) u (List.mem_of_getLast? hu), hl⟩
      cases us with
      | nil => cases hu
      | cons y ys => rw [List.getLast?_cons_cons]; exact hu
  · rintro ⟨u, hu, hs, rfl⟩
    obtain ⟨p, hp, hl⟩ := (h.ends u).mp hu
    obtain ⟨us, rfl⟩ := h.path_cons hp
    obtain ⟨t, h1, h2⟩ := h.to_examined hp
    refine ⟨t, h1, ?_⟩
    rw [transcript_eq h.inv h2, List.getLast?_map]
    cases us with
    | nil =>
      simp at hl; subst hl
      exact absurd (root_ns (h.resolution _ hp)) hs
    | cons y ys => rw [List.getLast?_cons_cons] at hl; rw [hl]; rfl

theorem view_asked (g : IG) (u : Nat) (ts : TypeSet) : (view g u).AskedFor ts ↔ AskedFor g u ts := by
  unfold Visit.AskedFor AskedFor
  constructor
  · rintro ⟨t, h1, h2⟩; exact ⟨t, (mem_supported t).mpr h1.1, h1, h2⟩
  · rintro ⟨t, _, h1, h2⟩; exact ⟨t, h1, h2⟩

theorem view_informs {g : IG} {u : Nat} {ts : TypeSet} (hs : Server g u) : (view g u).Informs ts ↔ Informative g ts u := by
  unfold Visit.Informs Informative
  rw [view_asked, view_tells, view_tells]
  exact ⟨fun h => ⟨hs, h⟩, fun h => h.2⟩

theorem view_wrong (g : IG) (u : Nat) (ts : TypeSet) (values : List Str) : (view g u).Wrong ts values ↔ WrongValue g ts values u := by
  unfold Visit.Wrong WrongValue
  rw [view_asked, view_tells, view_tells, view_tells, view_tells, view_records]

theorem Processed.node_source (h : Processed w pf nf q vs g l s) {v : Violation} (hv : v ∈ vs) (hl : ∀ ns, v ≠ .loop ns) (ha : ¬ AboutPath v) :
    ∃ f ∈ nf, f.Emits v ∧ ∃ y, f.run g s.ends = .ok y ∧ v ∈ y := by
  rcases (h.mem v).mp hv with h1 | ⟨p, hp, f, hf, y, hy, h1⟩ | ⟨f, hf, y, hy, h1⟩
  · obtain ⟨ns, rfl⟩ := h.isLoop v h1
    exact absurd rfl (hl ns)
  · obtain ⟨y', hy', he⟩ := h.pathEmits p hp f hf
    have := hy'.symm.trans hy
    injection this with e
    exact absurd (emits_about (he v (e ▸ h1))) ha
  · obtain ⟨y', hy', he⟩ := h.nodeEmits f hf
    have := hy'.symm.trans hy
    injection this with e
    exact ⟨f, hf, he v (e ▸ h1), y, hy, h1⟩

theorem Processed.of_node (h : Processed w pf nf q vs g l s) {v : Violation} {f : NodeFn} (hf : f ∈ nf) {y : List Violation} (hy : f.run g s.ends = .ok y)
    (hv : v ∈ y) : v ∈ vs := (h.mem v).mpr (.inr (.inr ⟨f, hf, y, hy, hv⟩))

/-- If there are informative end nodes, the first end node is one of a server. -/
theorem Processed.head_server (h : Processed w pf nf q vs g l s) (hw : WellFormed w) {u u' : Nat} {rest : List Nat} (e : s.ends = u :: rest) (hu' : u' ∈ s.ends)
    (hs : Server g u') : Server g u := by
  have htop : w.top ≠ [] := by
    obtain ⟨p, hp, hl⟩ := (h.ends u').mp hu'
    obtain ⟨us, rfl⟩ := h.path_cons hp
    obtain ⟨t, h1, h2⟩ := h.to_examined hp
    have hr : Route w [] (ask q) t := by rcases h1 with h1 | h1 <;> exact h1.route
    cases hr with
    | done =>
      cases h2
      simp at hl; subst hl
      exact absurd (root_ns (h.resolution _ hp)) hs
    | step _ _ s' a' sd p hst _ =>
      cases hst with
      | top _ _ hm => exact List.ne_nil_of_mem hm
      | rewriteHere => contradiction
      | rewriteTop => contradiction
      | referral => contradiction
  have := h.endsOk.2 htop u (by rw [e]; simp)
  intro hn
  have hroot := h.inv.core.dummy u (ask (g.vtx u).query)
  by_cases hlt : u < g.verts.length
  · have := hroot ⟨hlt, hn, rfl⟩
    exact h.endsOk.2 htop u (by rw [e]; simp) (by unfold firstAns; rw [this]; rfl)
  · have e1 := vtx_ge (g := g) (v := u) (by omega)
    apply this
    unfold firstAns
    rw [e1]; rfl

theorem takeWhile_all {α : Type} {P : α → Bool} {l : List α} (h : ∀ x ∈ l, P x = true) : l.takeWhile P = l := by
  induction l with
  | nil => rfl
  | cons a l ih => rw [List.takeWhile_cons_of_pos (h a (by simp)), ih (fun x hx => h x (by simp [hx]))]

theorem view_misses {g : IG} {u : Nat} {ts : TypeSet} (hs : Server g u) (v : Violation) :
    (view g u).Misses ts v ↔ Informative g ts u ∧ ∃ a ∈ missingTypes g ts u,
      v = .responseReturned (showQuery (g.vtx u).query) (showTypes (a.types &&& ts)) (g.vtx u).ns := by
  unfold Visit.Misses missingTypes
  rw [view_informs hs, view_show]
  refine and_congr_right fun _ => ?_
  constructor
  · rintro ⟨a, h1, h2, ⟨t, h3⟩, rfl⟩
    refine ⟨a, ?_, rfl⟩
    rw [List.mem_filter, decide_eq_true_eq]
    exact ⟨h1, h2, t, (mem_supported t).mpr h3.1.1, h3⟩
  · rintro ⟨a, h1, rfl⟩
    rw [List.mem_filter, decide_eq_true_eq] at h1
    obtain ⟨h1, h2, t, _, h3⟩ := h1
    exact ⟨a, h1, h2, ⟨t, h3⟩, rfl⟩

theorem Processed.missing_iff (h : Processed w pf nf q vs g l s) (hw : WellFormed w) (hex : q.nonExistent = false) {ts : TypeSet} (hf : .returned ts ∈ nf) {x : Visit}
    (hx : EndsAt w (saidBy g) (ask q) x) {v : Violation} (hv : x.Misses ts v) : v ∈ vs := by
  obtain ⟨u, hu, hs, rfl⟩ := (h.endsAt hw x).mp hx
  obtain ⟨h1, a, h2, rfl⟩ := (view_misses hs v).mp hv
  refine h.of_node hf (C46_response_returned g ts s.ends h.endsOk.1) ?_
  rw [takeWhile_all (fun v _ => by simp [h.existing hex v]), List.mem_flatMap]
  exact ⟨u, List.mem_filter.mpr ⟨hu, by simpa using h1⟩, List.mem_map.mpr ⟨a, h2, rfl⟩⟩

theorem Processed.server_of_ans (h : Processed w pf nf q vs g l s) (htop : w.top ≠ []) {u : Nat} (hu : u ∈ s.ends) : Server g u := by
  intro hn
  by_cases hlt : u < g.verts.length
  · have := h.inv.core.dummy u (ask (g.vtx u).query) ⟨hlt, hn, rfl⟩
    exact h.endsOk.2 htop u hu (by unfold firstAns; rw [this]; rfl)
  · have e1 := vtx_ge (g := g) (v := u) (by omega)
    exact h.endsOk.2 htop u hu (by unfold firstAns; rw [e1]; rfl)

theorem found_unique {x : Visit} {ts : TypeSet} {f f' : List Str} (h : x.Found ts f) (h' : x.Found ts f') : f = f' :=
  sorted_ext _ _ h.1 h'.1 (fun s => (h.2 s).trans (h'.2 s).symm)

open Classical in
theorem Processed.value_list (h : Processed w pf nf q vs g l s) (hw : WellFormed w) (htop : w.top ≠ []) {ts : TypeSet} {values : List Str} {found : Nat → List Str}
    (h1 : ∀ v ∈ s.ends, WrongValue g ts values v → (found v).Pairwise StrLt ∧ ∀ x, x ∈ found v ↔
        (¬ Answers g v .NX ∧ ¬ Answers g v .YX) ∧ ∃ r ∈ ansRecords g v, Member ts r.type ∧ r.rdata = x) (z : Str × Str × Str) :
    z ∈ (s.ends.filter (fun v => decide (WrongValue g ts values v))).map (fun v => ((found v).flatten, (showQuery (g.vtx v).query), (g.vtx v).ns)) ↔
      ∃ x found, EndsAt w (saidBy g) (ask q) x ∧ x.Wrong ts values ∧ x.Found ts found ∧ z = (found.flatten, showAsk x.ask, x.server) := by
  have hfound : ∀ u ∈ s.ends, WrongValue g ts values u → (view g u).Found ts (found u) := by
    intro u hu hwr
    obtain ⟨h2, h3⟩ := h1 u hu hwr
    refine ⟨h2, fun x => ?_⟩
    rw [h3, view_tells, view_tells, view_records, and_assoc]
  rw [List.mem_map]
  constructor
  · rintro ⟨u, hu, rfl⟩
    rw [List.mem_filter, decide_eq_true_eq] at hu
    exact ⟨view g u, found u, (h.endsAt hw _).mpr ⟨u, hu.1, h.server_of_ans htop hu.1, rfl⟩, (view_wrong _ _ _ _).mpr hu.2, hfound u hu.1 hu.2, by rw [view_show]; rfl⟩
  · rintro ⟨x, fd, hx, hwr, hfd, rfl⟩
    obtain ⟨u, hu, hs, rfl⟩ := (h.endsAt hw x).mp hx
    have hwr := (view_wrong _ _ _ _).mp hwr
    refine ⟨u, List.mem_filter.mpr ⟨hu, by simpa using hwr⟩, ?_⟩
    rw [found_unique hfd (hfound u hu hwr), view_show]; rfl

theorem Processed.endOutcome (h : Processed w pf nf q vs g l s) (hw : WellFormed w) (hnf : ∀ f ∈ nf, f.Configured w) :
    EndOutcome w (saidBy g) (ask q) nf vs where
  consistency := by
    constructor
    · rintro ⟨n, hv⟩
      obtain ⟨f, hf, he, y, hy, hm⟩ := h.node_source hv (fun _ e => nomatch e) (fun h => h.elim)
      cases f with
      | consistency ts =>
        refine ⟨ts, hf, ?_⟩
        cases hends : s.ends with
        | nil => rw [hends] at hy; cases hy; cases hm
        | cons v0 rest =>
          have hok := h.endsOk.1
          rw [hends] at hok hy
          obtain ⟨y', h1, h2, h3⟩ := C48_response_consistency g ts v0 rest hok
          have : y = y' := by have := hy.symm.trans h1; injection this
          subst this
          obtain ⟨v, hv1, u, hu1, hiv, hiu, hd⟩ := h3.mp (List.ne_nil_of_mem hm)
          rw [← hends] at hv1 hu1
          refine ⟨view g v, view g u, (h.endsAt hw _).mpr ⟨v, hv1, hiv.1, rfl⟩, (h.endsAt hw _).mpr ⟨u, hu1, hiu.1, rfl⟩, (view_informs hiv.1).mpr hiv,
            (view_informs hiu.1).mpr hiu, ?_⟩
          unfold Visit.Disagrees
          rw [view_records, view_records]
          refine hd.imp_right ?_
          rintro ⟨h4, h5, t, h6, h7⟩
          exact ⟨h4, h5, t, (view_tells _ _ _).mpr h6, fun hc => h7 ((view_tells _ _ _).mp hc)⟩
      | _ => exact he.elim
    · rintro ⟨ts, hf, x, y, hx, hy, hix, hiy, hd⟩
      obtain ⟨u, hu, hs, rfl⟩ := (h.endsAt hw x).mp hx
      obtain ⟨v, hv, hs', rfl⟩ := (h.endsAt hw y).mp hy
      cases hends : s.ends with
      | nil => rw [hends] at hu; cases hu
      | cons v0 rest =>
        have hok := h.endsOk.1
        rw [hends] at hok hu hv
        obtain ⟨y', h1, h2, h3⟩ := C48_response_consistency g ts v0 rest hok
        have hne := h3.mpr ⟨u, hu, v, hv, (view_informs hs).mp hix, (view_informs hs').mp hiy, by
          unfold Visit.Disagrees at hd
          rw [view_records, view_records] at hd
          refine hd.imp_right ?_
          rintro ⟨h4, h5, t, h6, h7⟩
          exact ⟨h4, h5, t, (view_tells _ _ _).mp h6, fun hc => h7 ((view_tells _ _ _).mpr hc)⟩⟩
        rcases h2 with h2 | h2
        · exact absurd h2 hne
        · refine ⟨_, h.of_node hf (y := y') ?_ (by rw [h2]; exact List.mem_singleton.mpr rfl)⟩
          rw [hends]; exact h1
  consistencyName := by
    intro n hv
    obtain ⟨f, hf, he, y, hy, hm⟩ := h.node_source hv (fun _ e => nomatch e) (fun h => h.elim)
    cases f with
    | consistency ts =>
      cases hends : s.ends with
      | nil => rw [hends] at hy; cases hy; cases hm
      | cons v0 rest =>
        have hok := h.endsOk.1
        rw [hends] at hok hy
        obtain ⟨y', h1, h2, h3⟩ := C48_response_consistency g ts v0 rest hok
        have : y = y' := by have := hy.symm.trans h1; injection this
        subst this
        obtain ⟨v, hv1, u, hu1, hiv, hiu, hd⟩ := h3.mp (List.ne_nil_of_mem hm)
        rw [← hends] at hv1
        rcases h2 with h2 | h2
        · rw [h2] at hm; cases hm
        · rw [h2] at hm
          have := List.mem_singleton.mp hm
          injection this with e
          exact ⟨view g v0, (h.endsAt hw _).mpr ⟨v0, by rw [hends]; simp, h.head_server hw hends hv1 hiv.1, rfl⟩, by rw [view_show, e]⟩
    | _ => exact he.elim
  zeroTTL := by
    intro sv r
    constructor
    · rintro ⟨n, hv⟩
      obtain ⟨f, hf, he, y, hy, hm⟩ := h.node_source hv (fun _ e => nomatch e) (fun h => h.elim)
      cases f with
      | zeroTTL ts =>
        refine ⟨ts, hf, ?_⟩
        cases hends : s.ends with
        | nil => rw [hends] at hy; cases hy; cases hm
        | cons v0 rest =>
          have hok := h.endsOk.1
          rw [hends] at hok hy
          have := hy.symm.trans (C49_zero_ttl g ts v0 rest hok (fun v _ r hr => h.inv.supported_records hw hr))
          injection this with e
          rw [e] at hm
          obtain ⟨u, hu, hm⟩ := List.mem_flatMap.mp hm
          obtain ⟨rr, hrr, e⟩ := List.mem_map.mp hm
          injection e with e1 e2 e3
          rw [informative, List.mem_filter, ← hends, decide_eq_true_eq] at hu
          rw [List.mem_filter, decide_eq_true_eq] at hrr
          exact ⟨view g u, (h.endsAt hw _).mpr ⟨u, hu.1, hu.2.1, rfl⟩, (view_informs hu.2.1).mpr hu.2, e2, rr, by rw [view_records]; exact hrr.1, hrr.2, e3.symm⟩
      | _ => exact he.elim
    · rintro ⟨ts, hf, x, hx, hi, rfl, rr, h1, h2, rfl⟩
      obtain ⟨u, hu, hs, rfl⟩ := (h.endsAt hw x).mp hx
      cases hends : s.ends with
      | nil => rw [hends] at hu; cases hu
      | cons v0 rest =>
        have hok := h.endsOk.1
        rw [hends] at hok
        refine ⟨showQuery (g.vtx v0).query, h.of_node hf (by rw [hends]; exact C49_zero_ttl g ts v0 rest hok (fun v _ r hr => h.inv.supported_records hw hr)) ?_⟩
        rw [List.mem_flatMap]
        refine ⟨u, by rw [informative, List.mem_filter, ← hends, decide_eq_true_eq]; exact ⟨hu, (view_informs hs).mp hi⟩, ?_⟩
        rw [List.mem_map]
        rw [view_records] at h1
        exact ⟨rr, List.mem_filter.mpr ⟨h1, by simpa using h2⟩, rfl⟩
  zeroTTLName := by
    intro n sv r hv
    obtain ⟨f, hf, he, y, hy, hm⟩ := h.node_source hv (fun _ e => nomatch e) (fun h => h.elim)
    cases f with
    | zeroTTL ts =>
      cases hends : s.ends with
      | nil => rw [hends] at hy; cases hy; cases hm
      | cons v0 rest =>
        have hok := h.endsOk.1
        rw [hends] at hok hy
        have := hy.symm.trans (C49_zero_ttl g ts v0 rest hok (fun v _ r hr => h.inv.supported_records hw hr))
        injection this with e
        rw [e] at hm
        obtain ⟨u, hu, hm⟩ := List.mem_flatMap.mp hm
        obtain ⟨rr, hrr, e⟩ := List.mem_map.mp hm
        injection e with e1 e2 e3
        rw [informative, List.mem_filter, ← hends, decide_eq_true_eq] at hu
        exact ⟨view g v0, (h.endsAt hw _).mpr ⟨v0, by rw [hends]; simp, h.head_server hw hends hu.1 hu.2.1, rfl⟩, by rw [view_show, e1]⟩
    | _ => exact he.elim
  value := by
    intro e l' hv
    obtain ⟨f, hf, he, y, hy, hm⟩ := h.node_source hv (fun _ e => nomatch e) (fun h => h.elim)
    cases f with
    | value ts values =>
      refine ⟨ts, values, hf, ?_⟩
      obtain ⟨found, h1, h2⟩ := C47_response_value g ts values (hnf _ hf).1 s.ends (h.endsOk.2 (hnf _ hf).2) (fun v _ r hr => h.inv.supported_records hw hr)
      have := hy.symm.trans h2
      injection this with e1
      rw [e1] at hm
      split at hm
      · rename_i hc
        have := List.mem_singleton.mp hm
        injection this with e2 e3
        refine ⟨e2, ?_, ?_⟩
        · obtain ⟨u, hu, hw'⟩ := hc
          exact ⟨view g u, (h.endsAt hw _).mpr ⟨u, hu, h.server_of_ans (hnf _ hf).2 hu, rfl⟩, (view_wrong _ _ _ _).mpr hw'⟩
        · intro z; rw [e3]; exact h.value_list hw (hnf _ hf).2 h1 z
      · cases hm
    | _ => exact he.elim
  valueComplete := by
    intro ts values hf x hx hwr
    obtain ⟨u, hu, hs, rfl⟩ := (h.endsAt hw x).mp hx
    obtain ⟨found, h1, h2⟩ := C47_response_value g ts values (hnf _ hf).1 s.ends (h.endsOk.2 (hnf _ hf).2) (fun v _ r hr => h.inv.supported_records hw hr)
    rw [if_pos ⟨u, hu, (view_wrong _ _ _ _).mp hwr⟩] at h2
    exact ⟨_, h.of_node hf h2 (List.mem_singleton.mpr rfl), h.value_list hw (hnf _ hf).2 h1⟩
  missing := by
    intro n t sv hv
    obtain ⟨f, hf, he, y, hy, hm⟩ := h.node_source hv (fun _ e => nomatch e) (fun h => h.elim)
    cases f with
    | returned ts =>
      refine ⟨ts, hf, ?_⟩
      have := hy.symm.trans (C46_response_returned g ts s.ends h.endsOk.1)
      injection this with e
      rw [e] at hm
      obtain ⟨u, hu, hm⟩ := List.mem_flatMap.mp hm
      obtain ⟨a, ha, e⟩ := List.mem_map.mp hm
      rw [List.mem_filter, decide_eq_true_eq] at hu
      have hu1 := List.takeWhile_subset _ hu.1
      exact ⟨view g u, (h.endsAt hw _).mpr ⟨u, hu1, hu.2.1, rfl⟩, (view_misses hu.2.1 _).mpr ⟨hu.2, a, ha, e.symm⟩⟩
    | _ => exact he.elim

/-! ### Loops -/

theorem Processed.of_loop (h : Processed w pf nf q vs g l s) {ns : List LoopNode} (hv : .loop ns ∈ vs) : l = some (.loop ns) := by
  rcases (h.mem _).mp hv with e | ⟨p, hp, f, hf, y, hy, hv⟩ | ⟨f, hf, y, hy, hv⟩
  · exact e
  · obtain ⟨y', hy', he⟩ := h.pathEmits p hp f hf
    have := hy'.symm.trans hy
    injection this with e
    have := he _ (e ▸ hv)
    cases f <;> exact this.elim
  · obtain ⟨y', hy', he⟩ := h.nodeEmits f hf
    have := hy'.symm.trans hy
    injection this with e
    have := he _ (e ▸ hv)
    cases f <;> exact this.elim

theorem needs_of_dep (h : BInv w (ask q) g []) {v u : Nat} {x : Str × Ask} (hv : At g v x.1 x.2) (hd : Dep g v u) :
    ∃ y : Str × Ask, At g u y.1 y.2 ∧ Needs w x y := by
  obtain ⟨e, he, rfl, hor⟩ := hd
  obtain ⟨s1, a1, s', a', sd, h2, h3, h4, h5⟩ := h.core.edges e he
  obtain ⟨e1, e2⟩ := h2.unique hv
  subst e1; subst e2
  rcases hor with rfl | hor
  · exact ⟨(s', a'), h3, .inl ⟨sd, h5⟩⟩
  · rcases h4 with ⟨h4, _⟩ | ⟨n, b, h4, h6, h7⟩
    · rw [h4] at hor; cases hor
    · rw [h4] at hor
      cases hor
      subst h6
      exact ⟨([], b), h7, .inr ⟨s', a', h5, rfl⟩⟩

/-- What the node asks of whom. -/
def spot (g : IG) (v : Nat) : Str × Ask := ((g.vtx v).ns, ask (g.vtx v).query)

theorem needs_spot (h : BInv w (ask q) g []) {v u : Nat} (hv : v < g.verts.length) (hd : Dep g v u) : u < g.verts.length ∧ Needs w (spot g v) (spot g u) := by
  obtain ⟨y, h1, h2⟩ := needs_of_dep (x := spot g v) h ⟨hv, rfl, rfl⟩ hd
  have : spot g u = y := Prod.ext h1.2.1 h1.2.2
  rw [this]
  exact ⟨h1.1, h2⟩

theorem needs_chain (h : BInv w (ask q) g []) : ∀ {c : List Nat} {v : Nat}, v < g.verts.length → List.IsChain (Dep g) (v :: c) →
    List.IsChain (Needs w) ((v :: c).map (spot g)) ∧ ∀ u ∈ c, u < g.verts.length := by
  intro c
  induction c with
  | nil => intro v _ _; exact ⟨List.isChain_singleton _, by simp⟩
  | cons u c ih =>
    intro v hv hc
    rw [List.isChain_cons_cons] at hc
    obtain ⟨h1, h2⟩ := needs_spot h hv hc.1
    obtain ⟨h3, h4⟩ := ih h1 hc.2
    refine ⟨by rw [List.map_cons, List.map_cons, List.isChain_cons_cons]; exact ⟨h2, h3⟩, ?_⟩
    intro x hx
    rcases List.mem_cons.mp hx with rfl | hx
    · exact h1
    · exact h4 x hx

theorem needs_reaches (h : BInv w (ask q) g []) {v : Nat} (hr : Reaches g 0 v) : v < g.verts.length ∧ Relation.ReflTransGen (Needs w) ([], ask q) (spot g v) := by
  induction hr with
  | refl =>
    have h0 := h.core.root
    exact ⟨h0.1, by rw [show spot g 0 = ([], ask q) from Prod.ext h0.2.1 h0.2.2]⟩
  | tail _ hd ih =>
    obtain ⟨h1, h2⟩ := needs_spot h ih.1 hd
    exact ⟨h1, ih.2.tail h2⟩

theorem shown_spot (h : BInv w (ask q) g []) {v : Nat} (hv : v < g.verts.length) : shownNode g v = shownAsk (saidBy g) (spot g v) := by
  unfold shownNode shownAsk spot
  dsimp only
  rw [showAsk_ask]
  congr 1
  have hat : At g v (g.vtx v).ns (ask (g.vtx v).query) := ⟨hv, rfl, rfl⟩
  split
  · rename_i hn
    have := h.core.dummy v (ask (g.vtx v).query) ⟨hv, hn, rfl⟩
    unfold firstAns; rw [this]; rfl
  · rw [saidBy_eq h hat]
    unfold firstAns
    cases (g.vtx v).answer <;> rfl

theorem Processed.loopOutcome (h : Processed w pf nf q vs g l s) : LoopOutcome w (saidBy g) (ask q) vs where
  found := h.loop_iff
  one := by
    intro ns ns' h1 h2
    have := (h.of_loop h1).symm.trans (h.of_loop h2)
    injection this with e; injection e
  shows := by
    intro ns hv
    obtain ⟨c, ⟨x, r, rfl, hc⟩, hn, e, hr⟩ := h.loopShows _ (h.of_loop hv)
    injection e with e
    have hlt : ∀ v ∈ x :: r, v < g.verts.length := fun v hv => (needs_reaches h.inv (hr v hv)).1
    refine ⟨spot g x, r.map (spot g), ?_, (needs_reaches h.inv (hr x (by simp))).2, ?_, ?_⟩
    · rw [← List.map_cons]
      apply forall₂_at_nodup h.inv.core _ hn
      rw [List.forall₂_map_right_iff]
      rw [List.forall₂_same]
      intro v hv
      exact ⟨hlt v hv, rfl, rfl⟩
    · have := (needs_chain h.inv (hlt x (by simp)) hc).1
      simpa using this
    · rw [e, ← List.map_cons, List.map_map]
      apply List.map_congr_left
      intro v hv
      exact shown_spot h.inv (hlt v hv)

end Groot
