import Verif.Lemmas.Verdict
import Verif.Lemmas.Existing
import Verif.Props.Paths
import Verif.Props.Checks

/-! # What one class reports, in terms of questions -/

namespace Groot
open Spec

/-- The kind of violation a path check emits. -/
def PathFn.Emits : PathFn → Violation → Prop
  | .hops n, .hops _ _ n' => n' = n
  | .rewrites n, .rewrites _ _ n' => n' = n
  | .delegation, .delegation .. => True
  | .infiniteDname, .infiniteDname .. => True
  | .lame, .lame .. => True
  | .queryRewrite d, .queryRewrite _ _ _ a => a = printList d
  | .nsContact d, .nsContact _ _ a => a = printList d
  | .blackholing, .blackhole .. => True
  | .allAliases _, .alias .. => True
  | .dnameLength, .dnameLength .. => True
  | _, _ => False

/-- The kind of violation an end-node check emits. -/
def NodeFn.Emits : NodeFn → Violation → Prop
  | .consistency _, .responseConsistency .. => True
  | .returned _, .responseReturned .. => True
  | .value _ _, .responseValue .. => True
  | .zeroTTL _, .zeroTTL .. => True
  | _, _ => False

theorem PathFn.run_emits {w : World} {a0 : Ask} {g : IG} (h : BInv w a0 g []) (hw : WellFormed w) {p : List Nat} (hp : ResolutionPath g p) (f : PathFn)
    (hf : f.Configured) {y : List Violation} (hy : f.run g p = .ok y) : ∀ v ∈ y, f.Emits v := by
  obtain ⟨v0, rest, rfl, _⟩ := id hp
  obtain ⟨l, hl⟩ : ∃ l, (v0 :: rest).getLast? = some l := ⟨_, List.getLast?_eq_some_getLast (by simp)⟩
  intro v hv
  cases f with
  | misfit b => exact hf.elim
  | hops n =>
    have := (C39_hops g n v0 rest hp).symm.trans hy
    injection this with e
    rw [← e] at hv
    split at hv
    · rw [List.mem_singleton.mp hv]; rfl
    · cases hv
  | rewrites n =>
    have := (C40_rewrites g n v0 rest hp).symm.trans hy
    injection this with e
    rw [← e] at hv
    split at hv
    · rw [List.mem_singleton.mp hv]; rfl
    · cases hv
  | delegation =>
    have := (C45_delegation_consistency g v0 rest hp).symm.trans hy
    injection this with e
    rw [← e] at hv
    split at hv
    · cases hv
    · dsimp only at hv
      split at hv
      · cases hv
      · rcases List.mem_append.mp hv with hv | hv
        · split at hv
          · cases hv
          · rw [List.mem_singleton.mp hv]; trivial
        · split at hv
          · cases hv
          · rw [List.mem_singleton.mp hv]; trivial
  | infiniteDname =>
    obtain ⟨y', hy', _, _, hall⟩ := C52_infinite_dname g _ hp (fun x hx => h.supported_uses hw hx)
    have := hy'.symm.trans hy
    injection this with e
    obtain ⟨_, _, _, _, _, _, _, _, _, rfl⟩ := hall v (e ▸ hv)
    trivial
  | lame =>
    have := (C44_lame_delegation g v0 rest hp).symm.trans hy
    injection this with e
    rw [← e] at hv
    obtain ⟨x, _, rfl⟩ := List.mem_map.mp hv
    trivial
  | queryRewrite d =>
    have := (C41_query_rewrite g d hf _ hp).symm.trans hy
    injection this with e
    rw [← e] at hv
    obtain ⟨x, _, rfl⟩ := List.mem_map.mp hv
    rfl
  | nsContact d =>
    have := (C42_ns_contact g d hf (v0 :: rest)).symm.trans hy
    injection this with e
    rw [← e] at hv
    obtain ⟨x, _, rfl⟩ := List.mem_map.mp hv
    rfl
  | blackholing =>
    have := (C43_blackholing g _ l hl hp).symm.trans hy
    injection this with e
    rw [← e] at hv
    split at hv
    · cases hv
    · split at hv
      · rw [List.mem_singleton.mp hv]; trivial
      · cases hv
  | allAliases d =>
    obtain ⟨y', hy', hall⟩ := C50_all_aliases g d _ hp
    have := hy'.symm.trans hy
    injection this with e
    obtain ⟨_, _, _, _, _, _, _, _, _, rfl⟩ := (hall v).mp (e ▸ hv)
    trivial
  | dnameLength =>
    have := (C51_dname_length g v0 rest l hl hp).symm.trans hy
    injection this with e
    rw [← e] at hv
    split at hv
    · rw [List.mem_singleton.mp hv]; trivial
    · cases hv

theorem NodeFn.run_emits {w : World} {a0 : Ask} {g : IG} (h : BInv w a0 g []) (hw : WellFormed w) {ends : List Nat} (he : ∀ v ∈ ends, Answered g v)
    (he' : w.top ≠ [] → ∀ v ∈ ends, firstAns g v ≠ none) (f : NodeFn) (hf : f.Configured w) {y : List Violation} (hy : f.run g ends = .ok y) :
    ∀ v ∈ y, f.Emits v := by
  intro v hv
  cases f with
  | consistency ts =>
    cases ends with
    | nil => cases hy; cases hv
    | cons v0 rest =>
      obtain ⟨y', hy', h1, _⟩ := C48_response_consistency g ts v0 rest he
      have := hy'.symm.trans hy
      injection this with e
      rw [← e] at hv
      rcases h1 with h1 | h1
      · rw [h1] at hv; cases hv
      · rw [h1] at hv; rw [List.mem_singleton.mp hv]; trivial
  | returned ts =>
    have := (C46_response_returned g ts ends he).symm.trans hy
    injection this with e
    rw [← e] at hv
    obtain ⟨x, _, hv⟩ := List.mem_flatMap.mp hv
    obtain ⟨x, _, rfl⟩ := List.mem_map.mp hv
    trivial
  | value ts vs =>
    obtain ⟨_, _, hy'⟩ := C47_response_value g ts vs hf.1 ends (he' hf.2) (fun v _ r hr => h.supported_records hw hr)
    have := hy'.symm.trans hy
    injection this with e
    rw [← e] at hv
    split at hv
    · rw [List.mem_singleton.mp hv]; trivial
    · cases hv
  | zeroTTL ts =>
    cases ends with
    | nil => cases hy; cases hv
    | cons v0 rest =>
      have := (C49_zero_ttl g ts v0 rest he (fun v _ r hr => h.supported_records hw hr)).symm.trans hy
      injection this with e
      rw [← e] at hv
      obtain ⟨x, _, hv⟩ := List.mem_flatMap.mp hv
      obtain ⟨x, _, rfl⟩ := List.mem_map.mp hv
      trivial

/-- The processing of a class, taken apart. -/
structure Processed (w : World) (pf : List PathFn) (nf : List NodeFn) (q : EC) (vs : List Violation) (g : IG) (l : Option Violation) (s : IG.Enum) : Prop where
  inv : BInv w (ask q) g []
  sane : Sane g
  loop : l.isSome ↔ ∃ v, Reaches g 0 v ∧ Relation.TransGen (Dep g) v v
  isLoop : ∀ x, l = some x → ∃ ns, x = .loop ns
  paths : ∀ p, p ∈ s.paths ↔ MaximalPath g 0 p ∨ CnamePath g 0 p
  walk : ∀ p ∈ s.paths, WalkFrom g 0 p
  resolution : ∀ p ∈ s.paths, ResolutionPath g p
  mem : ∀ v, v ∈ vs ↔ l = some v ∨ (∃ p ∈ s.paths, ∃ f ∈ pf, ∃ y, f.run g p = .ok y ∧ v ∈ y) ∨ ∃ f ∈ nf, ∃ y, f.run g s.ends = .ok y ∧ v ∈ y
  pathEmits : ∀ p ∈ s.paths, ∀ f ∈ pf, ∃ y, f.run g p = .ok y ∧ ∀ v ∈ y, f.Emits v
  nodeEmits : ∀ f ∈ nf, ∃ y, f.run g s.ends = .ok y ∧ ∀ v ∈ y, f.Emits v
  ends : ∀ v, v ∈ s.ends ↔ ∃ p ∈ s.paths, p.getLast? = some v
  endsOk : (∀ v ∈ s.ends, Answered g v) ∧ (w.top ≠ [] → ∀ v ∈ s.ends, firstAns g v ≠ none)
  loopShows : ∀ x, l = some x → ∃ c, IsCycle g c ∧ c.Nodup ∧ x = .loop (c.map (shownNode g)) ∧ ∀ v ∈ c, Reaches g 0 v
  existing : q.nonExistent = false → ∀ v, (g.vtx v).query.nonExistent = false

theorem processed {ctx : Context} {w : World} (hr : Represents ctx w) (hw : WellFormed w) (thr : Nat) {pf : List PathFn} {nf : List NodeFn}
    (hpf : ∀ f ∈ pf, f.Configured) (hnf : ∀ f ∈ nf, f.Configured w) {q : EC} (hq : Short q.name) (ht : q.types ≠ 0) :
    ∃ N, ∀ fuel, N ≤ fuel → ∃ r g l s, processEC fuel thr ctx pf nf q = .ok r ∧ Processed w pf nf q r.1 g l s := by
  obtain ⟨N1, htot⟩ := C38_processing_total ctx w hr hw thr pf nf hpf hnf q hq ht
  obtain ⟨N2, g, hb, h⟩ := buildIG_ok hr hw thr q hq
  refine ⟨max N1 (max N2 (g.verts.length + 1)), fun fuel hf => ?_⟩
  obtain ⟨r, hrun⟩ := htot fuel (by omega)
  have hg := h.sane hw hq ht
  have hfl : g.verts.length < fuel := by omega
  obtain ⟨g', l, s, a, b, e1, e2, e3, e4, e5, e6⟩ := processEC_parts hrun
  have : g' = g := by
    have := (hb fuel (by omega)).symm.trans e1
    injection this with e; exact e.symm
  subst this
  obtain ⟨l', h1, h2⟩ := C36_loop_iff g' hg 0 h.core.root.1 fuel hfl
  have : l' = l := by have := h1.symm.trans e2; injection this
  subst this
  obtain ⟨s', h3, h4, _, h5⟩ := C37_enumeration g' hg 0 h.core.root.1 fuel hfl
  have : s' = s := by have := h3.symm.trans e3; injection this
  subst this
  have hwalk : ∀ p ∈ s'.paths, WalkFrom g' 0 p := by
    intro p hp
    rcases (h4 p).mp hp with h6 | h6 <;> exact h6.1
  have hres : ∀ p ∈ s'.paths, ResolutionPath g' p := fun p hp => h.path hw hg (hwalk p hp)
  obtain ⟨he1, he2⟩ := ends_ok h hw hg h4 h5
  refine ⟨r, g', l', s', hrun, h, hg, h2, ?_, h4, hwalk, hres, ?_, ?_, ?_, h5, ⟨he1, he2⟩, ?_, fun hq v => buildIG_unmarked hq e1 v⟩
  · rintro x rfl
    obtain ⟨c, _, _, e, _⟩ := C36_loop_report g' hg 0 h.core.root.1 fuel hfl x h1
    exact ⟨_, e⟩
  · intro v
    rw [e6, List.mem_append, List.mem_append, mem_concatM e4, mem_concatM e5]
    refine or_congr (by cases l' <;> simp [eq_comm]) (or_congr ?_ Iff.rfl)
    constructor
    · rintro ⟨p, hp, y, hy, hv⟩
      obtain ⟨f, hf, z, hz, hv⟩ := (mem_concatM hy v).mp hv
      exact ⟨p, hp, f, hf, z, hz, hv⟩
    · rintro ⟨p, hp, f, hf, z, hz, hv⟩
      obtain ⟨y, hy, _⟩ := concatM_all e4 p hp
      exact ⟨p, hp, y, hy, (mem_concatM hy v).mpr ⟨f, hf, z, hz, hv⟩⟩
  · intro p hp f hf
    obtain ⟨y, hy⟩ := PathFn.run_ok h hw (hres p hp) f (hpf f hf)
    exact ⟨y, hy, PathFn.run_emits h hw (hres p hp) f (hpf f hf) hy⟩
  · intro f hf
    obtain ⟨y, hy⟩ := NodeFn.run_ok h hw he1 he2 f (hnf f hf)
    exact ⟨y, hy, NodeFn.run_emits h hw he1 he2 f (hnf f hf) hy⟩
  · rintro x rfl
    exact C36_loop_report g' hg 0 h.core.root.1 fuel hfl x h1

variable {w : World} {pf : List PathFn} {nf : List NodeFn} {q : EC} {vs : List Violation} {g : IG} {l : Option Violation} {s : IG.Enum}

/-- A violation that only one kind of path check emits comes from such a check on an enumerated path. -/
theorem Processed.path_source (h : Processed w pf nf q vs g l s) {v : Violation} (hv : v ∈ vs) (hl : ∀ ns, v ≠ .loop ns) (hn : ∀ f, ¬ NodeFn.Emits f v) :
    ∃ p ∈ s.paths, ∃ f ∈ pf, f.Emits v ∧ ∃ y, f.run g p = .ok y ∧ v ∈ y := by
  rcases (h.mem v).mp hv with h1 | ⟨p, hp, f, hf, y, hy, h1⟩ | ⟨f, hf, y, hy, h1⟩
  · obtain ⟨ns, rfl⟩ := h.isLoop v h1
    exact absurd rfl (hl ns)
  · obtain ⟨y', hy', he⟩ := h.pathEmits p hp f hf
    have := hy'.symm.trans hy
    injection this with e
    exact ⟨p, hp, f, hf, he v (e ▸ h1), y, hy, h1⟩
  · obtain ⟨y', hy', he⟩ := h.nodeEmits f hf
    have := hy'.symm.trans hy
    injection this with e
    exact absurd (he v (e ▸ h1)) (hn f)

theorem toStr_of_ask {q q' : EC} (h : ask q = ask q') : (showQuery q) = (showQuery q') := by
  unfold ask at h
  injection h with h1 h2 h3
  unfold showQuery
  rw [h1]
  cases h : q.excluded <;> cases h' : q'.excluded <;> simp_all

theorem Processed.root_str (h : Processed w pf nf q vs g l s) : (showQuery (g.vtx 0).query) = (showQuery q) := toStr_of_ask h.inv.core.root.2.2

/-- Every complete resolution is on an enumerated path. -/
theorem Processed.of_complete (h : Processed w pf nf q vs g l s) {p : Trail} (hp : Complete w (ask q) p) :
    ∃ us, (0 :: us) ∈ s.paths ∧ List.Forall₂ (fun u x => At g u x.1 x.2.1) us p := by
  obtain ⟨us, h1, h2⟩ := maximal_of_complete h.inv hp
  exact ⟨us, (h.paths _).mpr (.inl h1), h2⟩

/-- Every enumerated path is a trail. -/
theorem Processed.to_route (h : Processed w pf nf q vs g l s) {p : List Nat} (hp : p ∈ s.paths) :
    ∃ us t, p = 0 :: us ∧ Route w [] (ask q) t ∧ List.Forall₂ (fun u x => At g u x.1 x.2.1) us t := by
  obtain ⟨hh, hc⟩ := h.walk p hp
  cases p with
  | nil => cases hh
  | cons v us =>
    simp only [List.head?_cons, Option.some.injEq] at hh
    subst hh
    obtain ⟨t, h1, h2⟩ := route_of_path h.inv us 0 [] (ask q) h.inv.core.root hc
    exact ⟨us, t, rfl, h1, h2⟩

/-! ### Hops -/

theorem Processed.hops (h : Processed w pf nf q vs g l s) (hw : WellFormed w) {n : Int} (hf : PathFn.hops n ∈ pf) {p : Trail} (hp : Complete w (ask q) p)
    (h0 : 0 ≤ n) (hn : n < hopsOf p) : .hops (showQuery q) (hopsOf p) n ∈ vs := by
  obtain ⟨us, h1, h2⟩ := h.of_complete hp
  have e := servers_of_at h.inv.core.root h2 (route_server hw hp.route)
  have hrun := C39_hops g n 0 us (h.resolution _ h1)
  rw [e] at hrun
  rw [if_pos ⟨h0, hn⟩, h.root_str] at hrun
  exact (h.mem _).mpr (.inr (.inl ⟨_, h1, _, hf, _, hrun, List.mem_singleton.mpr rfl⟩))

theorem Processed.hops_sound (h : Processed w pf nf q vs g l s) (hw : WellFormed w) {nm : Str} {k : Nat} {n : Int} (hv : .hops nm k n ∈ vs) :
    PathFn.hops n ∈ pf ∧ nm = (showQuery q) ∧ 0 ≤ n ∧ n < k ∧ ∃ p, Route w [] (ask q) p ∧ hopsOf p = k := by
  obtain ⟨p, hp, f, hf, he, y, hy, hv⟩ := h.path_source hv (fun _ e => nomatch e) (fun f hf => by cases f <;> exact hf)
  cases f with
  | hops n' =>
    have hn : n = n' := he
    subst hn
    obtain ⟨us, t, rfl, h1, h2⟩ := h.to_route hp
    have e := servers_of_at h.inv.core.root h2 (route_server hw h1)
    have hrun := (C39_hops g n 0 us (h.resolution _ hp)).symm.trans hy
    injection hrun with hrun
    rw [← hrun] at hv
    split at hv
    · rename_i hc
      have := List.mem_singleton.mp hv
      injection this with e1 e2 _
      rw [e] at e2 hc
      refine ⟨hf, by rw [e1, h.root_str], hc.1, by rw [e2]; exact hc.2, t, h1, e2.symm⟩
    · cases hv
  | _ => exact absurd he (by simp [PathFn.Emits])

/-! ### Rewrites -/

theorem Processed.rewrites (h : Processed w pf nf q vs g l s) (hw : WellFormed w) {n : Int} (hf : PathFn.rewrites n ∈ pf) {p : Trail}
    (hp : Complete w (ask q) p) (hn : n < rewritesOf w p) : .rewrites (showQuery q) (rewritesOf w p) n ∈ vs := by
  obtain ⟨us, h1, h2⟩ := h.of_complete hp
  have e := filter_of_at h.inv h.sane h2 (route_server hw hp.route)
  have hrun := C40_rewrites g n 0 us (h.resolution _ h1)
  rw [e] at hrun
  rw [if_pos hn, h.root_str] at hrun
  exact (h.mem _).mpr (.inr (.inl ⟨_, h1, _, hf, _, hrun, List.mem_singleton.mpr rfl⟩))

theorem Processed.rewrites_sound (h : Processed w pf nf q vs g l s) (hw : WellFormed w) {nm : Str} {k : Nat} {n : Int} (hv : .rewrites nm k n ∈ vs) :
    PathFn.rewrites n ∈ pf ∧ nm = (showQuery q) ∧ n < k ∧ ∃ p, Route w [] (ask q) p ∧ rewritesOf w p = k := by
  obtain ⟨p, hp, f, hf, he, y, hy, hv⟩ := h.path_source hv (fun _ e => nomatch e) (fun f hf => by cases f <;> exact hf)
  cases f with
  | rewrites n' =>
    have hn : n = n' := he
    subst hn
    obtain ⟨us, t, rfl, h1, h2⟩ := h.to_route hp
    have e := filter_of_at h.inv h.sane h2 (route_server hw h1)
    have hrun := (C40_rewrites g n 0 us (h.resolution _ hp)).symm.trans hy
    injection hrun with hrun
    rw [← hrun] at hv
    rw [e] at hv
    split at hv
    · rename_i hc
      have := List.mem_singleton.mp hv
      injection this with e1 e2 _
      exact ⟨hf, by rw [e1, h.root_str], by rw [e2]; exact hc, t, h1, e2.symm⟩
    · cases hv
  | _ => exact absurd he (by simp [PathFn.Emits])

/-! ### Loops -/

theorem Processed.loop_iff (h : Processed w pf nf q vs g l s) : (∃ ns, .loop ns ∈ vs) ↔ Circular w (ask q) := by
  have h1 : (∃ ns, Violation.loop ns ∈ vs) ↔ l.isSome := by
    constructor
    · rintro ⟨ns, hv⟩
      rcases (h.mem _).mp hv with e | ⟨p, hp, f, hf, y, hy, hv⟩ | ⟨f, hf, y, hy, hv⟩
      · rw [e]; rfl
      · obtain ⟨y', hy', he⟩ := h.pathEmits p hp f hf
        have := hy'.symm.trans hy
        injection this with e
        have := he _ (e ▸ hv)
        cases f <;> exact this.elim
      · obtain ⟨y', hy', he⟩ := h.nodeEmits f hf
        have := hy'.symm.trans hy
        injection this with e
        have := he _ (e ▸ hv)
        cases f <;> exact this.elim
    · intro hs
      obtain ⟨x, rfl⟩ := Option.isSome_iff_exists.mp hs
      obtain ⟨ns, rfl⟩ := h.isLoop x rfl
      exact ⟨ns, (h.mem _).mpr (.inl rfl)⟩
  rw [h1, h.loop]
  -- nodes and questions
  have fwd : ∀ {v u : Nat} {x : Str × Ask}, At g v x.1 x.2 → Dep g v u → ∃ y : Str × Ask, At g u y.1 y.2 ∧ Needs w x y := by
    rintro v u x hv ⟨e, he, rfl, hor⟩
    obtain ⟨s1, a1, s', a', sd, h2, h3, h4, h5⟩ := h.inv.core.edges e he
    obtain ⟨e1, e2⟩ := h2.unique hv
    subst e1; subst e2
    rcases hor with rfl | hor
    · exact ⟨(s', a'), h3, .inl ⟨sd, h5⟩⟩
    · rcases h4 with ⟨h4, _⟩ | ⟨n, b, h4, h6, h7⟩
      · rw [h4] at hor; cases hor
      · rw [h4] at hor
        cases hor
        subst h6
        exact ⟨([], b), h7, .inr ⟨s', a', h5, rfl⟩⟩
  have bwd : ∀ {v : Nat} {x y : Str × Ask}, At g v x.1 x.2 → Needs w x y → ∃ u, At g u y.1 y.2 ∧ Dep g v u := by
    rintro v x y hv (⟨sd, hs⟩ | ⟨s', a', hs, hy⟩)
    · obtain ⟨e, he, rfl, h2, _⟩ := h.inv.step hv hs
      exact ⟨e.dst, h2, e, he, rfl, .inl rfl⟩
    · obtain ⟨e, he, rfl, _, h3⟩ := h.inv.step hv hs
      rcases h3 with ⟨_, h3⟩ | ⟨n, b, h3, h4, h5⟩
      · cases h3
      · cases h4
        rw [← hy] at h5
        exact ⟨n, h5, e, he, rfl, .inr h3⟩
  have fwdT : ∀ {v u : Nat} {x : Str × Ask}, At g v x.1 x.2 → Relation.TransGen (Dep g) v u → ∃ y : Str × Ask, At g u y.1 y.2 ∧ Relation.TransGen (Needs w) x y := by
    intro v u x hv ht
    induction ht with
    | single hd => obtain ⟨y, h2, h3⟩ := fwd hv hd; exact ⟨y, h2, .single h3⟩
    | tail _ hd ih =>
      obtain ⟨y, h2, h3⟩ := ih
      obtain ⟨z, h4, h5⟩ := fwd h2 hd
      exact ⟨z, h4, h3.tail h5⟩
  have bwdT : ∀ {v : Nat} {x y : Str × Ask}, At g v x.1 x.2 → Relation.TransGen (Needs w) x y → ∃ u, At g u y.1 y.2 ∧ Relation.TransGen (Dep g) v u := by
    intro v x y hv ht
    induction ht with
    | single hd => obtain ⟨u, h2, h3⟩ := bwd hv hd; exact ⟨u, h2, .single h3⟩
    | tail _ hd ih =>
      obtain ⟨u, h2, h3⟩ := ih
      obtain ⟨z, h4, h5⟩ := bwd h2 hd
      exact ⟨z, h4, h3.tail h5⟩
  constructor
  · rintro ⟨v, hr, hc⟩
    obtain ⟨x, hx, hr'⟩ : ∃ x : Str × Ask, At g v x.1 x.2 ∧ Relation.ReflTransGen (Needs w) ([], ask q) x := by
      rcases Relation.reflTransGen_iff_eq_or_transGen.mp hr with rfl | ht
      · exact ⟨([], ask q), h.inv.core.root, .refl⟩
      · obtain ⟨x, h2, h3⟩ := fwdT (x := ([], ask q)) h.inv.core.root ht
        exact ⟨x, h2, h3.to_reflTransGen⟩
    obtain ⟨y, hy, hc'⟩ := fwdT hx hc
    obtain ⟨e1, e2⟩ := hx.unique hy
    have : x = y := Prod.ext e1 e2
    subst this
    exact ⟨x, hr', hc'⟩
  · rintro ⟨x, hr, hc⟩
    obtain ⟨v, hv, hr'⟩ : ∃ v, At g v x.1 x.2 ∧ Reaches g 0 v := by
      rcases Relation.reflTransGen_iff_eq_or_transGen.mp hr with rfl | ht
      · exact ⟨0, h.inv.core.root, .refl⟩
      · obtain ⟨v, h2, h3⟩ := bwdT (x := ([], ask q)) h.inv.core.root ht
        exact ⟨v, h2, h3.to_reflTransGen⟩
    obtain ⟨u, hu, hc'⟩ := bwdT hv hc
    have := h.inv.core.uniq u v _ _ hu hv
    subst this
    exact ⟨u, hr', hc'⟩

end Groot
