import Verif.Lemmas.Outcome4
import Verif.Props.Verdict

/-!
# C71–C73: what testing one class reports

Testing a class reports exactly what the installed checks say about the resolutions of the class: not one report is
lost and none is invented.  `Reports`, `EndsAt` and the rest are defined in `Spec/Outcome.lean` in terms of servers,
questions and answers.  DNAMEs are allowed, and the zones are arbitrary.
-/

namespace Groot
open Spec

/-- The answers recorded while a class is tested. -/
theorem Processed.kinds {w : World} {pf : List PathFn} {nf : List NodeFn} {q : EC} {vs : List Violation} {g : IG} {l : Option Violation} {s : IG.Enum}
    (hP : Processed w pf nf q vs g l s) : ∀ v ∈ vs, FromTest v := by
  intro v hv
  rcases (hP.mem _).mp hv with hl | ⟨p, hp, f, hf, y, hy, hvy⟩ | ⟨f, hf, y, hy, hvy⟩
  · obtain ⟨ns, rfl⟩ := hP.isLoop _ hl
    trivial
  · obtain ⟨y', hy', h⟩ := hP.pathEmits p hp f hf
    rw [hy] at hy'
    injection hy' with e
    subst e
    have := h _ hvy
    cases v <;> first | trivial | (cases f <;> exact this)
  · obtain ⟨y', hy', h⟩ := hP.nodeEmits f hf
    rw [hy] at hy'
    injection hy' with e
    subst e
    have := h _ hvy
    cases v <;> first | trivial | (cases f <;> exact this)

theorem class_outcome {ctx : Context} {w : World} (hr : Represents ctx w) (hw : WellFormed w) (thr : Nat) {pf : List PathFn} {nf : List NodeFn}
    (hpf : ∀ f ∈ pf, f.Configured) (hnf : ∀ f ∈ nf, f.Configured w) {q : EC} (hq : Short q.name) (ht : q.types ≠ 0) :
    ∃ N, ∀ fuel, N ≤ fuel → ∃ r said, processEC fuel thr ctx pf nf q = .ok r ∧ Answering w (ask q) said ∧ PathOutcome w said (ask q) pf r.1 ∧
      EndOutcome w said (ask q) nf r.1 ∧ LoopOutcome w said (ask q) r.1 ∧ (∀ v ∈ r.1, FromTest v) ∧
      (q.nonExistent = false → ∀ ts, .returned ts ∈ nf → ∀ x, EndsAt w said (ask q) x → ∀ v, x.Misses ts v → v ∈ r.1) := by
  obtain ⟨N, hN⟩ := processed hr hw thr hpf hnf hq ht
  refine ⟨N, fun fuel hf => ?_⟩
  obtain ⟨r, g, l, s, h1, h2⟩ := hN fuel hf
  exact ⟨r, saidBy g, h1, answering_saidBy h2.inv, h2.pathOutcome hw hpf, h2.endOutcome hw hnf, h2.loopOutcome, h2.kinds,
    fun hex ts hts x hx v hv => h2.missing_iff hw hex hts hx hv⟩

/-- Checks for the examples. -/
def outcomeChecks : List PathFn :=
  [.hops 1, .rewrites 0, .delegation, .infiniteDname, .lame, .queryRewrite [stringToLabels "org".toList], .nsContact [stringToLabels "com".toList],
   .blackholing, .allAliases [stringToLabels "www.sub.com".toList], .dnameLength]

/-- Checks of final answers for the examples. -/
def outcomeEnds : List NodeFn :=
  [.consistency (TypeSet.single .A), .returned (TypeSet.single .A), .value (TypeSet.single .A) ["3.3.3.3".toList], .zeroTTL (TypeSet.single .A)]

example : Represents sampleCtx sampleWorld ∧ WellFormed sampleWorld ∧ (∀ f ∈ outcomeChecks, f.Configured) ∧ (∀ f ∈ outcomeEnds, f.Configured sampleWorld) ∧
    Short aliasQuery.name ∧ aliasQuery.types ≠ 0 ∧ aliasQuery.nonExistent = false := by
  refine ⟨sampleCtx_represents, sampleWorld_wellFormed, ?_, ?_, by decide +kernel, by decide +kernel, by decide +kernel⟩
  · intro f hf
    simp only [outcomeChecks, List.mem_cons, List.not_mem_nil, or_false] at hf
    rcases hf with rfl | rfl | rfl | rfl | rfl | rfl | rfl | rfl | rfl | rfl <;> first | trivial | exact List.cons_ne_nil _ _
  · intro f hf
    simp only [outcomeEnds, List.mem_cons, List.not_mem_nil, or_false] at hf
    rcases hf with rfl | rfl | rfl | rfl <;> first | trivial | exact ⟨List.pairwise_singleton _ _, by decide +kernel⟩

/-- What is reported for the alias `a.com`, which leads to `www.sub.com` at a server with glue and to an unknown server. -/
example :
    let path : List Violation := [.hops "a.com.".toList 2 1, .rewrites "a.com.".toList 1 0,
      .queryRewrite "a.com.".toList "www.sub.com.".toList "s.".toList "[org.]".toList,
      .nsContact "a.com.".toList "s.".toList "[com.]".toList, .nsContact "www.sub.com.".toList "s.".toList "[com.]".toList,
      .alias "a.com.".toList "www.sub.com.".toList, .alias "a.com.".toList "www.sub.com.".toList]
    (match processEC 60 500 sampleCtx outcomeChecks outcomeEnds aliasQuery with | .ok r => r.1 | _ => []) =
      path ++ path ++ [.responseValue "3.3.3.3".toList [("2.2.2.2".toList, "www.sub.com.".toList, "ns.sub.com.".toList)]] := by
  decide +kernel

/-! ### C71 -/

/-- **C71** Testing a class reports, for hops, rewrites, delegation consistency, infinite rewriting, lame delegation, query rewriting,
server contact, rewrite blackholing, aliases and over-long names, exactly what these checks say about its resolutions. -/
theorem C71_path_reports (ctx : Context) (w : World) (hr : Represents ctx w) (hw : WellFormed w) (thr : Nat) (pf : List PathFn) (nf : List NodeFn)
    (hpf : ∀ f ∈ pf, f.Configured) (hnf : ∀ f ∈ nf, f.Configured w) (q : EC) (hq : Short q.name) (ht : q.types ≠ 0) :
    ∃ N, ∀ fuel, N ≤ fuel → ∃ r said, processEC fuel thr ctx pf nf q = .ok r ∧ Answering w (ask q) said ∧ PathOutcome w said (ask q) pf r.1 := by
  obtain ⟨N, hN⟩ := class_outcome hr hw thr hpf hnf hq ht
  refine ⟨N, fun fuel hf => ?_⟩
  obtain ⟨r, said, h1, h2, h3, _⟩ := hN fuel hf
  exact ⟨r, said, h1, h2, h3⟩

/-- **C71** The answers are determined by the zones, if the top servers have zone files. -/
theorem C71_answers_determined (w : World) (htop : ∀ s ∈ w.top, w.Listed s) (s : Str) (a : Ask) (as as' : List Answer) (h : Says w s a as)
    (h' : Says w s a as') : as = as' := by
  cases h with
  | tooLong h1 =>
    cases h' with
    | tooLong => rfl
    | zone _ _ h2 => exact absurd h2 h1
    | refused h2 => exact absurd h2 h1
    | unknown h2 => exact absurd h2 h1
  | zone id _ h1 h2 h3 => exact (Says.unique h1 h2 h' h3).symm
  | refused h1 h2 h3 =>
    cases h' with
    | tooLong h4 => exact absurd h1 h4
    | zone _ _ _ h5 => exact absurd h5.encloses h2
    | refused => rfl
    | unknown _ h5 => rcases h3 with h3 | h3; exacts [absurd h3 h5, absurd (htop s h3) h5]
  | unknown h1 h2 =>
    cases h' with
    | tooLong h4 => exact absurd h1 h4
    | zone _ _ _ h5 => exact absurd h5.encloses.listed h2
    | refused _ _ h5 => rcases h5 with h3 | h3; exacts [absurd h3 h2, absurd (htop s h3) h2]
    | unknown => rfl

/-! ### C72 -/

/-- **C72** Testing a class reports inconsistent, wrong and zero-TTL final answers exactly if the resolutions of the class end in such answers,
and missing types only if they end in answers lacking them. -/
theorem C72_end_reports (ctx : Context) (w : World) (hr : Represents ctx w) (hw : WellFormed w) (thr : Nat) (pf : List PathFn) (nf : List NodeFn)
    (hpf : ∀ f ∈ pf, f.Configured) (hnf : ∀ f ∈ nf, f.Configured w) (q : EC) (hq : Short q.name) (ht : q.types ≠ 0) :
    ∃ N, ∀ fuel, N ≤ fuel → ∃ r said, processEC fuel thr ctx pf nf q = .ok r ∧ Answering w (ask q) said ∧ EndOutcome w said (ask q) nf r.1 := by
  obtain ⟨N, hN⟩ := class_outcome hr hw thr hpf hnf hq ht
  refine ⟨N, fun fuel hf => ?_⟩
  obtain ⟨r, said, h1, h2, _, h3, _⟩ := hN fuel hf
  exact ⟨r, said, h1, h2, h3⟩

/-- **C72** Missing types are reported without exception for a class that is not marked as consisting of non-existent names. -/
theorem C72_missing_complete (ctx : Context) (w : World) (hr : Represents ctx w) (hw : WellFormed w) (thr : Nat) (pf : List PathFn) (nf : List NodeFn)
    (hpf : ∀ f ∈ pf, f.Configured) (hnf : ∀ f ∈ nf, f.Configured w) (q : EC) (hq : Short q.name) (ht : q.types ≠ 0) (hex : q.nonExistent = false) :
    ∃ N, ∀ fuel, N ≤ fuel → ∃ r said, processEC fuel thr ctx pf nf q = .ok r ∧ Answering w (ask q) said ∧
      ∀ ts, .returned ts ∈ nf → ∀ x, EndsAt w said (ask q) x → ∀ v, x.Misses ts v → v ∈ r.1 := by
  obtain ⟨N, hN⟩ := class_outcome hr hw thr hpf hnf hq ht
  refine ⟨N, fun fuel hf => ?_⟩
  obtain ⟨r, said, h1, h2, _, _, _, _, h3⟩ := hN fuel hf
  exact ⟨r, said, h1, h2, h3 hex⟩

/-! ### C73 -/

/-- **C73** Testing a class reports a loop iff its resolution can come back to where it has been; the one report shows a circle of questions,
each of which leads to the next. -/
theorem C73_loop_reports (ctx : Context) (w : World) (hr : Represents ctx w) (hw : WellFormed w) (thr : Nat) (pf : List PathFn) (nf : List NodeFn)
    (hpf : ∀ f ∈ pf, f.Configured) (hnf : ∀ f ∈ nf, f.Configured w) (q : EC) (hq : Short q.name) (ht : q.types ≠ 0) :
    ∃ N, ∀ fuel, N ≤ fuel → ∃ r said, processEC fuel thr ctx pf nf q = .ok r ∧ Answering w (ask q) said ∧ LoopOutcome w said (ask q) r.1 := by
  obtain ⟨N, hN⟩ := class_outcome hr hw thr hpf hnf hq ht
  refine ⟨N, fun fuel hf => ?_⟩
  obtain ⟨r, said, h1, h2, _, _, h3, _⟩ := hN fuel hf
  exact ⟨r, said, h1, h2, h3⟩

end Groot
