import Verif.Lemmas.CharsRun
import Verif.Spec.Text
import Verif.Props.Driver
import Verif.Props.Json

/-!
# The strings of the output files come from the input
-/

namespace Groot

open Spec Driver

section

variable {K : Str → Prop}

theorem setContext_has (hk : TextLike K) (thr : Nat) (lint : Bool) (read : Str → Str) (exists_ : Str → Bool) (m : Meta)
    (hm : ∀ s, OfInput read m none s → K s) : Yields (LoadedHas K) (setContext thr lint read exists_ m) := by
  intro d hd
  unfold setContext at hd
  obtain ⟨u, hs, hd⟩ := bind_ok_iff.mp hd
  unfold sanityCheck at hs
  split at hs
  · cases hs
  · rename_i tops htops
    split at hs
    · cases hs
    · rename_i zs hzs
      obtain ⟨servers, hz, -⟩ := bind_ok_iff.mp hs
      obtain ⟨zones, hzones, -, -⟩ := zoneServers_ok exists_ zs servers hz
      rw [htops, hzs] at hd
      refine (Yields.foldlM (P := LoadedHas K) _ _ (fun b hb z hz => ?_) ?_) d hd
      · have hz : z ∈ zs := hz
        have hz' := hz
        rw [hzones] at hz'
        obtain ⟨x, hx, rfl⟩ := List.mem_map.mp hz'
        have hin : ∀ s, (some x.2.1 = some s ∨ x.2.2 = some s ∨ ∃ f, some x.1 = some f ∧ (s = f ∨ s = read f)) → K s :=
          fun s h => hm s (.inr (.inl ⟨zs, hzs, _, hz, h⟩))
        refine loadZone_has hk thr lint hb (hin _ (.inr (.inr ⟨_, rfl, .inl rfl⟩))) (hin _ (.inr (.inr ⟨_, rfl, .inr rfl⟩)))
          (toLower_has hk (hin _ (.inl rfl))) (toLower_has hk ?_)
        cases ho : x.2.2 with
        | none => exact has_nil hk
        | some o => exact hin o (.inr (.inl ho))
      · refine ⟨TrieHas.init hk trivial, ⟨?_, (fun _ h => nomatch h), (fun _ h => nomatch h)⟩, (fun _ h => nomatch h)⟩
        intro s hs
        obtain ⟨t, ht, rfl⟩ := List.mem_map.mp hs
        exact toLower_has hk (hm t (.inl ⟨tops, htops, ht⟩))

theorem glueCheck_has (hk : TextLike K) (thr : Nat) {d : Loaded} (h : LoadedHas K d) :
    Yields (fun l => ∀ i ∈ l, Has K i.server ∧ Has K i.zone ∧ Has K i.record) (glueCheck thr d) := by
  unfold glueCheck
  refine .foldlM _ _ (fun b hb p hp => ?_) (by simp)
  split
  · exact .throw
  · rename_i ns hns
    refine .bind (glueIssues_has hk (h.2.1.2.2 p hp) thr (h.2.1.2.1 _ (mem_of_lookup hns))) (fun r hr => .ok ?_)
    intro i hi
    rcases List.mem_append.mp hi with hi | hi
    · exact hb i hi
    · exact hr i hi

/-- A job. -/
def JobHas (K : Str → Prop) (job : Job) : Prop := Has K job.domain ∧ CleanJob (Has K) job

theorem domainsOf_has (hk : TextLike K) {v : UVal} (hv : ∀ l, v = .strs l → ∀ s ∈ l, K s) : Yields (fun ds => ∀ d ∈ ds, NameHas K d) (domainsOf v) := by
  unfold domainsOf strsOf
  split
  · rename_i l
    refine .ok ?_
    intro d hd
    obtain ⟨s, hs, rfl⟩ := List.mem_map.mp hd
    exact stringToLabels_has hk (toLower_has hk (hv l rfl s hs))
  · exact .bind (Q := fun _ => False) .ub (fun _ h => h.elim)
  · exact .bind (Q := fun _ => False) .throw (fun _ h => h.elim)
  · exact .bind (Q := fun _ => False) .throw (fun _ h => h.elim)
  · exact .bind (Q := fun _ => False) .throw (fun _ h => h.elim)

theorem JobHas.path {job : Job} (h : JobHas K job) {f : PathFn} (hf : CleanPF (Has K) f) : JobHas K { job with pathFns := job.pathFns ++ [f] } := by
  refine ⟨h.1, ?_, h.2.2⟩
  intro g hg
  rcases List.mem_append.mp hg with hg | hg
  · exact h.2.1 g hg
  · rw [List.mem_singleton.mp hg]; exact hf

theorem JobHas.node {job : Job} (h : JobHas K job) {f : NodeFn} (hf : CleanNF (Has K) f) : JobHas K { job with nodeFns := job.nodeFns ++ [f] } := by
  refine ⟨h.1, h.2.1, ?_⟩
  intro g hg
  rcases List.mem_append.mp hg with hg | hg
  · exact h.2.2 g hg
  · rw [List.mem_singleton.mp hg]; exact hf

/-- The check of a property that needs a number holds no text. -/
theorem numFn_has (f : Int → PathFn) (hf : ∀ n, CleanPF (Has K) (f n)) (v : UVal) : Yields (CleanPF (Has K)) (numFn f v) := by
  unfold numFn
  split
  · exact .ok (hf _)
  · exact .ub
  · exact .ok trivial
  · exact .ok trivial
  · exact .ok trivial

theorem setProp_has (hk : TextLike K) {job : Job} (h : JobHas K job) {p : UProp} (hp : ∀ l, p.value = .strs l → ∀ s ∈ l, K s) :
    Yields (JobHas K) (setProp job p) := by
  have hd := domainsOf_has hk hp
  have go : ∀ x : TypeSet × TypeSet, Yields (JobHas K) (
      let job := { job with types := x.1 }
      if p.name = "ResponseConsistency".toList then
        .ok { job with nodeFns := job.nodeFns ++ [.consistency x.2] }
      else if p.name = "ResponseReturned".toList then
        .ok { job with nodeFns := job.nodeFns ++ [.returned x.2] }
      else if p.name = "ResponseValue".toList then do
        let l ← strsOf p.value
        let values := Check.strSet l
        if values.length ≠ 0 then .ok { job with nodeFns := job.nodeFns ++ [.value x.2 values] } else .ok job
      else if p.name = "Hops".toList then do
        let f ← numFn .hops p.value
        .ok { job with pathFns := job.pathFns ++ [f] }
      else if p.name = "Rewrites".toList then do
        let f ← numFn .rewrites p.value
        .ok { job with pathFns := job.pathFns ++ [f] }
      else if p.name = "DelegationConsistency".toList then
        .ok { job with pathFns := job.pathFns ++ [.delegation] }
      else if p.name = "InfiniteDNameRec".toList then
        .ok { job with pathFns := job.pathFns ++ [.infiniteDname] }
      else if p.name = "LameDelegation".toList then
        .ok { job with pathFns := job.pathFns ++ [.lame] }
      else if p.name = "QueryRewrite".toList then do
        let d ← domainsOf p.value
        if d.length > 0 then .ok { job with pathFns := job.pathFns ++ [.queryRewrite d] } else .ok job
      else if p.name = "NameserverContact".toList then do
        let d ← domainsOf p.value
        if d.length > 0 then .ok { job with pathFns := job.pathFns ++ [.nsContact d] } else .ok job
      else if p.name = "RewriteBlackholing".toList then
        .ok { job with pathFns := job.pathFns ++ [.blackholing] }
      else if p.name = "AllAliases".toList then do
        let d ← domainsOf p.value
        if d.length > 0 then .ok { job with pathFns := job.pathFns ++ [.allAliases d] } else .ok job
      else if p.name = "ZeroTTL".toList then
        .ok { job with nodeFns := job.nodeFns ++ [.zeroTTL x.2] }
      else if p.name = "StructuralDelegationConsistency".toList then
        .ok { job with structural := true }
      else if p.name = "DNAMESubstitutionCheck".toList then
        .ok { job with pathFns := job.pathFns ++ [.dnameLength] }
      else (.ok job : Res Job)) := by
    intro x
    have h0 : JobHas K { job with types := x.1 } := h
    have hstrs : Yields (fun l : List Str => ∀ s ∈ l, K s) (strsOf p.value) := by
      unfold strsOf
      split
      · exact .ok (hp _ (by assumption))
      · exact .ub
      · exact .throw
      · exact .throw
      · exact .throw
    dsimp only
    by_cases e : p.name = "ResponseConsistency".toList
    · rw [if_pos e]; exact .ok (h0.node trivial)
    rw [if_neg e]; clear e
    by_cases e : p.name = "ResponseReturned".toList
    · rw [if_pos e]; exact .ok (h0.node trivial)
    rw [if_neg e]; clear e
    by_cases e : p.name = "ResponseValue".toList
    · rw [if_pos e]
      refine .bind hstrs (fun l hl => ?_)
      by_cases c : (Check.strSet l).length ≠ 0
      · rw [if_pos c]
        exact .ok (h0.node (fun s hs => hl s (((strSet_spec l).2 s).mp hs)))
      · rw [if_neg c]; exact .ok h0
    rw [if_neg e]; clear e
    by_cases e : p.name = "Hops".toList
    · rw [if_pos e]; exact .bind (numFn_has (K := K) .hops (fun _ => trivial) _) (fun f hf => .ok (h0.path hf))
    rw [if_neg e]; clear e
    by_cases e : p.name = "Rewrites".toList
    · rw [if_pos e]; exact .bind (numFn_has (K := K) .rewrites (fun _ => trivial) _) (fun f hf => .ok (h0.path hf))
    rw [if_neg e]; clear e
    by_cases e : p.name = "DelegationConsistency".toList
    · rw [if_pos e]; exact .ok (h0.path trivial)
    rw [if_neg e]; clear e
    by_cases e : p.name = "InfiniteDNameRec".toList
    · rw [if_pos e]; exact .ok (h0.path trivial)
    rw [if_neg e]; clear e
    by_cases e : p.name = "LameDelegation".toList
    · rw [if_pos e]; exact .ok (h0.path trivial)
    rw [if_neg e]; clear e
    by_cases e : p.name = "QueryRewrite".toList
    · rw [if_pos e]
      refine .bind hd (fun d hd => ?_)
      by_cases c : d.length > 0
      · rw [if_pos c]; exact .ok (h0.path (labelListToString_has hk hd))
      · rw [if_neg c]; exact .ok h0
    rw [if_neg e]; clear e
    by_cases e : p.name = "NameserverContact".toList
    · rw [if_pos e]
      refine .bind hd (fun d hd => ?_)
      by_cases c : d.length > 0
      · rw [if_pos c]; exact .ok (h0.path (labelListToString_has hk hd))
      · rw [if_neg c]; exact .ok h0
    rw [if_neg e]; clear e
    by_cases e : p.name = "RewriteBlackholing".toList
    · rw [if_pos e]; exact .ok (h0.path trivial)
    rw [if_neg e]; clear e
    by_cases e : p.name = "AllAliases".toList
    · rw [if_pos e]
      refine .bind hd (fun d hd => ?_)
      by_cases c : d.length > 0
      · rw [if_pos c]; exact .ok (h0.path trivial)
      · rw [if_neg c]; exact .ok h0
    rw [if_neg e]; clear e
    by_cases e : p.name = "ZeroTTL".toList
    · rw [if_pos e]; exact .ok (h0.node trivial)
    rw [if_neg e]; clear e
    by_cases e : p.name = "StructuralDelegationConsistency".toList
    · rw [if_pos e]; exact .ok h0
    rw [if_neg e]; clear e
    by_cases e : p.name = "DNAMESubstitutionCheck".toList
    · rw [if_pos e]; exact .ok (h0.path trivial)
    rw [if_neg e]; exact .ok h0
  unfold setProp
  cases p.types with
  | some ts => exact .any (fun x => go x)
  | none => exact .bind (Q := fun _ => True) (.ok trivial) (fun x _ => go x)

theorem setJob_has (hk : TextLike K) (prev : Job) {u : UJob} (hu : K u.domain) (hp : ∀ p ∈ u.properties, ∀ l, p.value = .strs l → ∀ s ∈ l, K s) :
    Yields (JobHas K) (setJob prev u) := by
  unfold setJob
  exact .foldlM _ _ (fun b hb p h => setProp_has hk hb (hp p h)) ⟨toLower_has hk hu, (fun _ h => nomatch h), (fun _ h => nomatch h)⟩

theorem setDefaultJob_has (hk : TextLike K) (prev : Job) : JobHas K (setDefaultJob prev ".".toList) := by
  have hd : Has K (toLower ".".toList) := toLower_has hk (has_ascii hk (by decide))
  refine ⟨hd, ?_, (fun _ h => nomatch h)⟩
  intro f hf
  unfold setDefaultJob at hf
  simp only [List.mem_cons, List.not_mem_nil, or_false] at hf
  rcases hf with rfl | rfl | rfl | rfl | rfl | rfl
  all_goals first | trivial | skip
  refine labelListToString_has hk (fun d h => ?_)
  rw [List.mem_singleton.mp h]
  exact stringToLabels_has hk hd

theorem runJob_has (hk : TextLike K) (fuel thr : Nat) {ctx : Context} (hc : CtxHas K ctx) {lg : LGraph} (hg : LGHas K lg) {job : Job} (hj : JobHas K job)
    {t : Totals} (ht : CleanL K t.violations) : Yields (fun r => LGHas K r.1 ∧ CleanL K r.2.violations) (runJob fuel thr ctx lg t job) := by
  have hgen := generateECs_has hk fuel hg (job := req job) hj.1
  intro r hr
  constructor
  · unfold runJob at hr
    obtain ⟨x, hx, hr⟩ := bind_ok_iff.mp hr
    injection hr with hr
    rw [← hr]
    unfold runSequential at hx
    obtain ⟨y, hy, hx⟩ := bind_ok_iff.mp hx
    obtain ⟨v, -, hx⟩ := bind_ok_iff.mp hx
    injection hx with hx
    rw [← hx]
    exact (hgen y hy).1
  · refine runJob_clean (S := K) (strings_has hk) fuel thr ctx lg job t ⟨hc.2.1, fun p hp => (hc.2.2 p hp).zoneHas hk⟩ hj.2 ?_ ht r hr
    intro y hy t' ht'
    have := (hgen y hy).2 t' ht'
    cases t' with
    | ec q => exact fun g hg' => (buildIG_has hk fuel thr hc this g hg').clean hk
    | structural n d => exact this

theorem jobLoop_has (hk : TextLike K) (fuel thr : Nat) {ctx : Context} (hc : CtxHas K ctx) : ∀ (us : List UJob) (lg : LGraph) (job : Job) (t : Totals),
    LGHas K lg → (∀ u ∈ us, K u.domain ∧ ∀ p ∈ u.properties, ∀ l, p.value = .strs l → ∀ s ∈ l, K s) → CleanL K t.violations →
    Yields (fun r => CleanL K r.violations) (jobLoop fuel thr ctx lg job t us)
  | [], _, _, t, _, _, h => by unfold jobLoop; exact .ok h
  | u :: us, lg, job, t, hg, hu, h => by
    unfold jobLoop
    refine .bind (setJob_has hk job (hu u (by simp)).1 (hu u (by simp)).2) (fun j hj => .bind (runJob_has hk fuel thr hc hg hj h) (fun r hr => ?_))
    exact jobLoop_has hk fuel thr hc us _ _ _ hr.1 (fun u h => hu u (by simp [h])) hr.2

theorem main_has (hk : TextLike K) {fuel thr : Nat} {lint : Bool} {read : Str → Str} {exists_ : Str → Bool} {m : Meta} {jobs : Option (List UJob)} {t : Totals}
    (hin : ∀ s, OfInput read m jobs s → K s) (h : main fuel thr lint read exists_ m jobs = .ok t) : CleanL K t.violations := by
  rw [main_eq] at h
  obtain ⟨d, hd, h⟩ := bind_ok_iff.mp h
  have hload := setContext_has hk thr lint read exists_ m (fun s hs => hin s (by
    rcases hs with hs | hs | ⟨us, hs, -⟩
    · exact .inl hs
    · exact .inr (.inl hs)
    · cases hs)) d hd
  have h0 : CleanL K ({} : Totals).violations := cleanL_nil
  unfold afterLoading at h
  cases jobs with
  | some us =>
    refine jobLoop_has hk fuel thr hload.2.1 us d.lg {} {} hload.1 (fun u hu => ⟨?_, fun p hp l hl s hs => ?_⟩) h0 t h
    · exact hin _ (.inr (.inr ⟨us, rfl, u, hu, .inl rfl⟩))
    · exact hin _ (.inr (.inr ⟨us, rfl, u, hu, .inr ⟨p, hp, l, hl, hs⟩⟩))
  | none =>
    obtain ⟨r, hr, h⟩ := bind_ok_iff.mp h
    injection h with h
    rw [← h]
    exact (runJob_has hk fuel thr hload.2.1 hload.1 (setDefaultJob_has hk _) h0 r hr).2

/-! ## The entries of the files -/

theorem strEntries_nil : StrEntries K [] := fun _ h => nomatch h

theorem strEntries_append {a b : List (List JStep × Json)} (ha : StrEntries K a) (hb : StrEntries K b) : StrEntries K (a ++ b) := by
  intro p hp
  rcases List.mem_append.mp hp with h | h
  · exact ha p h
  · exact hb p h

theorem strEntries_cons {k : List JStep} {s : Str} {b : List (List JStep × Json)} (ha : K s) (hb : StrEntries K b) : StrEntries K ((k, Json.str s) :: b) := by
  intro p hp
  rcases List.mem_cons.mp hp with h | h
  · rw [h]
    intro s' hs
    injection hs with hs
    rw [← hs]; exact ha
  · exact hb p h

theorem strEntries_int {k : List JStep} {n : Int} {b : List (List JStep × Json)} (hb : StrEntries K b) : StrEntries K ((k, Json.int n) :: b) := by
  intro p hp
  rcases List.mem_cons.mp hp with h | h
  · rw [h]
    intro s' hs
    cases hs
  · exact hb p h

theorem strEntries_flatMap {α : Type} {l : List α} {f : α → List (List JStep × Json)} (h : ∀ a ∈ l, StrEntries K (f a)) : StrEntries K (l.flatMap f) := by
  intro p hp
  obtain ⟨a, ha, hp⟩ := List.mem_flatMap.mp hp
  exact h a ha p hp

end

end Groot
