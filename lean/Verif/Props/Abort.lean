import Verif.Spec.Abort
import Verif.Lemmas.NoThrow
import Verif.Props.Process
import Verif.Props.Dname
import Verif.Lemmas.Asked

/-!
# C99: what can abort the process
-/

namespace Groot

open Spec Driver JVal

theorem unnumbered_value {j : JVal} (h : uval j = .other ∨ ∃ l, uval j = .strs l) :
    ∃ v, HasMember j "Value" v ∧ (∀ n, v ≠ .int n) ∧ (∀ b, v ≠ .bool b) ∧ ∀ n, v ≠ .flt n := by
  rcases uval_spec.mp rfl with ⟨-, e⟩ | ⟨x, hx, hv⟩
  · rcases h with h | ⟨l, h⟩ <;> rw [e] at h <;> cases h
  · refine ⟨x, hx, ?_⟩
    generalize uval j = u at h hv
    cases hv with
    | other _ h1 h2 h3 h4 => exact ⟨h2, h3, h4⟩
    | list _ l hl =>
      refine ⟨fun n e => ?_, fun b e => ?_, fun n e => ?_⟩ <;>
      · subst e
        have := elements_iff.mp hl
        cases l with
        | nil => cases this
        | cons a l => injection this with this; cases this
    | _ => rcases h with e | ⟨l, e⟩ <;> cases e

/-- A property adds the check that throws only if it is `Unnumbered`. -/
theorem setPropJ_misfit {job job' : Job} {p : JVal} (h : setPropJ job p = .ok job') (hm : .misfit false ∈ job'.pathFns) :
    .misfit false ∈ job.pathFns ∨ Unnumbered p := by
  have key : ∀ name tys, HasMember p "PropertyName" (.str name) → setProp job { name := name, types := tys, value := uval p } = .ok job' → .misfit false ∈ job.pathFns ∨ Unnumbered p := by
    clear h
    intro name tys hmem h
    obtain ⟨-, w, ts, hw, -, e⟩ := (setProp_ok_iff _ _ _).mp h
    clear h
    subst e
    have hm : .misfit false ∈ job.pathFns ∨ w.path? = some (.misfit false) := by
      cases w with
      | path f =>
        rcases List.mem_append.mp hm with hm | hm
        · exact .inl hm
        · refine .inr ?_
          have : .misfit false = f := List.mem_singleton.mp hm
          rw [← this]; rfl
      | _ =>
        rcases List.mem_append.mp hm with hm | hm
        · exact .inl hm
        · simp [Wanted.path?] at hm
    rcases hm with hm | hm
    · exact .inl hm
    · refine .inr ?_
      cases hw with
      | misfit b h hv =>
        injection hm with hm
        injection hm with hm
        subst hm
        refine ⟨?_, unnumbered_value (hv.resolve_left (fun h => nomatch h.1)).2⟩
        rcases h with h | h
        · exact .inl (h ▸ hmem)
        · exact .inr (h ▸ hmem)
      | _ => cases hm
  unfold setPropJ at h
  obtain ⟨n, hn, h⟩ := bind_ok_iff.mp h
  obtain ⟨name, hname, h⟩ := bind_ok_iff.mp h
  have hname : n = .str name := by
    cases n with
    | str s => injection hname with hname; rw [hname]
    | _ => cases hname
  have hmem := member_ok.mp hn
  rw [hname] at hmem
  split at h
  · exact key _ _ hmem h
  · obtain ⟨ts, -, h⟩ := bind_ok_iff.mp h
    exact key _ _ hmem h

theorem setJobJ_misfit {prev job : Job} {u : JVal} (h : setJobJ prev u = .ok job) (hm : .misfit false ∈ job.pathFns) : UnnumberedJob u := by
  unfold setJobJ at h
  obtain ⟨d, -, h⟩ := bind_ok_iff.mp h
  obtain ⟨dom, -, h⟩ := bind_ok_iff.mp h
  obtain ⟨s, -, h⟩ := bind_ok_iff.mp h
  obtain ⟨sub, -, h⟩ := bind_ok_iff.mp h
  obtain ⟨v, hv, h⟩ := bind_ok_iff.mp h
  have key : ∀ (l : List JVal) (j : Job), l.foldlM setPropJ j = .ok job → .misfit false ∈ j.pathFns ∨ ∃ p ∈ l, Unnumbered p := by
    intro l
    induction l with
    | nil =>
      intro j h
      injection h with h
      exact .inl (h ▸ hm)
    | cons p l ih =>
      intro j h
      rw [List.foldlM_cons] at h
      obtain ⟨j1, h1, h⟩ := bind_ok_iff.mp h
      rcases ih _ h with h | ⟨q, hq, h⟩
      · rcases setPropJ_misfit h1 h with h | h
        · exact .inl h
        · exact .inr ⟨p, List.mem_cons_self, h⟩
      · exact .inr ⟨q, List.mem_cons_of_mem _ hq, h⟩
  rcases key _ _ h with h | ⟨p, hp, h⟩
  · cases h
  · exact ⟨v, v.items, p, member_ok.mp hv, elements_iff.mpr rfl, hp, h⟩

/-! ## Every zone has a server -/

theorem served_add {c c' : Context} (hc : Served c) (i : Nat) (z : Zone) (ns : Str) (h1 : c'.zones = c.zones ++ [(i, z)])
    (h2 : c'.zoneNs = c.zoneNs ++ [(i, ns)]) : Served c' := by
  intro id h
  rw [h1, List.lookup_append] at h
  rw [h2, List.lookup_append]
  cases hz : c.zones.lookup id with
  | some z' =>
    have := hc id (by rw [hz]; rfl)
    cases hn : c.zoneNs.lookup id with
    | some n => rfl
    | none => rw [hn] at this; cases this
  | none =>
    rw [hz] at h
    cases hn : c.zoneNs.lookup id with
    | some n => rfl
    | none =>
      by_cases e : id = i
      · subst e
        show (List.lookup id [(id, ns)]).isSome
        simp [List.lookup]
      · exfalso
        have e' : (id == i) = false := by simpa using e
        simp [List.lookup, e'] at h

theorem loadZone_served {thr : Nat} {lint : Bool} {d d' : Loaded} {file contents ns origin : Str}
    (h : Groot.loadZone thr lint d file contents ns origin = .ok d') (hd : Served d.ctx) : Served d'.ctx := by
  unfold Groot.loadZone at h
  obtain ⟨st, -, h⟩ := bind_ok_iff.mp h
  injection h with h
  subst h
  dsimp only
  split
  · exact served_add hd _ _ _ rfl rfl
  · exact hd

theorem setContextJ_served {thr : Nat} {lint : Bool} {read : Str → Str} {ex : Str → Bool} {m : JVal} {d : Loaded}
    (h : setContextJ thr lint read ex m = .ok d) : Served d.ctx := by
  unfold setContextJ at h
  obtain ⟨-, -, h⟩ := bind_ok_iff.mp h
  obtain ⟨t, -, h⟩ := bind_ok_iff.mp h
  obtain ⟨tops, -, h⟩ := bind_ok_iff.mp h
  obtain ⟨z, -, h⟩ := bind_ok_iff.mp h
  have key : ∀ (l : List JVal) (d0 : Loaded), l.foldlM (loadZoneJ thr lint read) d0 = .ok d → Served d0.ctx → Served d.ctx := by
    intro l
    induction l with
    | nil =>
      intro d0 h hd
      injection h with h
      exact h ▸ hd
    | cons z l ih =>
      intro d0 h hd
      rw [List.foldlM_cons] at h
      obtain ⟨d1, h1, h⟩ := bind_ok_iff.mp h
      refine ih _ h ?_
      unfold loadZoneJ at h1
      obtain ⟨f, -, h1⟩ := bind_ok_iff.mp h1
      obtain ⟨file, -, h1⟩ := bind_ok_iff.mp h1
      obtain ⟨n, -, h1⟩ := bind_ok_iff.mp h1
      obtain ⟨ns, -, h1⟩ := bind_ok_iff.mp h1
      split at h1
      · exact loadZone_served h1 hd
      · obtain ⟨o, -, h1⟩ := bind_ok_iff.mp h1
        exact loadZone_served h1 hd
  refine key _ _ h ?_
  intro id h
  cases h

/-! ## The process -/

namespace Process

/-- Not aborted, and with `P` if it has a value. -/
def Tame {α : Type} (P : α → Prop) (x : Act α) : Prop := ∀ l, match (x l).2 with
  | .ok a => P a
  | .error e => e ≠ .aborted

namespace Tame

variable {α β : Type} {P : α → Prop} {Q : β → Prop}

theorem pure {a : α} (h : P a) : Tame P (Pure.pure a : Act α) := fun _ => h

theorem bind {x : Act α} {f : α → Act β} (hx : Tame P x) (hf : ∀ a, P a → Tame Q (f a)) : Tame Q (x >>= f) := by
  intro l
  have h := hx l
  show match (Act.bind x f l).2 with | .ok a => Q a | .error e => e ≠ .aborted
  unfold Act.bind
  cases hr : x l with
  | mk l' o =>
    rw [hr] at h
    cases o with
    | ok a => exact hf a h l'
    | error e => exact h

theorem lift (r : Res α) (h : ∀ a, r = .ok a → P a) : Tame P (Act.lift r) := by
  intro l
  cases r with
  | ok a => exact h a rfl
  | _ => intro h; cases h

theorem lift' (r : Res α) : Tame (fun _ => True) (Act.lift r) := lift r (fun _ _ => trivial)

theorem thread {r : Res α} (h : Quiet r) : Tame (fun _ => True) (Act.thread r) := by
  intro l
  cases r with
  | ok a => trivial
  | throw => exact h.elim
  | _ => intro h; cases h

end Tame

theorem writeIssue_tame (j : Json) : Tame (fun _ => True) (writeIssue j) := by
  intro l
  unfold writeIssue
  cases Json.dump? j with
  | ok d => trivial
  | _ => intro h; cases h

theorem writeIssues_tame : ∀ js : List Json, Tame (fun _ => True) (writeIssues js)
  | [] => Tame.pure trivial
  | j :: js => (writeIssue_tame j).bind (fun _ _ => writeIssues_tame js)

theorem parse_tame (thr : Nat) (file : Str) : ∀ (ts : List Tok) (st : Parser.PState), Tame (fun _ => True) (parse thr file st ts)
  | [], _ => Tame.pure trivial
  | t :: ts, st => by
    unfold parse
    refine (Tame.lift' _).bind (fun r _ => (writeIssues_tame _).bind (fun _ _ => ?_))
    split
    · exact parse_tame thr file ts r.1
    · exact Tame.pure trivial

theorem enter_served {d : Loaded} (file ns : Str) (st : Parser.PState) (hd : Served d.ctx) : Served (enter d file ns st).ctx := by
  unfold enter
  dsimp only
  split
  · exact served_add hd _ _ _ rfl rfl
  · exact hd

theorem loadZone_tame (thr : Nat) (lint : Bool) {d : Loaded} (file contents ns origin : Str) (hd : Served d.ctx) :
    Tame (fun d => Served d.ctx) (loadZone thr lint d file contents ns origin) :=
  (parse_tame _ _ _ _).bind (fun st _ => Tame.pure (enter_served file ns st hd))

theorem loadZones_tame (thr : Nat) (lint : Bool) (read : Str → Str) : ∀ (zs : List JVal) (d : Loaded), Served d.ctx →
    Tame (fun d => Served d.ctx) (loadZones thr lint read d zs)
  | [], _, hd => Tame.pure hd
  | z :: zs, d, hd => by
    unfold loadZones
    refine (Tame.lift' _).bind (fun f _ => (Tame.lift' _).bind (fun file _ => (Tame.lift' _).bind (fun n _ => (Tame.lift' _).bind (fun ns _ => ?_))))
    dsimp only
    cases z.find "Origin" with
    | none =>
      exact (Tame.pure (P := fun _ => True) trivial).bind (fun origin _ => (loadZone_tame thr lint _ _ _ _ hd).bind (fun d hd => loadZones_tame thr lint read zs d hd))
    | some o =>
      exact (Tame.lift' _).bind (fun origin _ => (loadZone_tame thr lint _ _ _ _ hd).bind (fun d hd => loadZones_tame thr lint read zs d hd))

theorem glueCheck_tame (thr : Nat) (zn : List (Nat × Str)) : ∀ zs : List (Nat × Zone), Tame (fun _ => True) (glueCheck thr zn zs)
  | [] => Tame.pure trivial
  | z :: zs => by
    unfold glueCheck
    exact (Tame.lift' _).bind (fun ns _ => (Tame.lift' _).bind (fun is _ => (writeIssues_tame _).bind (fun _ _ => glueCheck_tame thr zn zs)))

theorem setContext_tame (thr : Nat) (lint : Bool) (read : Str → Str) (ex : Str → Bool) (m : JVal) :
    Tame (fun d => Served d.ctx) (setContext thr lint read ex m) := by
  unfold setContext
  refine (Tame.lift' _).bind (fun _ _ => (Tame.lift' _).bind (fun t _ => (Tame.lift' _).bind (fun tops _ => (Tame.lift' _).bind (fun z _ => ?_))))
  refine (loadZones_tame thr lint read _ _ (fun id h => by cases h)).bind (fun d hd => ?_)
  cases lint
  · exact Tame.pure hd
  · exact (glueCheck_tame _ _ _).bind (fun _ _ => Tame.pure hd)

theorem jobLoop_tame (fuel thr : Nat) {ctx : Context} (hc : Served ctx) : ∀ (us : List JVal) (lg : LGraph) (job : Job) (t : Totals),
    (∀ u ∈ us, ¬ UnnumberedJob u) → Tame (fun _ => True) (jobLoop fuel thr ctx lg job t us)
  | [], _, _, _, _ => Tame.pure trivial
  | u :: us, lg, job, t, h => by
    unfold jobLoop
    refine (Tame.lift (P := fun job => .misfit false ∉ job.pathFns) _ (fun j hj hm => h u List.mem_cons_self (setJobJ_misfit hj hm))).bind (fun j hj => ?_)
    exact (Tame.thread (runJob_calm fuel thr hc lg t hj)).bind
      (fun r _ => jobLoop_tame fuel thr hc us r.1 j r.2 (fun u hu => h u (List.mem_cons_of_mem _ hu)))

theorem work_tame (fuel thr : Nat) (env : Env) (args : Args) (h : ∀ jj, JobsRead env args (some jj) → ¬ UnnumberedFile jj) :
    Tame (fun _ => True) (work fuel thr env args) := by
  rw [work_eq]
  refine (Tame.lift' _).bind (fun m _ => (setContext_tame _ _ _ _ m).bind (fun d hd => ?_))
  unfold jobs
  split_ifs with c
  · refine Tame.bind (P := fun us => ∀ u ∈ us.items, ¬ UnnumberedJob u) (Tame.lift _ (fun jj hjj => ?_)) (fun us hus => jobLoop_tame fuel thr hd _ _ _ _ hus)
    intro u hu hun
    split at hjj
    · rename_i v hv
      injection hjj with hjj
      subst hjj
      cases hj : args.jobs with
      | none => rw [hj] at c; exact c rfl
      | some f =>
        rw [hj] at c hv
        exact h v (.file f v hj (fun e => c (by rw [e]; rfl)) hv) ⟨_, u, elements_iff.mpr rfl, hu, hun⟩
    · cases hjj
  · exact (Tame.thread (runJob_calm fuel thr hd _ _ (by decide +kernel))).bind (fun _ _ => Tame.pure trivial)

/-- **C99** The process is aborted by an exception in a thread only if a job of the job file has a property "Hops" or "Rewrites" with a value that is
not a number (or a boolean): whatever the zone files, the records and the fuel. -/
theorem C99_aborted (fuel thr : Nat) (env : Env) (args : Args) (h : (process fuel thr env args).2 = .aborted) :
    ∃ jj, JobsRead env args (some jj) ∧ UnnumberedFile jj := by
  by_contra hno
  have hw := work_tame fuel thr env args (fun jj hj hu => hno ⟨jj, hj, hu⟩) (if args.lint then ["[\n".toList] else [])
  unfold process at h
  dsimp only at h
  split at h
  · rename_i e he
    rw [he] at hw
    exact hw h
  · split at h <;> cases h

/-- **C99** Without a job file the process is never aborted. -/
theorem C99_default (fuel thr : Nat) (env : Env) (args : Args) (h : args.jobs = none ∨ args.jobs = some []) :
    (process fuel thr env args).2 ≠ .aborted := by
  intro ha
  obtain ⟨jj, hj, -⟩ := C99_aborted fuel thr env args ha
  cases hj with
  | file f v h' hf _ => rcases h with h | h <;> rw [h] at h' <;> cases h'; exact hf rfl

end Process

/-- **C99** Whatever the order in which the threads take the tasks of a job, and whatever the label graph they are taken with: no task throws, if the job
has no such property. -/
theorem C99_task {thr : Nat} {lint : Bool} {read : Str → Str} {ex : Str → Bool} {m u : JVal} {d : Loaded} {prev job : Job}
    (hd : setContextJ thr lint read ex m = .ok d) (hj : setJobJ prev u = .ok job) (hu : ¬ UnnumberedJob u) (fuel : Nat) (lg : LGraph) (t : Task) :
    Driver.process fuel thr d.ctx lg job t ≠ .throw :=
  (task_calm fuel thr (setContextJ_served hd) lg (fun hm => hu (setJobJ_misfit hj hm)) t).noThrow

/-! ## A malformed number is fatal -/

/-- What such a property adds. -/
theorem setPropJ_unnumbered {job job' : Job} {p : JVal} (h : setPropJ job p = .ok job') :
    (∀ f ∈ job.pathFns, f ∈ job'.pathFns) ∧ (Unnumbered p → .misfit false ∈ job'.pathFns) := by
  have key : ∀ name tys, HasMember p "PropertyName" (.str name) → setProp job { name := name, types := tys, value := uval p } = .ok job' →
      (∀ f ∈ job.pathFns, f ∈ job'.pathFns) ∧ (Unnumbered p → .misfit false ∈ job'.pathFns) := by
    clear h
    intro name tys hmem h
    obtain ⟨-, w, ts, hw, -, e⟩ := (setProp_ok_iff _ _ _).mp h
    clear h
    subst e
    refine ⟨fun f hf => List.mem_append_left _ hf, ?_⟩
    rintro ⟨hn, v, hv, h1, h2, h3⟩
    have hname : name = "Hops".toList ∨ name = "Rewrites".toList := by
      obtain ⟨m, e1, e2⟩ := hmem
      rcases hn with ⟨m', e3, e4⟩ | ⟨m', e3, e4⟩ <;> rw [e1] at e3 <;> injection e3 with e3 <;> rw [← e3, e2] at e4 <;> injection e4 with e4 <;>
        injection e4 with e4
      · exact .inl e4
      · exact .inr e4
    have hval : (∀ n, uval p ≠ .int n) ∧ uval p ≠ .huge := by
      obtain ⟨m, rfl, e⟩ := hv
      unfold uval
      have : (JVal.obj m).find "Value" = some v := e
      rw [this]
      cases v with
      | int n => exact absurd rfl (h1 n)
      | bool b => exact absurd rfl (h2 b)
      | flt n => exact absurd rfl (h3 n)
      | _ => refine ⟨fun n => ?_, ?_⟩ <;> · dsimp only; split <;> exact fun h => nomatch h
    have hno : ∀ s : String, s ≠ "Hops" → s ≠ "Rewrites" → name ≠ s.toList := by
      intro s h1 h2 e
      rcases hname with h | h
      · exact h1 (String.toList_inj.mp (e.symm.trans h))
      · exact h2 (String.toList_inj.mp (e.symm.trans h))
    cases hw with
    | misfit b h hb =>
      rcases hb with ⟨-, hb⟩ | ⟨rfl, -⟩
      · exact absurd hb hval.2
      · exact List.mem_append_right _ (List.mem_singleton.mpr rfl)
    | hops n h hb => exact absurd hb (hval.1 n)
    | rewrites n h hb => exact absurd hb (hval.1 n)
    | unknown h =>
      have h : name ∉ propertyNames := h
      exact absurd (by rcases hname with e | e <;> rw [e] <;> decide) h
    | skipped h _ =>
      have h : name ∈ ["ResponseValue", "QueryRewrite", "NameserverContact", "AllAliases"].map String.toList := h
      exact absurd h (by rcases hname with e | e <;> rw [e] <;> decide)
    | consistency _ h _ | returned _ h _ | value _ _ _ h _ _ _ _ _ | delegation h | infiniteDname h | lame h | queryRewrite _ h _ _ | nsContact _ h _ _
    | blackholing h | allAliases _ h _ _ | zeroTTL _ h _ | structural h | dnameLength h =>
      exact absurd h (hno _ (by decide) (by decide))
  unfold setPropJ at h
  obtain ⟨n, hn, h⟩ := bind_ok_iff.mp h
  obtain ⟨name, hname, h⟩ := bind_ok_iff.mp h
  have hname : n = .str name := by
    cases n with
    | str s => injection hname with hname; rw [hname]
    | _ => cases hname
  have hmem := member_ok.mp hn
  rw [hname] at hmem
  split at h
  · exact key _ _ hmem h
  · obtain ⟨ts, -, h⟩ := bind_ok_iff.mp h
    exact key _ _ hmem h

theorem setJobJ_unnumbered {prev job : Job} {u : JVal} (h : setJobJ prev u = .ok job) (hu : UnnumberedJob u) : .misfit false ∈ job.pathFns := by
  obtain ⟨v, ps, p, hv, he, hp, hun⟩ := hu
  unfold setJobJ at h
  obtain ⟨d, -, h⟩ := bind_ok_iff.mp h
  obtain ⟨dom, -, h⟩ := bind_ok_iff.mp h
  obtain ⟨s, -, h⟩ := bind_ok_iff.mp h
  obtain ⟨sub, -, h⟩ := bind_ok_iff.mp h
  obtain ⟨v', hv', h⟩ := bind_ok_iff.mp h
  have e : v' = v := by
    obtain ⟨m, e1, e2⟩ := member_ok.mp hv'
    obtain ⟨m', e3, e4⟩ := hv
    rw [e1] at e3
    injection e3 with e3
    rw [← e3, e2] at e4
    injection e4
  subst e
  rw [elements_iff.mp he] at h
  have keep : ∀ (l : List JVal) (j : Job), l.foldlM setPropJ j = .ok job → ∀ f ∈ j.pathFns, f ∈ job.pathFns := by
    intro l
    induction l with
    | nil =>
      intro j h
      injection h with h
      exact h ▸ fun f hf => hf
    | cons q l ih =>
      intro j h f hf
      rw [List.foldlM_cons] at h
      obtain ⟨j1, h1, h⟩ := bind_ok_iff.mp h
      exact ih _ h f ((setPropJ_unnumbered h1).1 f hf)
  have key : ∀ (l : List JVal) (j : Job), l.foldlM setPropJ j = .ok job → p ∈ l → .misfit false ∈ job.pathFns := by
    intro l
    induction l with
    | nil => intro j h hp; cases hp
    | cons q l ih =>
      intro j h hp
      rw [List.foldlM_cons] at h
      obtain ⟨j1, h1, h⟩ := bind_ok_iff.mp h
      rcases List.mem_cons.mp hp with e | hp
      · exact keep _ _ h _ ((setPropJ_unnumbered h1).2 (e ▸ hun))
      · exact ih _ h hp
  exact key _ _ h hp

/-- A class that comes through a check that fails on every path has no path. -/
theorem processEC_stuck {fuel thr : Nat} {ctx : Context} {pf : List PathFn} {nf : List NodeFn} {q : EC} {r : List Violation × Nat × Nat} {b : Bool}
    (h : processEC fuel thr ctx pf nf q = .ok r) (hm : .misfit b ∈ pf) (pf' : List PathFn) :
    ∃ r', processEC fuel thr ctx pf' [] q = .ok r' ∧ ∀ v ∈ r'.1, ∃ ns, v = .loop ns := by
  unfold processEC at h
  obtain ⟨g, hg, h⟩ := bind_ok_iff.mp h
  obtain ⟨l, hl, h⟩ := bind_ok_iff.mp h
  obtain ⟨v, hv, h⟩ := bind_ok_iff.mp h
  unfold checkProperties at hv
  obtain ⟨s, hs, hv⟩ := bind_ok_iff.mp hv
  obtain ⟨a, ha, hv⟩ := bind_ok_iff.mp hv
  have hnil : s.paths = [] := by
    cases hp : s.paths with
    | nil => rfl
    | cons p ps =>
      exfalso
      obtain ⟨rx, h1, -⟩ := concatM_all ha p (by rw [hp]; exact List.mem_cons_self)
      obtain ⟨ry, h2, -⟩ := concatM_all h1 _ hm
      cases b <;> cases h2
  have hc : checkProperties fuel g pf' [] = .ok [] := by
    unfold checkProperties
    rw [hs, Res.ok_bind, hnil]
    rfl
  refine ⟨(l.toList ++ [], g.verts.length, g.edges.length), ?_, ?_⟩
  · unfold processEC
    rw [hg, Res.ok_bind, hl, Res.ok_bind, hc, Res.ok_bind]
  · intro v hv
    rw [List.append_nil] at hv
    exact checkLoops_ans fuel 0 [] l hl v (by simpa using hv)

theorem runSequential_stuck {fuel thr : Nat} {ctx : Context} {lg : LGraph} {job : Job} {r : LGraph × List Task × List Violation} {b : Bool}
    (h : runSequential fuel thr ctx lg job = .ok r) (hm : .misfit b ∈ job.pathFns) (pf : List PathFn) :
    ∃ vs, runSequential fuel thr ctx lg { job with pathFns := pf, nodeFns := [] } = .ok (r.1, r.2.1, vs) ∧
      ∀ v ∈ vs, (∃ ns, v = .loop ns) ∨ ∃ d ps, v = .structural d ps := by
  unfold runSequential at h
  obtain ⟨⟨g1, ts⟩, h1, h⟩ := bind_ok_iff.mp h
  obtain ⟨vs, h2, h⟩ := bind_ok_iff.mp h
  injection h with h
  subst h
  have key : ∀ (l : List Task) (vs : List Violation), concatM (Driver.process fuel thr ctx g1 job) l = .ok vs →
      ∃ vs', concatM (Driver.process fuel thr ctx g1 { job with pathFns := pf, nodeFns := [] }) l = .ok vs' ∧
        ∀ v ∈ vs', (∃ ns, v = .loop ns) ∨ ∃ d ps, v = .structural d ps := by
    intro l
    induction l with
    | nil => intro vs _; exact ⟨[], rfl, fun v hv => nomatch hv⟩
    | cons t l ih =>
      intro vs h
      unfold Groot.concatM at h
      obtain ⟨a, ha, h⟩ := bind_ok_iff.mp h
      obtain ⟨c, hc, h⟩ := bind_ok_iff.mp h
      obtain ⟨c', hc', hl⟩ := ih c hc
      have : ∃ a', Driver.process fuel thr ctx g1 { job with pathFns := pf, nodeFns := [] } t = .ok a' ∧
          ∀ v ∈ a', (∃ ns, v = .loop ns) ∨ ∃ d ps, v = .structural d ps := by
        cases t with
        | ec q =>
          unfold Driver.process at ha
          obtain ⟨r, hr, -⟩ := bind_ok_iff.mp ha
          obtain ⟨r', hr', hv⟩ := processEC_stuck hr hm pf
          refine ⟨r'.1, ?_, fun v h => .inl (hv v h)⟩
          unfold Driver.process
          dsimp only
          rw [hr', Res.ok_bind]
        | structural n d => exact ⟨a, ha, fun v hv => .inr ⟨_, structural_emits ha v hv⟩⟩
      obtain ⟨a', ha', ha''⟩ := this
      refine ⟨a' ++ c', ?_, fun v hv => (List.mem_append.mp hv).elim (ha'' v) (hl v)⟩
      unfold Groot.concatM
      rw [ha', Res.ok_bind, hc', Res.ok_bind]
  obtain ⟨vs', h3, h4⟩ := key ts vs h2
  refine ⟨vs', ?_, h4⟩
  unfold runSequential
  have : req { job with pathFns := pf, nodeFns := [] } = req job := rfl
  rw [this, h1, Res.ok_bind]
  dsimp only
  rw [h3, Res.ok_bind]

/-- **C99** Conversely such a property is fatal: if it is accepted, and some name the job is about is resolved without going in circles, then the job
has no result, so that no report is written. -/
theorem C99_fatal {ctx : Context} {w : World} {xs : List (RR × Nat × Nat)} {prev job : Job} {u : JVal} (hj : setJobJ prev u = .ok job)
    (hu : UnnumberedJob u) (S : Redirecting ctx w xs { job with pathFns := [], nodeFns := [] }) {m : Name} (hm : InScope job m)
    (hs : Fits w ⟨m, job.types, false⟩) (hc : ¬ Circular w ⟨m, job.types, false⟩) (fuel thr thr' : Nat)
    (r : LGraph × List Task × List Violation) : runSequential fuel thr ctx (labelGraph thr' xs) job ≠ .ok r := by
  intro h
  obtain ⟨vs, h1, h2⟩ := runSequential_stuck h (setJobJ_unnumbered hj hu) [.rewrites (-1)]
  have S' : Redirecting ctx w xs { job with pathFns := [.rewrites (-1)], nodeFns := [] } :=
    ⟨S.represents, S.wellFormed, S.all, S.flat, S.root, S.labels, S.domain, S.types, fun f hf => by rw [List.mem_singleton.mp hf]; trivial, S.nodeFns⟩
  obtain ⟨p, hp⟩ := route_completes S.represents S.wellFormed (hs _ .refl) (other_ne S.types) hc (.done [] _)
  obtain ⟨q, -, -, hv⟩ := C84_rewrites_complete S' h1 (List.mem_singleton.mpr rfl) (m := m) hm hs hp (by omega)
  rcases h2 _ hv with ⟨ns, e⟩ | ⟨d, ps, e⟩ <;> cases e

/-! ## Cases -/

/-- The aborted run of `C96_disagreement_number`. -/
example : (Process.process 300 500 { sampleEnv with json := fun s => if s = "J".toList then some misfitJobs else sampleEnv.json s } sampleArgs).2 = .aborted :=
  C96_disagreement_number.1

/-- A run without a job file. -/
example : ({ sampleArgs with jobs := none } : Process.Args).jobs = none ∨ ({ sampleArgs with jobs := none } : Process.Args).jobs = some [] := .inl rfl

/-- The sample's job is numbered, it is accepted, and so is the directory. -/
example : ¬ UnnumberedJob oneJobJ ∧ (∃ job, setJobJ {} oneJobJ = .ok job) ∧
    ∃ d, setContextJ 500 true twoContents (fun _ => true) twoFilesJ = .ok d := by
  refine ⟨?_, ?_, ?_⟩
  · rintro ⟨v, ps, p, ⟨m, e, hv⟩, he, hp, hn, w, ⟨m', e', hw⟩, h1, h2, h3⟩
    cases e
    injection hv with hv
    subst hv
    cases elements_iff.mp he
    rcases List.mem_cons.mp hp with rfl | hp
    · cases e'
      injection hw with hw
      exact h1 0 hw.symm
    · cases List.mem_singleton.mp hp
      rcases hn with ⟨m, e, h⟩ | ⟨m, e, h⟩ <;> cases e
      · have h : some (JVal.str "QueryRewrite".toList) = some (.str "Hops".toList) := h
        injection h with h
        injection h with h
        exact absurd h (by decide)
      · have h : some (JVal.str "QueryRewrite".toList) = some (.str "Rewrites".toList) := h
        injection h with h
        injection h with h
        exact absurd h (by decide)
  · have h : (match setJobJ {} oneJobJ with | .ok _ => true | _ => false) = true := by decide +kernel
    cases hj : setJobJ {} oneJobJ with
    | ok j => exact ⟨j, rfl⟩
    | _ => rw [hj] at h; cases h
  · have h : (match setContextJ 500 true twoContents (fun _ => true) twoFilesJ with | .ok _ => true | _ => false) = true := by decide +kernel
    cases hj : setContextJ 500 true twoContents (fun _ => true) twoFilesJ with
    | ok j => exact ⟨j, rfl⟩
    | _ => rw [hj] at h; cases h

/-- A job about everything below `a.com` that gives the number of hops as the string "2". -/
def fatalJobJ : JVal := .obj [("Domain".toList, .str "a.com.".toList), ("SubDomain".toList, .bool true),
  ("Properties".toList, .arr [.obj [("PropertyName".toList, .str "Hops".toList), ("Types".toList, .arr [.str "A".toList]),
    ("Value".toList, .str "2".toList)]])]

def fatalJob : Job := { dnameJob with pathFns := [.misfit false] }

/-- It is accepted, and the names it is about are resolved without going in circles. -/
example : setJobJ {} fatalJobJ = .ok fatalJob ∧ UnnumberedJob fatalJobJ ∧
    Redirecting (contextOf dnameWorld) dnameWorld (recordsOf dnameWorld) { fatalJob with pathFns := [], nodeFns := [] } ∧
    ∃ m, InScope fatalJob m ∧ Fits dnameWorld ⟨m, fatalJob.types, false⟩ ∧ ¬ Circular dnameWorld ⟨m, fatalJob.types, false⟩ := by
  have hfit : Fits dnameWorld ⟨stringToLabels "u.v.a.com.".toList, dnameJob.types, false⟩ :=
    fits_of_check dname_setting.represents dname_setting.wellFormed (by decide +kernel) (by decide +kernel)
  have hin : InScope dnameJob (stringToLabels "u.v.a.com.".toList) := by
    unfold InScope
    rw [if_pos (show dnameJob.subdomains = true from rfl)]
    exact ⟨by decide +kernel, by decide +kernel⟩
  refine ⟨?_, ?_, ⟨dname_setting.represents, dname_setting.wellFormed, dname_setting.all, dname_setting.flat, dname_setting.root, dname_setting.labels,
    dname_setting.domain, dname_setting.types, (fun _ h => nomatch h), (fun _ h => nomatch h)⟩, _, hin, hfit, fun hc => ?_⟩
  · have h : (match setJobJ {} fatalJobJ with | .ok j => decide (j = fatalJob) | _ => false) = true := by decide +kernel
    cases hj : setJobJ {} fatalJobJ with
    | ok j => rw [hj] at h; rw [of_decide_eq_true h]
    | _ => rw [hj] at h; cases h
  · exact ⟨_, _, _, ⟨_, rfl, rfl⟩, elements_iff.mpr rfl, List.mem_singleton.mpr rfl, .inl ⟨_, rfl, rfl⟩, _, ⟨_, rfl, rfl⟩,
      (fun _ h => nomatch h), (fun _ h => nomatch h), (fun _ h => nomatch h)⟩
  · have h : (match runSequential 300 500 (contextOf dnameWorld) (labelGraph 500 (recordsOf dnameWorld)) dnameJob with
      | .ok r => r.2.2.all (fun v => match v with | .loop _ => false | _ => true)
      | _ => false) = true := by decide +kernel
    cases hr : runSequential 300 500 (contextOf dnameWorld) (labelGraph 500 (recordsOf dnameWorld)) dnameJob with
    | ok r =>
      rw [hr] at h
      obtain ⟨ns, hn⟩ := C84_loops_complete dname_setting hr hin hfit hc
      exact absurd (List.all_eq_true.mp h _ hn) (fun h => nomatch h)
    | _ => rw [hr] at h; cases h

end Groot
