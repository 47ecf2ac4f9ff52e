import Verif.Lemmas.Verdict4
import Verif.Spec.Job
import Verif.Props.Labels
import Verif.Props.Resolve

/-! # One run of a job -/

namespace Groot
open Spec

variable {ctx : Context} {w : World} {xs : List (RR × Nat × Nat)} {job : Job}

theorem Setting.noDname' (S : Setting ctx w xs job) : ∀ r ∈ xs.map (·.1), r.type ≠ .DNAME := by
  intro r hr
  obtain ⟨x, hx, rfl⟩ := List.mem_map.mp hr
  exact S.noDname x hx

theorem Setting.noDnameW (S : Setting ctx w xs job) : ∀ id, ∀ r ∈ w.log id, r.type ≠ .DNAME := fun id r hr => S.noDname' r (S.all id r hr)

theorem Setting.regular (S : Setting ctx w xs job) : Regular (xs.map (·.1)) := by
  refine ⟨fun n hn h => (S.labels n hn _ h).1 rfl, ?_⟩
  rintro t ⟨r, hr, h, _⟩
  exact S.noDname' r hr h

theorem other_ne {ts : TypeSet} (h : AsksOther ts) : ts ≠ 0 := by
  rintro rfl
  obtain ⟨t, _, h⟩ := h
  simp [Member] at h

theorem member_all (t : RRType) (ht : t ≠ .N) : Member (~~~0 : TypeSet) t := by
  rw [← has_iff, has_not _ _ ht]; simp

theorem all_other : AsksOther (~~~0 : TypeSet) := ⟨.A, by decide, member_all _ (by decide)⟩

theorem belowClass_types (wild : Prop) [Decidable wild] (n : Name) (ts : TypeSet) : (belowClass wild n ts).types = ts ∨ (belowClass wild n ts).types = ~~~0 := by
  unfold belowClass
  split
  · exact .inl rfl
  · exact .inr rfl

/-- The tasks of the job. -/
theorem Setting.tasks (S : Setting ctx w xs job) {thr' fuel : Nat} {g' : LGraph} {ts : List Task}
    (hts : LGraph.generateECs fuel (labelGraph thr' xs) (Driver.req job) = .ok (g', ts)) :
    g' = labelGraph thr' xs ∧ (∀ q ∈ classes ts, Short q.name ∧ (q.types = job.types ∨ q.types = ~~~0)) ∧
      ∀ m, InScope job m → ∃ q ∈ Spec.classes ts, Stands (xs.map (·.1)) q m := by
  have hg : g' = labelGraph thr' xs := by
    obtain ⟨N, ts', h⟩ := C22_generation_never_aborts thr' xs (Driver.req job)
    have := mono_agree (f := fun n => LGraph.generateECs n (labelGraph thr' xs) (Driver.req job)) (fun n r => generateECs_mono n _ _ r) (h N (Nat.le_refl _)) hts
    simp at this; exact this.1.symm
  subst hg
  refine ⟨rfl, ?_⟩
  have hleg := fun q hq => (C25_legal thr' xs (fun n hn l hl => (S.labels n hn l hl).2) (Driver.req job) fuel _ ts hts q hq).1
  by_cases hc : job.subdomains = true ∧ Known (xs.map (·.1)) (stringToLabels job.domain)
  · obtain ⟨hsub, hk⟩ := hc
    constructor
    · intro q hq
      refine ⟨hleg q hq, ?_⟩
      obtain ⟨N, ts', h1, h2⟩ := C24_classes_no_dname thr' xs S.regular S.noDname (Driver.req job) S.domain hsub hk
      have := mono_agree (f := fun n => LGraph.generateECs n (labelGraph thr' xs) (Driver.req job)) (fun n r => generateECs_mono n _ _ r) (h1 N (Nat.le_refl _)) hts
      simp at this
      subst this
      obtain ⟨n, _, _, _, rfl | rfl⟩ := (h2 q).mp hq
      · exact .inl rfl
      · exact belowClass_types _ _ _
    · intro m hm
      unfold InScope at hm
      rw [if_pos hsub] at hm
      exact C24_coverage_no_dname thr' xs S.regular S.noDname (Driver.req job) S.domain hsub hk fuel ts hts m hm.1 hm.2
  · have hor : (Driver.req job).subdomains = false ∨ ¬ Known (xs.map (·.1)) (stringToLabels (Driver.req job).domain) := by
      show job.subdomains = false ∨ ¬ Known (xs.map (·.1)) (stringToLabels job.domain)
      cases hs : job.subdomains with
      | false => exact .inl rfl
      | true => exact .inr (fun hk => hc ⟨hs, hk⟩)
    obtain ⟨q, rfl, h1, h2, h3⟩ := C29_contains thr' xs S.noDname (Driver.req job) S.domain hor fuel _ ts hts
    constructor
    · intro q' hq
      refine ⟨hleg q' hq, ?_⟩
      have : q' = q := by simpa [Spec.classes] using hq
      subst this
      exact .inl h1
    · intro m hm
      refine ⟨q, by simp [Spec.classes], ?_⟩
      unfold InScope at hm
      split at hm
      · rename_i hsub
        obtain ⟨rest, rfl⟩ := hm.1
        have hk : ¬ Known (xs.map (·.1)) (stringToLabels job.domain) := fun hk => hc ⟨hsub, hk⟩
        change Stands (xs.map (·.1)) q (stringToLabels job.domain) at h2
        change q.excluded = none ↔ Known (xs.map (·.1)) (stringToLabels job.domain) at h3
        unfold Stands at h2 ⊢
        cases hx : q.excluded with
        | none => exact absurd (h3.mp hx) hk
        | some ex =>
          rw [hx] at h2
          obtain ⟨l, r, e, hn⟩ := h2
          exact ⟨l, r ++ rest, by rw [e]; simp, hn⟩
      · subst hm; exact h2

/-- Every task of the job has been processed, and every report comes from one. -/
theorem run_of_tasks (hrep : Represents ctx w) (hwf : WellFormed w) (hty : AsksOther job.types) (hpf : ∀ f ∈ job.pathFns, f.Configured)
    (hnf : ∀ f ∈ job.nodeFns, f.Configured w) {thr fuel : Nat} {g0 g' : LGraph} {ts : List Task} {vs : List Violation}
    (hrun : Driver.runSequential fuel thr ctx g0 job = .ok (g', ts, vs))
    (hq : LGraph.generateECs fuel g0 (Driver.req job) = .ok (g', ts) → ∀ q ∈ classes ts, Short q.name ∧ (q.types = job.types ∨ q.types = ~~~0)) :
    (∀ q ∈ classes ts, ∃ cs g l s, Processed w job.pathFns job.nodeFns q cs g l s ∧ ∀ v ∈ cs, v ∈ vs) ∧
    ∀ v ∈ vs, (∃ q ∈ classes ts, ∃ cs g l s, Processed w job.pathFns job.nodeFns q cs g l s ∧ v ∈ cs) ∨ ∃ d ps, v = .structural d ps := by
  unfold Driver.runSequential at hrun
  obtain ⟨⟨g1, ts1⟩, h1, hrun⟩ := bind_ok_iff.mp hrun
  obtain ⟨vs1, h2, hrun⟩ := bind_ok_iff.mp hrun
  cases hrun
  dsimp only at h2
  have hq := hq h1
  have key : ∀ q ∈ classes ts1, ∀ rx, Driver.process fuel thr ctx g1 job (.ec q) = .ok rx → ∃ g l s, Processed w job.pathFns job.nodeFns q rx g l s := by
    intro q hqm rx hrx
    unfold Driver.process at hrx
    obtain ⟨r, h3, h4⟩ := bind_ok_iff.mp hrx
    cases h4
    have hne : q.types ≠ 0 := by
      rcases (hq q hqm).2 with e | e <;> rw [e]
      · exact other_ne hty
      · exact other_ne all_other
    obtain ⟨N, hN⟩ := processed hrep hwf thr hpf hnf (hq q hqm).1 hne
    obtain ⟨r', g, l, s, h5, h6⟩ := hN N (Nat.le_refl _)
    have := mono_agree (f := fun n => processEC n thr ctx job.pathFns job.nodeFns q) (fun n r => processEC_mono thr ctx _ _ q n r) h5 h3
    subst this
    exact ⟨g, l, s, h6⟩
  have hmem : ∀ {q : EC}, q ∈ classes ts1 ↔ Task.ec q ∈ ts1 := fun {q} => mem_classes q ts1
  constructor
  · intro q hqm
    obtain ⟨rx, h3, h4⟩ := concatM_all h2 (.ec q) (hmem.mp hqm)
    obtain ⟨g, l, s, h5⟩ := key q hqm rx h3
    exact ⟨rx, g, l, s, h5, h4⟩
  · intro v hv
    obtain ⟨t, ht, rx, h3, h4⟩ := (mem_concatM h2 v).mp hv
    cases t with
    | ec q =>
      have hqm := hmem.mpr ht
      obtain ⟨g, l, s, h5⟩ := key q hqm rx h3
      exact .inl ⟨q, hqm, rx, g, l, s, h5, h4⟩
    | structural n d =>
      obtain ⟨ps, e⟩ := structural_emits h3 v h4
      exact .inr ⟨_, ps, e⟩

theorem Setting.run (S : Setting ctx w xs job) {thr thr' fuel : Nat} {g' : LGraph} {ts : List Task} {vs : List Violation}
    (hrun : Driver.runSequential fuel thr ctx (labelGraph thr' xs) job = .ok (g', ts, vs)) :
    (∀ q ∈ classes ts, ∃ cs g l s, Processed w job.pathFns job.nodeFns q cs g l s ∧ ∀ v ∈ cs, v ∈ vs) ∧
    ∀ v ∈ vs, (∃ q ∈ classes ts, ∃ cs g l s, Processed w job.pathFns job.nodeFns q cs g l s ∧ v ∈ cs) ∨ ∃ d ps, v = .structural d ps :=
  run_of_tasks S.represents S.wellFormed S.types S.pathFns S.nodeFns hrun (fun h => (S.tasks h).2.1)

/-- The member of a class, asked for the types of the job, and the class behave alike. -/
structure Bridge (w : World) (job : Job) (q : EC) (m : Name) : Prop where
  complete : ∀ p, Complete w ⟨m, job.types, false⟩ p → ∃ p2, Complete w (ask q) p2 ∧ Mirrors w p p2
  route : ∀ p2, Route w [] (ask q) p2 → ∃ p, Route w [] ⟨m, job.types, false⟩ p ∧ Mirrors w p p2
  circular : Circular w ⟨m, job.types, false⟩ ↔ Circular w (ask q)

theorem mirrors_narrow {w : World} {a0 : Ask} {l : Label} {rest : Name} (hf : Fresh w a0 l rest) {p : Trail}
    (hr : ∀ x ∈ p, Reached w a0 x.1 x.2.1) : Mirrors w (narrow l rest p) p := by
  unfold narrow Mirrors
  induction p with
  | nil => exact .nil
  | cons x p ih =>
    refine .cons ⟨rfl, fun t => (kind_member hf (hr x List.mem_cons_self) t).symm, fun hb => ?_, ?_, fun hb => ?_, fun r => ?_⟩ (ih (fun y hy => hr y (List.mem_cons_of_mem _ hy)))
    · show (x.2.1.member l rest).name = _
      rw [member_exact hb]
    · show AtOrBelow _ (x.2.1.member l rest).name
      unfold Ask.member
      split
      · exact ⟨_, rfl⟩
      · exact ⟨[], by simp⟩
    · exact ⟨l, rest, by show (x.2.1.member l rest).name = _; rw [member_below hb]⟩
    · have hx := hr x List.mem_cons_self
      unfold RewrittenWith
      constructor
      · rintro ⟨y, as, h, ht⟩; exact ⟨y, as, (C28_same_answers w a0 l rest hf x.1 x.2.1 hx _).mpr h, ht⟩
      · rintro ⟨y, as, h, ht⟩; exact ⟨y, as, (C28_same_answers w a0 l rest hf x.1 x.2.1 hx _).mp h, ht⟩

theorem Mirrors.trans_alike {w : World} {t1 t2 : TypeSet} (h1 : AsksOther t1) (h2 : AsksOther t2) {p p1 p2 : Trail}
    (h : List.Forall₂ (fun x y => x.1 = y.1 ∧ AlikeAsk t1 t2 x.2.1 y.2.1) p p1) (hm : Mirrors w p1 p2) : Mirrors w p p2 := by
  unfold Mirrors at *
  induction h generalizing p2 with
  | nil => exact hm
  | @cons x y p p1 hxy _ ih =>
    cases hm with
    | @cons _ z _ p2 hyz hrest =>
      refine .cons ⟨hxy.1.trans hyz.1, fun t => ?_, fun hb => ?_, hxy.2.1 ▸ hyz.2.2.2.1, fun hb => ?_, fun r => ?_⟩ (ih hrest)
      · rw [← hyz.2.1 t, hxy.1]
        exact ⟨fun h => h.retype hxy.2.1 hxy.2.2.1 (hxy.2.left h1) (hxy.2.symm.left h2),
          fun h => h.retype hxy.2.1.symm hxy.2.2.1.symm (hxy.2.symm.left h2) (hxy.2.left h1)⟩
      · exact hxy.2.1.trans (hyz.2.2.1 hb)
      · rw [hxy.2.1]; exact hyz.2.2.2.2.1 hb
      · rw [← hyz.2.2.2.2.2 r, hxy.1]
        exact ⟨fun h => h.retype hxy.2.1 hxy.2.2.1 (hxy.2.left h1) (hxy.2.symm.left h2),
          fun h => h.retype hxy.2.1.symm hxy.2.2.1.symm (hxy.2.symm.left h2) (hxy.2.left h1)⟩

theorem forall₂_flip {α β : Type} {R : α → β → Prop} {S : β → α → Prop} (hRS : ∀ x y, R x y → S y x) {l : List α} {l' : List β}
    (h : List.Forall₂ R l l') : List.Forall₂ S l' l := by
  induction h with
  | nil => exact .nil
  | cons h1 _ ih => exact .cons (hRS _ _ h1) ih

/-- Endless resolution of a single question is circular. -/
theorem circular_of_lasts {ctx : Context} {w : World} (hr : Represents ctx w) (hw : WellFormed w) {m : Name} (hs : Short m) {ts : TypeSet} (ht : ts ≠ 0)
    (hl : ∀ n, Lasts (Needs w) n ([], ⟨m, ts, false⟩)) : Circular w ⟨m, ts, false⟩ := by
  obtain ⟨N, hN⟩ := processed (pf := []) (nf := []) hr hw 0 (fun _ h => nomatch h) (fun _ h => nomatch h) (q := exactClass m ts) hs ht
  obtain ⟨r, g, l, s, _, h⟩ := hN N (Nat.le_refl _)
  have hc : ask (exactClass m ts) = ⟨m, ts, false⟩ := rfl
  rw [← hc, ← h.loop_iff]
  have conv : ∀ (n : Nat) (v : Nat) (sv : Str) (a : Ask), At g v sv a → Lasts (Needs w) n (sv, a) → Lasts (Dep g) n v := by
    intro n
    induction n with
    | zero => exact fun _ _ _ _ _ => trivial
    | succ n ih =>
      rintro v sv a hv ⟨⟨s', a'⟩, hy, hn⟩
      have : ∃ u, At g u s' a' ∧ Dep g v u := by
        rcases hy with ⟨sd, hs⟩ | ⟨s2, a2, hs, hyy⟩
        · obtain ⟨ed, he, rfl, h2, _⟩ := h.inv.step hv hs
          exact ⟨ed.dst, h2, ed, he, rfl, .inl rfl⟩
        · obtain ⟨ed, he, rfl, _, h3⟩ := h.inv.step hv hs
          rcases h3 with ⟨_, h3⟩ | ⟨m, b, h3, h4, h5⟩
          · cases h3
          · cases h4
            dsimp only at hyy
            rw [← hyy] at h5
            exact ⟨m, h5, ed, he, rfl, .inr h3⟩
      obtain ⟨u, hu, hd⟩ := this
      exact ⟨u, hd, ih u s' a' hu hn⟩
  have hlong := conv g.verts.length 0 [] _ h.inv.core.root (hl _)
  have hcyc := cycle_of_long (R := Dep g) (N := g.verts.length) (by
    rintro u v ⟨e, he, rfl, h4 | h4⟩
    · rw [← h4]; exact h.sane.dst e he
    · exact h.sane.side e he v h4) h.inv.core.root.1 hlong
  have hsome := h.loop.mpr hcyc
  obtain ⟨x, e⟩ := Option.isSome_iff_exists.mp hsome
  obtain ⟨ns, rfl⟩ := h.isLoop x e
  exact ⟨ns, (h.mem _).mpr (.inl e)⟩

theorem bridge_of_fresh (hrep : Represents ctx w) (hwf : WellFormed w) (hty : AsksOther job.types) {q : EC} (hq : q.types = job.types ∨ q.types = ~~~0)
    {cs : List Violation} {g : IG} {l : Option Violation} {s : IG.Enum} (hp : Processed w job.pathFns job.nodeFns q cs g l s) {m : Name} (hs : Short m)
    {lb : Label} {rest : Name} (e : (ask q).member lb rest = ⟨m, q.types, false⟩) (hf : Fresh w (ask q) lb rest) : Bridge w job q m := by
  have hqo : AsksOther q.types := by
    rcases hq with e | e <;> rw [e]
    · exact hty
    · exact all_other
  have hal : AlikeAsk job.types q.types ⟨m, job.types, false⟩ ⟨m, q.types, false⟩ := ⟨rfl, rfl, .inl ⟨rfl, rfl⟩⟩
  refine ⟨?_, ?_, ?_⟩
  · intro p hc
    have : ∃ p1, Complete w ⟨m, q.types, false⟩ p1 ∧ List.Forall₂ (fun x y => x.1 = y.1 ∧ AlikeAsk job.types q.types x.2.1 y.2.1 ∨ x = y) p p1 := by
      rcases hq with e1 | e1
      · refine ⟨p, by rw [e1]; exact hc, ?_⟩
        exact List.forall₂_same.mpr (fun x _ => .inr rfl)
      · obtain ⟨p1, h1, h2⟩ := complete_retype hty hqo (by rw [e1]; exact member_all _ (by decide)) hal hc
        exact ⟨p1, h1, h2.imp (fun _ _ h => .inl h)⟩
    obtain ⟨p1, h1, h2⟩ := this
    rw [← e] at h1
    obtain ⟨p2, rfl, h3⟩ := complete_of_member hf h1
    refine ⟨p2, h3, ?_⟩
    have hmn := mirrors_narrow hf (reached_route .start h3.route)
    generalize narrow lb rest p2 = p1 at h2 hmn
    clear h1 h3 hc
    unfold Mirrors at *
    induction h2 generalizing p2 with
    | nil => exact hmn
    | @cons x y p p1 hxy _ ih =>
      cases hmn with
      | @cons _ z _ p2 hyz hrest =>
        rcases hxy with hxy | rfl
        · have := Mirrors.trans_alike (w := w) hty hqo (.cons hxy .nil) (.cons hyz .nil)
          cases this with
          | cons h1 _ => exact .cons h1 (ih _ hrest)
        · exact .cons hyz (ih _ hrest)
  · intro p2 h2
    have h3 := C28_class_to_member w (ask q) lb rest hf p2 h2
    rw [e] at h3
    obtain ⟨p, h4, h5⟩ := route_retype hqo hty h3 hal.symm
    refine ⟨p, h4, Mirrors.trans_alike hty hqo ?_ (mirrors_narrow hf (reached_route .start h2))⟩
    exact forall₂_flip (fun x y h => ⟨h.1.symm, h.2.symm⟩) h5
  · constructor
    · rintro ⟨x, h1, h2⟩
      have hl := lasts_reach h1 (fun n => lasts_cycle n x h2)
      have hl2 := fun n => lasts_retype hty hqo n (.inr hal) (hl n)
      have := circular_of_lasts hrep hwf hs (other_ne hqo) hl2
      rw [← e] at this
      exact hp.circular_of_member hf this
    · intro hc
      have := circular_member hf hc
      rw [e] at this
      obtain ⟨x, h1, h2⟩ := this
      have hl := lasts_reach h1 (fun n => lasts_cycle n x h2)
      exact circular_of_lasts hrep hwf hs (other_ne hty) (fun n => lasts_retype hqo hty n (.inr hal.symm) (hl n))

theorem Setting.bridge (S : Setting ctx w xs job) {q : EC} (hq : q.types = job.types ∨ q.types = ~~~0) {cs : List Violation} {g : IG} {l : Option Violation}
    {s : IG.Enum} (hp : Processed w job.pathFns job.nodeFns q cs g l s) {m : Name} (hm : Stands (xs.map (·.1)) q m) (hs : Short m) : Bridge w job q m := by
  obtain ⟨lb, rest, e, hf⟩ := member_of_stands S.wellFormed S.all S.noDname' hm hs
  exact bridge_of_fresh S.represents S.wellFormed S.types hq hp hs e hf

theorem Setting.generated (S : Setting ctx w xs job) {thr thr' fuel : Nat} {g' : LGraph} {ts : List Task} {vs : List Violation}
    (hrun : Driver.runSequential fuel thr ctx (labelGraph thr' xs) job = .ok (g', ts, vs)) :
    LGraph.generateECs fuel (labelGraph thr' xs) (Driver.req job) = .ok (g', ts) := by
  unfold Driver.runSequential at hrun
  obtain ⟨⟨g1, ts1⟩, h1, hrun⟩ := bind_ok_iff.mp hrun
  obtain ⟨vs1, h2, hrun⟩ := bind_ok_iff.mp hrun
  cases hrun
  exact h1

/-- Every name the job is about stands in some class. -/
theorem Setting.covered (S : Setting ctx w xs job) {thr thr' fuel : Nat} {g' : LGraph} {ts : List Task} {vs : List Violation}
    (hrun : Driver.runSequential fuel thr ctx (labelGraph thr' xs) job = .ok (g', ts, vs)) (m : Name) (hm : InScope job m) :
    ∃ q ∈ Spec.classes ts, Stands (xs.map (·.1)) q m := (S.tasks (S.generated hrun)).2.2 m hm

theorem Setting.class_run (S : Setting ctx w xs job) {thr thr' fuel : Nat} {g' : LGraph} {ts : List Task} {vs : List Violation}
    (hrun : Driver.runSequential fuel thr ctx (labelGraph thr' xs) job = .ok (g', ts, vs)) (q : EC) (hq : q ∈ Spec.classes ts) :
    (q.types = job.types ∨ q.types = ~~~0) ∧ ∃ cs g l s, Processed w job.pathFns job.nodeFns q cs g l s ∧ (∀ v ∈ cs, v ∈ vs) ∧
      ∀ m, Stands (xs.map (·.1)) q m → Short m → Bridge w job q m := by
  have ht := ((S.tasks (S.generated hrun)).2.1 q hq).2
  obtain ⟨cs, g, l, s, hP, hsub⟩ := (S.run hrun).1 q hq
  exact ⟨ht, cs, g, l, s, hP, hsub, fun m hm hs => S.bridge ht hP hm hs⟩

theorem Setting.source (S : Setting ctx w xs job) {thr thr' fuel : Nat} {g' : LGraph} {ts : List Task} {vs : List Violation}
    (hrun : Driver.runSequential fuel thr ctx (labelGraph thr' xs) job = .ok (g', ts, vs)) {v : Violation} (hv : v ∈ vs)
    (hn : ∀ d ps, v ≠ .structural d ps) :
    ∃ q ∈ Spec.classes ts, ∃ cs g l s, Processed w job.pathFns job.nodeFns q cs g l s ∧
      (∀ m, Stands (xs.map (·.1)) q m → Short m → Bridge w job q m) ∧ v ∈ cs := by
  rcases (S.run hrun).2 v hv with ⟨q, hq, cs, g, l, s, hP, hv⟩ | ⟨d, ps, e⟩
  · exact ⟨q, hq, cs, g, l, s, hP, fun m hm hs => S.bridge ((S.tasks (S.generated hrun)).2.1 q hq).2 hP hm hs, hv⟩
  · exact absurd e (hn d ps)

end Groot
