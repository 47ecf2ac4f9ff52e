import Verif.Lemmas.Process
import Verif.Props.Input
import Verif.Props.Threaded

/-!
# The process and its files
-/

namespace Groot

open Spec Driver Process

theorem seen_parts {d d' : Disk} {ws : List Write} (h : Seen d ws d') : ∃ a b, ws = a ++ b ∧ (d' = d.after a ∨
    ∃ f s p c, b = .append f s :: c ∧ p <+: s ∧ d' = (d.after a).write (.append f p)) := by
  cases h with
  | between k => exact ⟨_, _, (List.take_append_drop k ws).symm, .inl rfl⟩
  | within k f s p h hp =>
    refine ⟨_, _, (List.take_append_drop k ws).symm, .inr ⟨f, s, p, ws.drop (k + 1), ?_, hp, rfl⟩⟩
    obtain ⟨hk, hg⟩ := List.getElem?_eq_some_iff.mp h
    rw [List.drop_eq_getElem_cons hk, hg]

theorem after_filter (g : Str) (ws : List Write) (d : Disk) : d.after ws g = d.after (ws.filter (fun w => w.file = g)) g := by
  have key : ∀ (ws : List Write) (d d' : Disk), d g = d' g → d.after ws g = d'.after (ws.filter (fun w => w.file = g)) g := by
    intro ws
    induction ws with
    | nil => exact fun d d' h => h
    | cons w ws ih =>
      intro d d' h
      by_cases hw : w.file = g
      · rw [List.filter_cons_of_pos (by simpa using hw)]
        refine ih (d.write w) (d'.write w) ?_
        subst hw
        cases w with
        | create f =>
          show (if f = f then some [] else d f) = (if f = f then some [] else d' f)
          rw [if_pos rfl, if_pos rfl]
        | append f s =>
          show (if f = f then some ((d f).getD [] ++ s) else d f) = (if f = f then some ((d' f).getD [] ++ s) else d' f)
          rw [show d f = d' f from h]
      · rw [List.filter_cons_of_neg (by simpa using hw)]
        exact ih (d.write w) d' ((write_other (fun e => hw e.symm)).trans h)
  exact key ws d d rfl

theorem after_start {d : Disk} {g : Str} {ss : List Str} {a b : List Write} (h : .create g :: ss.map (.append g) = a ++ b) :
    (a = [] ∧ d.after a g = d g) ∨ ∃ s1 s2, ss = s1 ++ s2 ∧ b = s2.map (.append g) ∧ d.after a g = some s1.flatten := by
  cases a with
  | nil => exact .inl ⟨rfl, rfl⟩
  | cons w a =>
    right
    rw [List.cons_append] at h
    injection h with h1 h2
    obtain ⟨s1, s2, e1, e2, e3⟩ := List.map_eq_append_iff.mp h2
    refine ⟨s1, s2, e1, e3.symm, ?_⟩
    rw [← h1, ← e2]
    show (d.write (.create g)).after (s1.map (.append g)) g = some s1.flatten
    rw [after_pieces]
    have e : d.write (.create g) g = some [] := by
      show (if g = g then some [] else d g) = some []
      exact if_pos rfl
    rw [e]
    by_cases hs : s1 = []
    · rw [if_pos hs, hs]; rfl
    · rw [if_neg hs]; rfl

/-- A file that is not written is as it was. -/
theorem seen_untouched {d d' : Disk} {ws : List Write} (h : Seen d ws d') {g : Str} (hg : ∀ w ∈ ws, g ≠ w.file) : d' g = d g := by
  obtain ⟨a, b, rfl, h | ⟨f, s, p, c, rfl, -, h⟩⟩ := seen_parts h
  · rw [h]; exact after_other (fun w hw => hg w (List.mem_append_left _ hw)) d
  · rw [h, write_other (w := .append f p) (hg (.append f s) (by simp))]
    exact after_other (fun w hw => hg w (List.mem_append_left _ hw)) d

/-- A file that is written is as it was, or has the beginning of what is written to it. -/
theorem seen_written {d d' : Disk} {ws : List Write} (h : Seen d ws d') {g : Str} {ss : List Str}
    (hg : ws.filter (fun w => w.file = g) = .create g :: ss.map (.append g)) : d' g = d g ∨ ∃ p, p <+: ss.flatten ∧ d' g = some p := by
  obtain ⟨a, b, rfl, hd⟩ := seen_parts h
  rw [List.filter_append] at hg
  have ha := after_start (d := d) hg.symm
  rw [← after_filter] at ha
  rcases hd with hd | ⟨f, s, p, c, rfl, hp, hd⟩
  · rw [hd]
    rcases ha with ⟨-, ha⟩ | ⟨s1, s2, e1, -, ha⟩
    · exact .inl ha
    · exact .inr ⟨_, ⟨s2.flatten, by rw [e1, List.flatten_append]⟩, ha⟩
  · by_cases hf : f = g
    · subst hf
      have hw : d' f = some ((d.after a f).getD [] ++ p) := by
        rw [hd]
        show (if f = f then _ else _) = _
        exact if_pos rfl
      rw [List.filter_cons_of_pos (by simp [Write.file])] at ha
      rcases ha with ⟨e, ha⟩ | ⟨s1, s2, e1, e2, ha⟩
      · rw [e, List.nil_append, List.filter_cons_of_pos (by simp [Write.file])] at hg
        injection hg with hg _
        cases hg
      · right
        cases s2 with
        | nil => cases e2
        | cons s' s2 =>
          injection e2 with e2 _
          injection e2 with _ e2
          subst e2
          obtain ⟨q, hq⟩ := hp
          refine ⟨s1.flatten ++ p, ⟨q ++ s2.flatten, ?_⟩, by rw [hw, ha]; rfl⟩
          rw [e1, List.flatten_append, List.flatten_cons, ← hq]
          simp
    · rw [hd, write_other (w := .append f p) (fun e => hf e.symm)]
      rcases ha with ⟨-, ha⟩ | ⟨s1, s2, e1, -, ha⟩
      · exact .inl ha
      · exact .inr ⟨_, ⟨s2.flatten, by rw [e1, List.flatten_append]⟩, ha⟩

/-- What is seen without the last write, or after it or during it. -/
theorem seen_snoc {d d' : Disk} {ws : List Write} {w : Write} (h : Seen d (ws ++ [w]) d') :
    Seen d ws d' ∨ ∀ g, g ≠ w.file → d' g = d.after ws g := by
  cases h with
  | between k =>
    by_cases hk : k ≤ ws.length
    · left
      rw [List.take_append_of_le_length hk]
      exact .between k
    · right
      intro g hg
      rw [List.take_of_length_le (by simp; omega), after_append]
      exact write_other hg
  | within k f s p h hp =>
    by_cases hk : k < ws.length
    · left
      rw [List.take_append_of_le_length (by omega)]
      rw [List.getElem?_append_left hk] at h
      exact .within k f s p h hp
    · right
      intro g hg
      have hk' : k = ws.length := by
        have := (List.getElem?_eq_some_iff.mp h).1
        simp at this
        omega
      subst hk'
      rw [List.getElem?_append_right (le_refl _), Nat.sub_self] at h
      injection h with h
      subst h
      rw [List.take_left']
      · exact write_other (w := .append f p) hg
      · rfl

theorem wrote_unique {fuel thr : Nat} {env : Env} {args : Args} {f g : Files} (hf : Wrote fuel thr env args f) (hg : Wrote fuel thr env args g) : f = g := by
  obtain ⟨m, us, h1, h2, h3⟩ := hf
  obtain ⟨m', us', e1, e2, e3⟩ := hg
  have hm : m = m' := by
    have := (show env.json _ = some m from h1).symm.trans e1
    injection this
  have hu : us = us' := by
    cases h2 with
    | default h =>
      cases e2 with
      | default _ => rfl
      | file f v a b c =>
        rcases h with h | h
        · rw [a] at h; cases h
        · rw [a] at h; injection h with h; exact absurd h b
    | file f v a b c =>
      cases e2 with
      | default h =>
        rcases h with h | h
        · rw [a] at h; cases h
        · rw [a] at h; injection h with h; exact absurd h b
      | file f' v' a' b' c' =>
        rw [a] at a'
        injection a' with a'
        subst a'
        rw [c] at c'
        rw [Option.some.inj c']
  subst hm hu
  rw [h3] at e3
  injection e3

theorem filter_lint_out {args : Args} (hne : outputName args ≠ lintName) (l : List Str) :
    (lintWrites args.lint l).filter (fun w => w.file = outputName args) = [] := by
  rw [List.filter_eq_nil_iff]
  intro w hw
  rw [lintWrites_file w hw]
  exact fun h => hne (of_decide_eq_true h).symm

theorem filter_closing_out {args : Args} (hne : outputName args ≠ lintName) (b : Bool) :
    (if b then closing args else []).filter (fun w => w.file = outputName args) = [] := by
  rw [List.filter_eq_nil_iff]
  intro w hw
  cases b with
  | false => cases hw
  | true =>
    unfold closing at hw
    cases hl : args.lint with
    | false => rw [hl] at hw; cases hw
    | true =>
      rw [hl] at hw
      rw [List.mem_singleton.mp hw]
      exact fun h => hne (of_decide_eq_true h).symm

theorem filter_out_out (args : Args) (s : Str) : (outWrites args s).filter (fun w => w.file = outputName args) = outWrites args s := by
  rw [List.filter_eq_self]
  intro w hw
  rcases List.mem_cons.mp hw with rfl | hw
  · simp [Write.file]
  · rw [List.mem_singleton.mp hw]; simp [Write.file]

theorem filter_out_lint {args : Args} (hne : outputName args ≠ lintName) (s : Str) : (outWrites args s).filter (fun w => w.file = lintName) = [] := by
  rw [List.filter_eq_nil_iff]
  intro w hw
  rcases List.mem_cons.mp hw with rfl | hw
  · exact fun h => hne (of_decide_eq_true h)
  · rw [List.mem_singleton.mp hw]; exact fun h => hne (of_decide_eq_true h)

theorem filter_lint_lint (lint : Bool) (l : List Str) : (lintWrites lint l).filter (fun w => w.file = lintName) = lintWrites lint l := by
  rw [List.filter_eq_self]
  intro w hw
  rw [lintWrites_file w hw]
  simp

/-- What the output file should have before the closing bracket cannot be read. -/
theorem output_prefix {ord : List Str → List Str} {vs : List Violation} {p : Str} (hp : p <+: (writeViolations ord vs).1) (hj : IsJson p) :
    p = (writeViolations ord vs).1 ∧ (writeViolations ord vs).2 = true := by
  obtain ⟨t, ht⟩ := hp
  obtain ⟨j, hj⟩ := hj
  by_cases h : ∀ j ∈ violationSet ord vs, Json.textOk j = true
  · have e := writeViolations_done h
    rw [e] at ht ⊢
    refine ⟨?_, rfl⟩
    by_contra hc
    have : t ≠ [] := by rintro rfl; exact hc (by rw [← ht]; simp)
    rw [Json.parse_listFile_prefix (violationSet ord vs) ht.symm this] at hj
    cases hj
  · exfalso
    obtain ⟨pre, j', rest, e1, e2, e3⟩ := first_bad _ h
    have e : (writeViolations ord vs).1 = "[\n".toList ++ List.intercalate ",\n".toList (pre.map (Json.dump 0)) ++ (if pre = [] then [] else ",\n".toList) := by
      unfold writeViolations
      rw [e1, writeLoop_stops pre rest e2 j' e3]
      rfl
    have e' : listFile ((pre ++ [Json.null]).map (Json.dump 0)) = (writeViolations ord vs).1 ++ (Json.dump 0 .null ++ "\n]".toList) := by
      rw [e]
      have := lintBody_snoc pre Json.null
      unfold lintBody at this
      unfold listFile
      rw [this]
      simp only [List.append_assoc]
    rw [← ht] at e'
    rw [Json.parse_listFile_prefix (pre ++ [Json.null]) (p := p) (t := t ++ (Json.dump 0 .null ++ "\n]".toList)) (by rw [e', List.append_assoc]) (by
      intro h0
      have := congrArg List.length h0
      simp only [List.length_append, List.length_nil] at this
      have : "\n]".toList.length = 2 := rfl
      omega)] at hj
    cases hj

/-- lint.json cannot be read before its closing bracket. -/
theorem lint_prefix {l : List Str} {js : List Json} (hl : Left l js) {p : Str} (hp : p <+: l.flatten) : ¬ IsJson p := by
  rintro ⟨j, hj⟩
  obtain ⟨t, ht⟩ := hp
  have e : ∃ u, listFile ((js ++ [Json.null]).map (Json.dump 0)) = l.flatten ++ u ∧ u ≠ [] := by
    have := lintBody_snoc js Json.null
    have e1 : listFile ((js ++ [Json.null]).map (Json.dump 0)) = lintBody (js ++ [Json.null]) ++ "\n]".toList := rfl
    rw [e1, this]
    rcases hl.1 with h | ⟨hne, h⟩
    · rw [h]
      refine ⟨(if js = [] then [] else ",\n".toList) ++ Json.dump 0 .null ++ "\n]".toList, by simp only [List.append_assoc], by simp⟩
    · rw [h, if_neg hne]
      exact ⟨Json.dump 0 .null ++ "\n]".toList, by simp only [List.append_assoc], by simp⟩
  obtain ⟨u, hu, hne⟩ := e
  rw [← ht] at hu
  rw [Json.parse_listFile_prefix (js ++ [Json.null]) (p := p) (t := t ++ u) (by rw [hu, List.append_assoc]) (by simp [hne])] at hj
  cases hj

/-- **C96** The output file of the theorems below is the one of the option --output, and without it output.json. -/
theorem C96_output_name (args : Args) (f : Str) : OutputFile args f ↔ outputName args = f := by
  unfold outputName
  constructor
  · rintro (⟨_, h⟩ | h) <;> rw [h] <;> rfl
  · rintro rfl
    cases h : args.output with
    | some f => exact .given f h
    | none => exact .default h

/-- **C96** A run that gets to its report: the output file has the report, lint.json the issues if asked for, every other file is as it was; the
process returns if the report was written to the end, and is ended by an exception otherwise. -/
theorem C96_wrote (fuel thr : Nat) (env : Env) (args : Args) (hne : outputName args ≠ lintName) (f : Files) (h : Wrote fuel thr env args f) :
    (process fuel thr env args).2 = (if f.finished then .returned else .caught) ∧
    ∀ g, env.disk.after (process fuel thr env args).1 g =
      if g = outputName args then some f.output else if g = lintName ∧ args.lint = true then f.lint else env.disk g := by
  rcases process_cases fuel thr env args with ⟨f', l, js, hw, hp, hl1, hl2, -⟩ | ⟨e, l, js, hno, -⟩
  swap
  · exact absurd ⟨f, h⟩ hno
  have hff := wrote_unique h hw
  subst hff
  rw [hp]
  refine ⟨rfl, fun g => ?_⟩
  dsimp only
  by_cases hg : g = outputName args
  · subst hg
    rw [if_pos rfl, after_filter, List.filter_append, List.filter_append, filter_lint_out hne, filter_closing_out hne, filter_out_out, List.nil_append,
      List.append_nil, after_out]
  · rw [if_neg hg]
    by_cases hgl : g = lintName
    · subst hgl
      cases hl : args.lint with
      | true =>
        rw [if_pos (And.intro rfl (rfl : true = true))]
        obtain ⟨hwr, hfl⟩ := hl1 hl
        rw [hfl, after_filter, List.filter_append, List.filter_append, filter_lint_lint, filter_out_lint hne, List.append_nil]
        cases hfin : f.finished with
        | true =>
          have : (if true = true then closing args else []).filter (fun w => w.file = lintName) = [.append lintName "\n]".toList] := by
            rw [if_pos rfl]
            unfold closing
            rw [hl, if_pos rfl]
            rfl
          rw [this, after_append]
          have e : ∀ d : Disk, d.after [.append lintName "\n]".toList] lintName = some ((d lintName).getD [] ++ "\n]".toList) :=
            fun d => by
              show (if lintName = lintName then some ((d lintName).getD [] ++ "\n]".toList) else d lintName) = _
              exact if_pos rfl
          rw [e, after_lint, if_pos rfl, Option.getD_some, hwr.1]
        | false =>
          rw [if_neg (by simp), List.filter_nil, List.append_nil, after_lint, if_neg (by simp), hwr.1]
      | false =>
        refine Eq.trans ?_ (if_neg (fun h => Bool.false_ne_true h.2)).symm
        refine after_other (fun w hw => ?_) _
        rcases List.mem_append.mp hw with hw | hw
        · rcases List.mem_append.mp hw with hw | hw
          · cases hw
          · rcases List.mem_cons.mp hw with rfl | hw
            · exact hg
            · rw [List.mem_singleton.mp hw]; exact hg
        · unfold closing at hw
          rw [hl] at hw
          split_ifs at hw <;> first | contradiction | cases hw
    · refine Eq.trans ?_ (if_neg (fun h => hgl h.1)).symm
      refine after_other (fun w hw => ?_) _
      rcases List.mem_append.mp hw with hw | hw
      · rcases List.mem_append.mp hw with hw | hw
        · rw [lintWrites_file w hw]; exact hgl
        · rcases List.mem_cons.mp hw with rfl | hw
          · exact hg
          · rw [List.mem_singleton.mp hw]; exact hg
      · unfold closing at hw
        split_ifs at hw
        · rw [List.mem_singleton.mp hw]; exact hgl
        · cases hw
        · cases hw

/-- **C96** The process returns exactly if the run gets to its report and the report is written to the end. -/
theorem C96_returned (fuel thr : Nat) (env : Env) (args : Args) :
    (process fuel thr env args).2 = .returned ↔ ∃ f, Wrote fuel thr env args f ∧ f.finished = true := by
  rcases process_cases fuel thr env args with ⟨f, l, js, hw, hp, -⟩ | ⟨e, l, js, hno, hp, he, -⟩
  · rw [hp]
    dsimp only
    constructor
    · intro h
      refine ⟨f, hw, ?_⟩
      by_contra hc
      rw [if_neg hc] at h
      cases h
    · rintro ⟨f', hw', hf⟩
      rw [wrote_unique hw hw', if_pos hf]
  · rw [hp]
    exact ⟨fun h => absurd h he, fun ⟨f, hf, _⟩ => absurd ⟨f, hf⟩ hno⟩

/-- **C96** A run that does not get to its report leaves every file but lint.json as it was, and lint.json too if linting was not asked for: the output
file may be that of an earlier run. -/
theorem C96_stale (fuel thr : Nat) (env : Env) (args : Args) (h : ¬ ∃ f, Wrote fuel thr env args f) (d : Disk)
    (hd : Seen env.disk (process fuel thr env args).1 d) (g : Str) (hg : g = lintName → args.lint = false) : d g = env.disk g := by
  rcases process_cases fuel thr env args with ⟨f, l, js, hw, -⟩ | ⟨e, l, js, -, hp, -⟩
  · exact absurd ⟨f, hw⟩ h
  · rw [hp] at hd
    refine seen_untouched hd (fun w hw hgw => ?_)
    have := lintWrites_file w hw
    rw [hg (hgw.trans this)] at hw
    cases hw

/-- **C96** Whenever the process is looked at or killed, the output file is as it was before the run, or has the beginning of the report; and it can be
read as JSON only if it is as it was or the report is complete. -/
theorem C96_output_seen (fuel thr : Nat) (env : Env) (args : Args) (hne : outputName args ≠ lintName) (d : Disk)
    (hd : Seen env.disk (process fuel thr env args).1 d) :
    d (outputName args) = env.disk (outputName args) ∨
    ∃ f p, Wrote fuel thr env args f ∧ d (outputName args) = some p ∧ p <+: f.output ∧ (IsJson p → p = f.output ∧ f.finished = true) := by
  by_cases h : ∃ f, Wrote fuel thr env args f
  · rcases process_cases fuel thr env args with ⟨f, l, js, hw, hp, -, -, vs, e1, e2⟩ | ⟨e, l, js, hno, -⟩
    · rw [hp] at hd
      have := seen_written hd (g := outputName args) (ss := [f.output]) (by
        rw [List.filter_append, List.filter_append, filter_lint_out hne, filter_closing_out hne, filter_out_out, List.nil_append, List.append_nil]
        rfl)
      rcases this with h | ⟨p, hp, h⟩
      · exact .inl h
      · rw [List.flatten_singleton] at hp
        refine .inr ⟨f, p, hw, h, hp, fun hj => ?_⟩
        rw [e1] at hp ⊢
        rw [e2]
        exact output_prefix hp hj
    · exact absurd h hno
  · exact .inl (C96_stale fuel thr env args h d hd _ (fun e => absurd e hne))

/-- **C96** The same for lint.json, with linting on: it can be read as JSON only if it is as it was, or complete, which it is only once the report is. -/
theorem C96_lint_seen (fuel thr : Nat) (env : Env) (args : Args) (hne : outputName args ≠ lintName) (hl : args.lint = true) (d : Disk)
    (hd : Seen env.disk (process fuel thr env args).1 d) :
    d lintName = env.disk lintName ∨ ∃ p, d lintName = some p ∧
      (IsJson p → ∃ f, Wrote fuel thr env args f ∧ f.finished = true ∧ f.lint = some p ∧ d (outputName args) = some f.output) := by
  by_cases hkeep : d lintName = env.disk lintName
  · exact .inl hkeep
  rcases process_cases fuel thr env args with ⟨f, l, js, hw, hp, hl1, -⟩ | ⟨e, l, js, hno, hp, -, hleft⟩
  · obtain ⟨hwr, hfl⟩ := hl1 hl
    have hd' := hd
    rw [hp] at hd
    have hfil : (lintWrites args.lint l ++ outWrites args f.output ++ (if f.finished then closing args else [])).filter (fun w => w.file = lintName) =
        .create lintName :: (l ++ if f.finished then ["\n]".toList] else []).map (.append lintName) := by
      rw [List.filter_append, List.filter_append, filter_lint_lint, filter_out_lint hne, List.append_nil]
      unfold lintWrites closing
      rw [hl, if_pos rfl, if_pos rfl]
      cases f.finished with
      | true => simp [Write.file]
      | false => simp
    rcases seen_written hd hfil with h | ⟨p, hpre, h⟩
    · exact .inl h
    · refine .inr ⟨p, h, fun hj => ?_⟩
      cases hfin : f.finished with
      | false =>
        rw [hfin, if_neg (by simp), List.append_nil] at hpre
        exact absurd hj (lint_prefix hwr.left hpre)
      | true =>
        rw [hfin, if_pos rfl, List.flatten_append, List.flatten_singleton, hwr.1] at hpre
        have hpe : p = lintBody js ++ "\n]".toList := by
          obtain ⟨t, ht⟩ := hpre
          by_contra hc
          have hne' : t ≠ [] := by rintro rfl; exact hc (by rw [← ht]; simp)
          obtain ⟨j, hj⟩ := hj
          rw [Json.parse_listFile_prefix js (p := p) (t := t) (by rw [ht]; rfl) hne'] at hj
          cases hj
        refine ⟨f, hw, hfin, by rw [hfl, hfin, if_pos rfl, hpe], ?_⟩
        have hclose : closing args = [.append lintName "\n]".toList] := by unfold closing; rw [hl]; rfl
        rw [hfin, if_pos rfl, hclose] at hd
        have hout : env.disk.after (lintWrites args.lint l ++ outWrites args f.output) (outputName args) = some f.output := by
          rw [after_filter, List.filter_append, filter_lint_out hne, filter_out_out, List.nil_append, after_out]
        rcases seen_snoc hd with hd | hd
        · exfalso
          rcases seen_written hd (g := lintName) (ss := l) (by
            rw [List.filter_append, filter_lint_lint, filter_out_lint hne, List.append_nil]; unfold lintWrites; rw [hl]; rfl) with e | ⟨q, hq, e⟩
          · exact hkeep e
          · rw [h] at e
            injection e with e
            subst e
            exact lint_prefix hwr.left hq hj
        · rw [← hout]
          exact hd _ hne
  · rw [hp] at hd
    rcases seen_written hd (g := lintName) (ss := l) (by rw [filter_lint_lint]; unfold lintWrites; rw [hl]; rfl) with h | ⟨p, hpre, h⟩
    · exact .inl h
    · exact .inr ⟨p, h, fun hj => absurd hj (lint_prefix hleft hpre)⟩

/-- **C96** No other file is ever touched. -/
theorem C96_other_files (fuel thr : Nat) (env : Env) (args : Args) (d : Disk) (hd : Seen env.disk (process fuel thr env args).1 d) (g : Str)
    (hg : g ≠ outputName args) (hl : g = lintName → args.lint = false) : d g = env.disk g := by
  by_cases h : ∃ f, Wrote fuel thr env args f
  · rcases process_cases fuel thr env args with ⟨f, l, js, hw, hp, -⟩ | ⟨e, l, js, hno, -⟩
    · rw [hp] at hd
      refine seen_untouched hd (fun w hw hgw => ?_)
      rcases List.mem_append.mp hw with hw | hw
      · rcases List.mem_append.mp hw with hw | hw
        · rw [hl (hgw.trans (lintWrites_file w hw))] at hw
          cases hw
        · rcases List.mem_cons.mp hw with rfl | hw
          · exact hg hgw
          · rw [List.mem_singleton.mp hw] at hgw; exact hg hgw
      · split_ifs at hw
        · unfold closing at hw
          split_ifs at hw with hlint
          · rw [List.mem_singleton.mp hw] at hgw
            rw [hl hgw] at hlint
            cases hlint
          · cases hw
        · cases hw
    · exact absurd h hno
  · exact C96_stale fuel thr env args h d hd g hl

/-- **C96** On good input the process returns, with status 0; it has left a complete report, which reads as a JSON list, in the output file. -/
theorem C96_good {thr : Nat} {env : Env} {args : Args} {jm jj : JVal} {m : Meta} {us : List UJob} {tops : List Str} {zs : List Listing}
    {ess : List (List (Entry × Nat))} (hord : ∀ l, (env.ord l).Perm l) (hne : outputName args ≠ lintName) (hjm : MetadataRead env jm)
    (hjj : JobsRead env args (some jj)) (hm : MetaOf jm m) (hus : JobsOf jj us)
    (h : GoodInput (fun n => textOf env (env.path n)) (fun n => (env.disk (env.path n)).isSome) m us tops zs ess) :
    ∃ N f, ∀ fuel, N ≤ fuel → Wrote fuel thr env args f ∧ (process fuel thr env args).2.status = some 0 ∧
      env.disk.after (process fuel thr env args).1 (outputName args) = some f.output ∧ IsJson f.output := by
  obtain ⟨N, f, hN, hf⟩ := C90_ends (ord := env.ord) (thr := thr) (lint := args.lint) hord hm hus h
  have hwr : ∀ fuel, N ≤ fuel → Wrote fuel thr env args f := fun fuel hfu => ⟨jm, some jj, hjm, hjj, hN fuel hfu⟩
  refine ⟨N, f, fun fuel hfu => ⟨hwr fuel hfu, ?_, ?_, ?_⟩⟩
  · rw [(C96_wrote fuel thr env args hne f (hwr fuel hfu)).1, hf]
    rfl
  · rw [(C96_wrote fuel thr env args hne f (hwr fuel hfu)).2, if_pos rfl]
  · obtain ⟨-, -, t', js, -, h5, -⟩ := C77_utf8_output env.ord hord fuel thr args.lint _ _ m (some us) h.utf8 f (program_of_values hm hus (hN fuel hfu))
    exact ⟨_, h5⟩

/-- **C96** A metadata.json without name servers or without zone files ends the process with status 1, before anything but the start of lint.json is
written. -/
theorem C96_bad_metadata (fuel thr : Nat) (env : Env) (args : Args) (m : JVal) (hm : MetadataRead env m)
    (h : NoMember m "TopNameServers" ∨ (∃ v l, HasMember m "TopNameServers" v ∧ StringList v l) ∧ NoMember m "ZoneFiles") :
    (process fuel thr env args).2.status = some 1 ∧
    ∀ g, (g = lintName → args.lint = false) → env.disk.after (process fuel thr env args).1 g = env.disk g := by
  have hx : sanityCheckJ (fun f => (env.disk (env.path f)).isSome) m = .exit := by
    have zero : ∀ {k}, NoMember m k → m.count k ≠ 1 := by
      intro k hk
      unfold JVal.count
      rw [find_none.mpr hk]
      simp
    unfold sanityCheckJ
    by_cases h0 : m.count "TopNameServers" ≠ 1
    · rw [if_pos h0]
    · rw [if_neg h0]
      rcases h with h | ⟨⟨v, l, hv, hl⟩, h⟩
      · exact absurd (zero h) h0
      · rw [member_ok.mpr hv, Res.ok_bind, strings_ok.mpr hl, Res.ok_bind, if_pos (zero h)]
  have hr : ∀ l, readJson env (env.path "metadata.json".toList) l = (l, .ok m) := by
    intro l
    unfold readJson
    rw [show env.json ((env.disk (env.path "metadata.json".toList)).getD []) = some m from hm]
    rfl
  have hw : ∀ l, work fuel thr env args l = (l, .error .failure) := by
    intro l
    unfold work
    rw [bind_eq, hr]
    dsimp only
    rw [bind_eq]
    unfold Process.setContext
    rw [bind_eq, hx]
    rfl
  unfold Process.process
  rw [hw]
  refine ⟨rfl, fun g hg => ?_⟩
  dsimp only
  refine after_other (fun w hw' hgw => ?_) _
  have := lintWrites_file w hw'
  rw [hg (hgw.trans this)] at hw'
  cases hw'

/-- **C96** (disagreement) A metadata.json that is not there or cannot be read: the process ends with status 0, as after a
run that found nothing wrong, and the output file of an earlier run is still there. -/
theorem C96_disagreement_status (fuel thr : Nat) (env : Env) (args : Args) (h : env.json (textOf env (env.path "metadata.json".toList)) = none) :
    (process fuel thr env args).2.status = some 0 ∧ (¬ ∃ f, Wrote fuel thr env args f) ∧
    ∀ g, (g = lintName → args.lint = false) → env.disk.after (process fuel thr env args).1 g = env.disk g := by
  have hr : ∀ l, readJson env (env.path "metadata.json".toList) l = (l, .error .caught) := by
    intro l
    unfold readJson
    rw [show env.json ((env.disk (env.path "metadata.json".toList)).getD []) = none from h]
    rfl
  have hw : ∀ l, work fuel thr env args l = (l, .error .caught) := by
    intro l
    unfold work
    rw [bind_eq, hr]
  have hp : process fuel thr env args = (lintWrites args.lint (if args.lint then ["[\n".toList] else []), .caught) := by
    unfold Process.process
    rw [hw]
    rfl
  rw [hp]
  refine ⟨rfl, ?_, fun g hg => ?_⟩
  · rintro ⟨f, m, us, hm, -⟩
    rw [show env.json (textOf env (env.path "metadata.json".toList)) = some m from hm] at h
    cases h
  · refine after_other (fun w hw' hgw => ?_) _
    have := lintWrites_file w hw'
    rw [hg (hgw.trans this)] at hw'
    cases hw'

theorem after_same {args : Args} (hs : outputName args = lintName) (hl : args.lint = true) (d : Disk) (l : List Str) (s : Str) :
    d.after (lintWrites args.lint l ++ outWrites args s ++ closing args) lintName = some (s ++ "\n]".toList) := by
  have hc : closing args = [.append lintName "\n]".toList] := by unfold closing; rw [hl]; rfl
  rw [after_append, after_append, hc]
  have e : ∀ d : Disk, d.after [.append lintName "\n]".toList] lintName = some ((d lintName).getD [] ++ "\n]".toList) := fun d => by
    show (if lintName = lintName then some ((d lintName).getD [] ++ "\n]".toList) else d lintName) = _
    exact if_pos rfl
  have e2 := after_out (d.after (lintWrites args.lint l)) args s
  rw [hs] at e2
  rw [e, e2]
  rfl

/-- **C96** (disagreement) With linting on and the output sent to lint.json, both are written to the one file: what is left is the report with a second
closing bracket, which is not JSON, and the process returns as if all were well. -/
theorem C96_disagreement_same_file (fuel thr : Nat) (env : Env) (args : Args) (hs : outputName args = lintName) (hl : args.lint = true) (f : Files)
    (h : Wrote fuel thr env args f) (hf : f.finished = true) :
    (process fuel thr env args).2.status = some 0 ∧ env.disk.after (process fuel thr env args).1 lintName = some (f.output ++ "\n]".toList) ∧
    ¬ IsJson (f.output ++ "\n]".toList) := by
  rcases process_cases fuel thr env args with ⟨f', l, js, hw, hp, -, -, vs, e1, e2⟩ | ⟨e, l, js, hno, -⟩
  swap
  · exact absurd ⟨f, h⟩ hno
  have hff := wrote_unique h hw
  subst hff
  rw [hp, hf, if_pos rfl, if_pos rfl]
  refine ⟨rfl, after_same hs hl _ _ _, ?_⟩
  have hall : ∀ j ∈ violationSet env.ord vs, Json.textOk j = true := by
    by_contra hc
    obtain ⟨pre, j', rest, a, b, c⟩ := first_bad _ hc
    rw [hf] at e2
    unfold writeViolations at e2
    rw [a, writeLoop_stops pre rest b j' c] at e2
    cases e2
  rw [e1, writeViolations_done hall]
  rintro ⟨j, hj⟩
  obtain ⟨s, hs', hr⟩ := Json.listFile_read (violationSet env.ord vs)
  have hskip : ∀ u, JsonText.skip ('[' :: u) = '[' :: u := fun u => Json.skip_not (by decide) u
  unfold JsonText.parse at hj
  dsimp only at hj
  rw [show "[\n".toList ++ ",\n".toList.intercalate (List.map (Json.dump 0) (violationSet env.ord vs)) ++ "\n]".toList =
    listFile ((violationSet env.ord vs).map (Json.dump 0)) from rfl, show JsonText.skip (listFile ((violationSet env.ord vs).map (Json.dump 0)) ++ "\n]".toList) =
    listFile ((violationSet env.ord vs).map (Json.dump 0)) ++ "\n]".toList by rw [hs', List.cons_append, hskip],
    Json.readValue_append _ _ _ _ "\n]".toList _ (by simp) hr (.inr (by simp))] at hj
  cases hj

/-! ### Runs -/

/-- A directory with metadata, a job file, two zone files and the output of an earlier run. -/
def sampleEnv : Env where
  disk f :=
    if f = "d/metadata.json".toList then some "M".toList else if f = "jobs.json".toList then some "J".toList
    else if f = "d/f1".toList then some (twoContents "f1".toList) else if f = "d/f2".toList then some (twoContents "f2".toList)
    else if f = "output.json".toList then some "[]".toList else none
  path f := "d/".toList ++ f
  json s := if s = "M".toList then some twoFilesJ else if s = "J".toList then some (.arr [oneJobJ]) else none
  ord l := l

/-- With linting. -/
def sampleArgs : Args := { jobs := some "jobs.json".toList, lint := true }

theorem sample_wrote : ∃ f, Wrote 300 500 sampleEnv sampleArgs f ∧ f.finished = true ∧ f.output ≠ [] ∧ f.lint ≠ none := by
  obtain ⟨f, h, hp⟩ := files_of_check (r := programJ sampleEnv.ord 300 500 true (fun n => textOf sampleEnv (sampleEnv.path n))
    (fun n => (sampleEnv.disk (sampleEnv.path n)).isSome) twoFilesJ (some (.arr [oneJobJ]))) (P := fun f => f.finished = true ∧ f.output ≠ [] ∧ f.lint ≠ none)
    (by decide +kernel)
  exact ⟨f, ⟨_, _, by rfl, .file _ _ rfl (by decide) (by rfl), h⟩, hp⟩

/-- A run that gets to its report, with the output apart from lint.json. -/
example : outputName sampleArgs ≠ lintName ∧ (∃ f, Wrote 300 500 sampleEnv sampleArgs f) ∧ sampleArgs.lint = true ∧
    (process 300 500 sampleEnv sampleArgs).2.status = some 0 := by
  obtain ⟨f, h, hf, -⟩ := sample_wrote
  refine ⟨by decide, ⟨f, h⟩, rfl, ?_⟩
  rw [(C96_returned 300 500 sampleEnv sampleArgs).mpr ⟨f, h, hf⟩]
  rfl

/-- A disk seen in the middle of the report: the output file is there and cannot be read. -/
example : ∃ d p, Seen sampleEnv.disk (process 300 500 sampleEnv sampleArgs).1 d ∧ d "output.json".toList = some p ∧ ¬ IsJson p := by
  rcases process_cases 300 500 sampleEnv sampleArgs with ⟨f, l, js, hw, hp, -⟩ | ⟨e, l, js, hno, -⟩
  swap
  · obtain ⟨f, h, -⟩ := sample_wrote
    exact absurd ⟨f, h⟩ hno
  refine ⟨_, [], .between ((lintWrites sampleArgs.lint l).length + 1), ?_, fun ⟨j, hj⟩ => by cases hj⟩
  rw [hp]
  dsimp only
  rw [List.append_assoc, List.take_length_add_append, after_append]
  generalize sampleEnv.disk.after (lintWrites sampleArgs.lint l) = d
  show (if outputName sampleArgs = outputName sampleArgs then some [] else d (outputName sampleArgs)) = some []
  exact if_pos rfl

/-- The same run with the output sent to lint.json. -/
example : ∃ f, Wrote 300 500 sampleEnv { sampleArgs with output := some lintName } f ∧ f.finished = true ∧
    outputName { sampleArgs with output := some lintName } = lintName := by
  obtain ⟨f, ⟨m, us, h1, h2, h3⟩, hf, -⟩ := sample_wrote
  refine ⟨f, ⟨m, us, h1, ?_, h3⟩, hf, rfl⟩
  cases h2 with
  | default h => exact .default h
  | file f v a b c => exact .file f v a b c

/-- A directory without metadata.json, and one whose metadata.json has no name servers; the output of the earlier run stays. -/
example : let env := { sampleEnv with path := fun f => "e/".toList ++ f }
    env.json (textOf env (env.path "metadata.json".toList)) = none ∧ env.disk "output.json".toList = some "[]".toList := by
  exact ⟨by rfl, by rfl⟩

example : let env := { sampleEnv with json := fun _ => some (.obj []) }
    ∃ m, MetadataRead env m ∧ NoMember m "TopNameServers" :=
  ⟨.obj [], rfl, fun m hm => by injection hm with hm; rw [← hm]; rfl⟩

/-- Two jobs: the first finds a rewriting; the second gives the number of hops as the string "2". -/
def misfitJobs : JVal := .arr [oneJobJ, .obj [("Domain".toList, .str "b.com".toList), ("SubDomain".toList, .bool true),
  ("Properties".toList, .arr [.obj [("PropertyName".toList, .str "Hops".toList), ("Value".toList, .str "2".toList)]])]]

/-- **C96** (disagreement) A job whose number is not a number should be refused, or at least not lose what was found before it.  The value is only
looked at when the check is called, in another thread: the process is aborted, with no output file and lint.json left open, though the jobs before it
found problems; alone they are reported. -/
theorem C96_disagreement_number : let env := { sampleEnv with json := fun s => if s = "J".toList then some misfitJobs else sampleEnv.json s }
    (process 300 500 env sampleArgs).2 = .aborted ∧ (process 300 500 env sampleArgs).2.status = none ∧
    (∀ w ∈ (process 300 500 env sampleArgs).1, w.file = lintName) ∧ (¬ ∃ f, Wrote 300 500 env sampleArgs f) ∧
    ∃ f, Wrote 300 500 sampleEnv sampleArgs f ∧ f.finished = true ∧ '{' ∈ f.output := by
  intro env
  have he : (match (process 300 500 env sampleArgs).2 with | .aborted => true | _ => false) = true := by decide +kernel
  have he : (process 300 500 env sampleArgs).2 = .aborted := by
    revert he
    cases (process 300 500 env sampleArgs).2 <;> simp
  have hw : ∀ w ∈ (process 300 500 env sampleArgs).1, w.file = lintName := by
    have h : (process 300 500 env sampleArgs).1.all (fun w => decide (w.file = lintName)) = true := by decide +kernel
    exact fun w hw => of_decide_eq_true (List.all_eq_true.mp h w hw)
  refine ⟨he, by rw [he]; rfl, hw, ?_, ?_⟩
  · rcases process_cases 300 500 env sampleArgs with ⟨f, l, js, -, hp, -⟩ | ⟨e, l, js, hno, -⟩
    · rw [hp] at he
      dsimp only at he
      split at he <;> cases he
    · exact hno
  · obtain ⟨f, h, hp⟩ := files_of_check (r := programJ sampleEnv.ord 300 500 true (fun n => textOf sampleEnv (sampleEnv.path n))
      (fun n => (sampleEnv.disk (sampleEnv.path n)).isSome) twoFilesJ (some (.arr [oneJobJ]))) (P := fun f => f.finished = true ∧ '{' ∈ f.output)
      (by decide +kernel)
    exact ⟨f, ⟨_, _, by rfl, .file _ _ rfl (by decide) (by rfl), h⟩, hp⟩

/-- A directory with the zone file of C89's sample. -/
def redirectEnv : Env where
  disk f :=
    if f = "d/metadata.json".toList then some "M".toList else if f = "jobs.json".toList then some "J".toList
    else if f = "d/f".toList then some redirectFile else none
  path f := "d/".toList ++ f
  json s := if s = "M".toList then some programMetaJ else if s = "J".toList then some (.arr [redirectJobJ 0]) else none
  ord l := l

theorem redirectEnv_good : GoodInput (fun n => textOf redirectEnv (redirectEnv.path n)) (fun n => (redirectEnv.disk (redirectEnv.path n)).isSome)
    programMeta [redirectUJob 0] ["NS.x.".toList] redirectListing [redirectEntries] where
  loadable := ⟨⟨rfl, rfl, by decide +kernel, "NS.x.".toList, by simp, _, List.mem_singleton.mpr rfl, rfl⟩, .cons redirectFile_good .nil, by simp⟩
  zones := redirect_sane.zones
  redirects := redirect_sane.redirects
  jobs := redirect_sane.jobs
  utf8 := by
    intro s hs
    have h : (inputStrings (fun n => textOf redirectEnv (redirectEnv.path n)) programMeta (some [redirectUJob 0])).all Json.utf8Ok = true := by decide +kernel
    exact (Json.utf8Ok_iff s).mp (List.all_eq_true.mp h s (ofInput_mem hs))

/-- The process ends well on it, with or without linting. -/
example : ∀ lint, ∃ N f, ∀ fuel, N ≤ fuel → let args : Args := { jobs := some "jobs.json".toList, lint := lint }
    Wrote fuel 500 redirectEnv args f ∧ (process fuel 500 redirectEnv args).2.status = some 0 ∧
      redirectEnv.disk.after (process fuel 500 redirectEnv args).1 (outputName args) = some f.output ∧ IsJson f.output :=
  fun lint => C96_good (args := { jobs := some "jobs.json".toList, lint := lint }) (fun _ => .refl _) (by show "output.json".toList ≠ _; decide) (by rfl)
    (.file _ _ rfl (by decide) (by rfl)) programMetaJ_of (redirectJobJ_of 0 (by decide)) redirectEnv_good

end Groot
