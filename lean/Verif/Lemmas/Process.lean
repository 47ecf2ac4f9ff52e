import Verif.Model.Process
import Verif.Lemmas.Lint
import Verif.Lemmas.JsonPrefix
import Verif.Props.Driver
import Verif.Spec.Process

/-!
# What the process leaves in lint.json
-/

namespace Groot.Parser

theorem addIssue_issues (st : PState) (a b c : Str) : st.issues <+: (addIssue st a b c).issues := by
  unfold addIssue
  split_ifs
  · exact List.prefix_append _ _
  · exact List.prefix_refl _

theorem lengthIssue_issues {st st' : PState} {rr : RR} {a b c : Str} (h : lengthIssue st rr a b c = .ok st') : st.issues <+: st'.issues := by
  unfold lengthIssue at h
  obtain ⟨s, -, h⟩ := bind_ok_iff.mp h
  injection h with h
  rw [← h]
  split_ifs
  · exact addIssue_issues (st.count _) _ _ _
  · exact addIssue_issues (st.count _) _ _ _

theorem rejected_issues {st st' : PState} {rr : RR} {code : AddCode} {node : Option Nat} (h : rejected st rr code node = .ok st') :
    st.issues <+: st'.issues := by
  have other : ∀ m : Str, (match node with
      | none => Res.ub
      | some v => match st.zone.rrsAt v with
        | [] => .ub
        | first :: _ => do
          let p ← first.toStr
          let s ← rr.toStr
          .ok (addIssue (st.count "CNAME/DNAME Errors".toList) s m p)) = .ok st' → st.issues <+: st'.issues := by
    intro m h
    cases node with
    | none => cases h
    | some v =>
      dsimp only at h
      cases hr : st.zone.rrsAt v with
      | nil => rw [hr] at h; cases h
      | cons first l =>
        rw [hr] at h
        obtain ⟨p, -, h⟩ := bind_ok_iff.mp h
        obtain ⟨s, -, h⟩ := bind_ok_iff.mp h
        injection h with h
        rw [← h]
        exact addIssue_issues (st.count _) _ _ _
  unfold rejected at h
  cases code with
  | SUCCESS => injection h with h; rw [h]
  | DUPLICATE =>
    obtain ⟨s, -, h⟩ := bind_ok_iff.mp h
    injection h with h
    rw [← h]
    exact addIssue_issues (st.count _) _ _ _
  | _ => exact other _ h

theorem addRR_issues {thr : Nat} {st st' : PState} {rr : RR} (h : addRR thr st rr = .ok st') : st.issues <+: st'.issues := by
  unfold addRR at h
  dsimp only at h
  split_ifs at h
  · have := lengthIssue_issues h
    exact this
  · have := lengthIssue_issues h
    exact this
  · obtain ⟨inZone, -, h⟩ := bind_ok_iff.mp h
    split_ifs at h
    · split at h
      · injection h with h; rw [← h]
      · have := rejected_issues h
        exact this
    · obtain ⟨s, -, h⟩ := bind_ok_iff.mp h
      injection h with h
      rw [← h]
      exact addIssue_issues (PState.count { st with rrsParsed := st.rrsParsed + 1 } _) _ _ _

theorem complete_issues (st : PState) (type : Str) (f : FState) : (complete st type f).1.issues = st.issues := by
  unfold complete
  dsimp only
  split_ifs <;> rfl

theorem processRecord_issues {thr : Nat} {st st' : PState} (h : processRecord thr st = .ok st') : st.issues <+: st'.issues := by
  unfold processRecord at h
  cases hi : typeIndex st.cur with
  | none => rw [hi] at h; injection h with h; rw [← h]
  | some ti =>
    rw [hi] at h
    dsimp only at h
    split_ifs at h
    · injection h with h; rw [← h]
    · obtain ⟨fg, -, h⟩ := bind_ok_iff.mp h
      split_ifs at h
      · injection h with h; rw [← h]
      · obtain ⟨st2, h2, h⟩ := bind_ok_iff.mp h
        injection h with h
        rw [← h]
        have := addRR_issues h2
        rw [complete_issues] at this
        exact this

theorem endOfRecord_issues {thr : Nat} {st : PState} {r : PState × Bool} (h : endOfRecord thr st = .ok r) : st.issues <+: r.1.issues := by
  unfold endOfRecord at h
  split at h
  · injection h with h; rw [← h]
  · split_ifs at h
    · split at h
      · cases h
      · injection h with h; rw [← h]
    · injection h with h; rw [← h]
    · split at h
      · cases h
      · obtain ⟨v, -, h⟩ := bind_ok_iff.mp h
        injection h with h; rw [← h]
    · obtain ⟨s, hs, h⟩ := bind_ok_iff.mp h
      injection h with h
      rw [← h]
      have := processRecord_issues hs
      exact this
    · injection h with h; rw [← h]
    · obtain ⟨s, hs, h⟩ := bind_ok_iff.mp h
      injection h with h
      rw [← h]
      have := processRecord_issues hs
      exact this

theorem step_issues {thr : Nat} {st : PState} {t : Tok} {r : PState × Bool} (h : step thr st t = .ok r) : st.issues <+: r.1.issues := by
  unfold step at h
  cases hid : t.id <;> rw [hid] at h <;> dsimp only at h
  case EOL =>
    split_ifs at h
    · have := endOfRecord_issues h
      exact this
    · injection h with h; rw [← h]
  case RPAREN => split_ifs at h <;> (injection h with h; rw [← h])
  case WHITESPACE => injection h with h; rw [← h]; dsimp only; split_ifs <;> exact List.prefix_refl _
  all_goals (injection h with h; rw [← h])

end Groot.Parser

namespace Groot.Process

open Driver JVal Spec JsonText

/-- An object of lint.json. -/
def IsIssue (j : Json) : Prop := (∃ file i, j = issueJson file i) ∨ ∃ i, j = glueJson i

theorem issue_lines {j : Json} (h : IsIssue j) : 2 ≤ newlines (Json.dump 0 j) ∧ (Json.dump 0 j).getLast? ≠ some '\n' := by
  rcases h with ⟨file, i, rfl⟩ | ⟨i, rfl⟩
  · exact lintObjects_lines { issues := [(file, [i])] } [] _ (by simp [lintObjects])
  · exact lintObjects_lines {} [i] _ (by simp [lintObjects])

/-- lint.json with some issues and no closing bracket. -/
def lintBody (js : List Json) : Str := "[\n".toList ++ List.intercalate ",\n".toList (js.map (Json.dump 0))

theorem lintBody_fold {js : List Json} (h : ∀ j ∈ js, IsIssue j) : (js.map (Json.dump 0)).foldl Driver.writeIssue "[\n".toList = lintBody js := by
  have := C59_lint_file (js.map (Json.dump 0)) (by
    intro d hd
    obtain ⟨j, hj, rfl⟩ := List.mem_map.mp hd
    exact issue_lines (h j hj))
  unfold lintFile listFile at this
  exact List.append_cancel_right this

theorem lintBody_snoc (js : List Json) (j : Json) : lintBody (js ++ [j]) = lintBody js ++ (if js = [] then [] else ",\n".toList) ++ Json.dump 0 j := by
  unfold lintBody
  cases js with
  | nil => simp [List.intercalate]
  | cons x xs =>
    rw [if_neg (by simp), List.cons_append, Json.intercalate_dump, Json.intercalate_dump]
    have : ∀ (xs : List Json), Json.dumpRest 0 (xs ++ [j]) = Json.dumpRest 0 xs ++ ",\n".toList ++ Json.dump 0 j := by
      intro xs
      induction xs with
      | nil => simp [Json.dumpRest, Json.spaces]
      | cons y ys ih => simp only [List.cons_append, Json.dumpRest, ih, List.append_assoc]
    rw [this]
    simp only [List.append_assoc]

theorem lintBody_lines {js : List Json} (h : ∀ j ∈ js, IsIssue j) : lineCount (lintBody js) > 3 ↔ js ≠ [] := by
  have e1 := lintBody_fold (js := js ++ [issueJson [] ⟨0, [], [], []⟩]) (by
    intro j hj
    rcases List.mem_append.mp hj with hj | hj
    · exact h j hj
    · rw [List.mem_singleton.mp hj]; exact .inl ⟨_, _, rfl⟩)
  rw [lintBody_snoc, List.map_append, List.foldl_append, lintBody_fold h] at e1
  change Driver.writeIssue (lintBody js) _ = _ at e1
  unfold Driver.writeIssue at e1
  by_cases hn : js = []
  · subst hn
    decide +kernel
  · rw [if_neg hn] at e1
    refine ⟨fun _ => hn, fun _ => ?_⟩
    by_contra hc
    rw [if_neg hc] at e1
    have := congrArg List.length e1
    simp only [List.length_append] at this
    have e2 : ",\n".toList.length = 2 := rfl
    omega

/-- These issues have been written. -/
def Written (l : List Str) (js : List Json) : Prop :=
  l.flatten = lintBody js ∧ ∀ j ∈ js, IsIssue j ∧ Json.textOk j = true

/-- These issues have been written, and perhaps a comma for another one. -/
def Left (l : List Str) (js : List Json) : Prop :=
  (l.flatten = lintBody js ∨ (js ≠ [] ∧ l.flatten = lintBody js ++ ",\n".toList)) ∧ ∀ j ∈ js, IsIssue j ∧ Json.textOk j = true

theorem Written.left {l : List Str} {js : List Json} (h : Written l js) : Left l js := ⟨.inl h.1, h.2⟩

/-- How an outcome ends the process, in the main thread. -/
def stop {β : Type} : Res β → Option Ending
  | .ok _ => none
  | .exit => some .failure
  | .throw => some .caught
  | .ub => some .undefined
  | .oof => some .unknown

/-- `x` does what `r` does and writes the issues: `pre` before and `T b` after it. -/
structure Follows {α β : Type} (x : Act α) (r : Res β) (pre : List Json) (T : β → List Json) (f : β → α) : Prop where
  mono : ∀ b, r = .ok b → pre <+: T b
  ok : ∀ l, Written l pre → ∀ l' a, x l = (l', .ok a) → ∃ b, r = .ok b ∧ a = f b ∧ Written l' (T b)
  error : ∀ l, Written l pre → ∀ l' e, x l = (l', .error e) → (∃ js, Left l' js ∧ pre <+: js) ∧
    (∀ b, r = .ok b → e = .caught ∧ ¬ ∀ j ∈ T b, Json.textOk j = true) ∧ (e = .caught ∨ stop r = some e)

theorem bind_eq {α β : Type} (x : Act α) (g : α → Act β) (l : List Str) : (x >>= g) l = match x l with
    | (l, .ok a) => g a l
    | (l, .error e) => (l, .error e) := rfl

theorem pure_eq {α : Type} (a : α) (l : List Str) : (pure a : Act α) l = (l, .ok a) := rfl

theorem Follows.bind {α β γ δ : Type} {x : Act α} {r : Res β} {pre : List Json} {T : β → List Json} {f : β → α} (hx : Follows x r pre T f)
    {g : α → Act γ} {s : β → Res δ} {U : δ → List Json} {h : δ → γ} (hg : ∀ b, r = .ok b → Follows (g (f b)) (s b) (T b) U h) :
    Follows (x >>= g) (r >>= s) pre U h := by
  refine ⟨?_, ?_, ?_⟩
  · intro d hd
    obtain ⟨b, hb, hd⟩ := bind_ok_iff.mp hd
    exact (hx.mono b hb).trans ((hg b hb).mono d hd)
  · intro l hl l' c hc
    rw [bind_eq] at hc
    cases hxl : x l with
    | mk l1 o =>
      rw [hxl] at hc
      cases o with
      | error e => cases hc
      | ok a =>
        obtain ⟨b, hb, rfl, hw⟩ := hx.ok l hl l1 a hxl
        obtain ⟨d, hd, e, hw'⟩ := (hg b hb).ok l1 hw l' c hc
        exact ⟨d, bind_ok_iff.mpr ⟨b, hb, hd⟩, e, hw'⟩
  · intro l hl l' e he
    rw [bind_eq] at he
    cases hxl : x l with
    | mk l1 o =>
      rw [hxl] at he
      cases o with
      | error e' =>
        have he' : l1 = l' ∧ e' = e := by
          injection he with h1 h2
          injection h2 with h2
          exact ⟨h1, h2⟩
        obtain ⟨rfl, rfl⟩ := he'
        obtain ⟨h1, h2, h3⟩ := hx.error l hl l1 e' hxl
        refine ⟨h1, ?_, ?_⟩
        · intro d hd
          obtain ⟨b, hb, hd⟩ := bind_ok_iff.mp hd
          refine ⟨(h2 b hb).1, fun hall => (h2 b hb).2 (fun j hj => hall j (((hg b hb).mono d hd).subset hj))⟩
        · rcases h3 with h3 | h3
          · exact .inl h3
          · cases r with
            | ok b => cases h3
            | _ => exact .inr h3
      | ok a =>
        obtain ⟨b, hb, rfl, hw⟩ := hx.ok l hl l1 a hxl
        obtain ⟨⟨js, hj, hp⟩, h2, h3⟩ := (hg b hb).error l1 hw l' e he
        refine ⟨⟨js, hj, (hx.mono b hb).trans hp⟩, ?_, ?_⟩
        · intro d hd
          obtain ⟨b', hb', hd⟩ := bind_ok_iff.mp hd
          rw [hb] at hb'
          injection hb' with hb'
          subst hb'
          exact h2 d hd
        · rw [hb, Res.ok_bind]; exact h3

theorem Follows.lift {α : Type} (r : Res α) (pre : List Json) : Follows (Act.lift r) r pre (fun _ => pre) id := by
  refine ⟨fun _ _ => List.prefix_refl _, ?_, ?_⟩
  · intro l hl l' a h
    cases r with
    | ok b => injection h with h1 h2; injection h2 with h2; exact ⟨b, rfl, h2.symm, h1 ▸ hl⟩
    | _ => injection h with _ h; cases h
  · intro l hl l' e h
    cases r with
    | ok b => injection h with _ h; cases h
    | _ =>
      injection h with h1 h2
      injection h2 with h2
      exact ⟨⟨pre, h1 ▸ hl.left, List.prefix_refl _⟩, ⟨fun b hb => (nomatch hb), .inr (by rw [← h2]; rfl)⟩⟩

theorem Follows.pure {α β : Type} (b : β) (f : β → α) {pre : List Json} {T : β → List Json} (h : T b = pre) : Follows (pure (f b) : Act α) (.ok b) pre T f := by
  refine ⟨fun b' hb => ?_, ?_, ?_⟩
  · injection hb with hb; rw [← hb, h]
  · intro l hl l' a ha
    rw [pure_eq] at ha
    injection ha with h1 h2
    injection h2 with h2
    exact ⟨b, rfl, h2.symm, by rw [← h1, h]; exact hl⟩
  · intro l hl l' e he
    rw [pure_eq] at he
    injection he with _ h2
    cases h2

theorem writeIssue_follows {j : Json} (hj : IsIssue j) (pre : List Json) : Follows (writeIssue j) (.ok ()) pre (fun _ => pre ++ [j]) id := by
  refine ⟨fun _ _ => List.prefix_append _ _, ?_, ?_⟩
  · intro l hl l' a h
    refine ⟨(), rfl, rfl, ?_⟩
    unfold writeIssue at h
    dsimp only at h
    have hd : Json.textOk j = true := by
      by_contra hc
      have : Json.dump? j = .throw := by unfold Json.dump?; rw [if_neg hc]
      rw [this] at h
      injection h with _ h
      cases h
    have e : Json.dump? j = .ok (Json.dump 0 j) := by unfold Json.dump?; rw [if_pos hd]
    rw [e] at h
    injection h with h _
    refine ⟨?_, ?_⟩
    · rw [← h, lintBody_snoc]
      by_cases hn : pre = []
      · rw [if_neg (by rw [hl.1, lintBody_lines (fun j hj => (hl.2 j hj).1)]; simpa using hn), if_pos hn, List.flatten_append, hl.1]
        simp
      · rw [if_pos (by rw [hl.1, lintBody_lines (fun j hj => (hl.2 j hj).1)]; exact hn), if_neg hn, List.flatten_append, List.flatten_append, hl.1]
        simp
    · intro x hx
      rcases List.mem_append.mp hx with hx | hx
      · exact hl.2 x hx
      · rw [List.mem_singleton.mp hx]; exact ⟨hj, hd⟩
  · intro l hl l' e h
    unfold writeIssue at h
    dsimp only at h
    have hd : ¬ Json.textOk j = true := by
      intro hc
      have : Json.dump? j = .ok (Json.dump 0 j) := by unfold Json.dump?; rw [if_pos hc]
      rw [this] at h
      injection h with _ h
      cases h
    have e' : Json.dump? j = .throw := by unfold Json.dump?; rw [if_neg hd]
    rw [e'] at h
    injection h with h h2
    injection h2 with h2
    refine ⟨⟨pre, ⟨?_, hl.2⟩, List.prefix_refl _⟩, fun b _ => ⟨h2.symm, fun hall => hd (hall j (by simp))⟩, .inl h2.symm⟩
    rw [← h]
    by_cases hn : pre = []
    · left
      rw [if_neg (by rw [hl.1, lintBody_lines (fun j hj => (hl.2 j hj).1)]; simpa using hn), hl.1]
    · right
      rw [if_pos (by rw [hl.1, lintBody_lines (fun j hj => (hl.2 j hj).1)]; exact hn), List.flatten_append, hl.1]
      exact ⟨hn, by simp⟩

theorem writeIssues_follows : ∀ (js : List Json), (∀ j ∈ js, IsIssue j) → ∀ pre : List Json,
    Follows (writeIssues js) (.ok ()) pre (fun _ => pre ++ js) id
  | [], _, pre => Follows.pure () id (by simp)
  | j :: js, h, pre => by
    have h1 := writeIssue_follows (h j (by simp)) pre
    have h2 := writeIssues_follows js (fun x hx => h x (by simp [hx])) (pre ++ [j])
    rw [List.append_assoc] at h2
    exact h1.bind (s := fun _ => .ok ()) (g := fun _ => writeIssues js) (fun _ _ => h2)

theorem Follows.congr {α β : Type} {x : Act α} {r : Res β} {pre : List Json} {T T' : β → List Json} {f f' : β → α} (h : Follows x r pre T f)
    (hT : ∀ b, r = .ok b → T b = T' b ∧ f b = f' b) : Follows x r pre T' f' := by
  refine ⟨fun b hb => (hT b hb).1 ▸ h.mono b hb, ?_, ?_⟩
  · intro l hl l' a ha
    obtain ⟨b, hb, e, hw⟩ := h.ok l hl l' a ha
    exact ⟨b, hb, by rw [e, (hT b hb).2], (hT b hb).1 ▸ hw⟩
  · intro l hl l' e he
    obtain ⟨h1, h2, h3⟩ := h.error l hl l' e he
    exact ⟨h1, fun b hb => (hT b hb).1 ▸ h2 b hb, h3⟩

theorem parse_follows (thr : Nat) (file : Str) (pre : List Json) : ∀ (ts : List Tok) (st : Parser.PState),
    Follows (parse thr file st ts) (Parser.run thr st ts) (pre ++ st.issues.map (issueJson file))
      (fun st => pre ++ st.issues.map (issueJson file)) id
  | [], st => by
    unfold parse Parser.run
    exact Follows.pure st id rfl
  | t :: ts, st => by
    unfold parse Parser.run
    refine (Follows.lift _ _).bind (fun r hr => ?_)
    have hp := Parser.step_issues hr
    have hw := writeIssues_follows ((r.1.issues.drop st.issues.length).map (issueJson file)) (by
      intro j hj
      obtain ⟨i, -, rfl⟩ := List.mem_map.mp hj
      exact .inl ⟨_, _, rfl⟩) (pre ++ st.issues.map (issueJson file))
    have e : pre ++ st.issues.map (issueJson file) ++ (r.1.issues.drop st.issues.length).map (issueJson file) = pre ++ r.1.issues.map (issueJson file) := by
      obtain ⟨n, hn⟩ := hp
      rw [← hn]
      simp
    rw [e] at hw
    have hb := hw.bind (g := fun _ => if r.2 then parse thr file r.1 ts else Pure.pure r.1)
      (s := fun _ => if r.2 then Parser.run thr r.1 ts else .ok r.1) (U := fun st => pre ++ st.issues.map (issueJson file)) (h := id) (fun _ _ => by
        cases r.2 with
        | true => exact parse_follows thr file pre ts r.1
        | false => exact Follows.pure r.1 id rfl)
    exact hb

theorem loadZone_eq (thr : Nat) (lint : Bool) (d : Loaded) (file contents ns origin : Str) : Groot.loadZone thr lint d file contents ns origin =
    Parser.run thr { suffix := origin, lg := d.lg, zone := Zone.init (d.ctx.counter + 1), lint := lint } (Lexer.tokens contents) >>=
      fun st => .ok (enter d file ns st) := rfl

theorem loadZone_follows (thr : Nat) (lint : Bool) (d : Loaded) (file contents ns origin : Str) :
    Follows (loadZone thr lint d file contents ns origin) (Groot.loadZone thr lint d file contents ns origin) (lintObjects d [])
      (fun d => lintObjects d []) id := by
  rw [loadZone_eq]
  unfold loadZone
  have h := parse_follows thr file (lintObjects d []) (Lexer.tokens contents)
    { suffix := origin, lg := d.lg, zone := Zone.init (d.ctx.counter + 1), lint := lint }
  have e : ∀ l : List Json, l ++ ([] : List Parser.Issue).map (issueJson file) = l := fun l => by simp
  rw [e] at h
  refine h.bind (fun st _ => ?_)
  refine Follows.pure (enter d file ns st) id ?_
  unfold enter lintObjects
  simp

theorem loadZones_follows (thr : Nat) (lint : Bool) (read : Str → Str) : ∀ (zs : List JVal) (d : Loaded),
    Follows (loadZones thr lint read d zs) (zs.foldlM (loadZoneJ thr lint read) d) (lintObjects d []) (fun d => lintObjects d []) id
  | [], d => by
    unfold loadZones
    exact Follows.pure d id rfl
  | z :: zs, d => by
    have assoc : (z :: zs).foldlM (loadZoneJ thr lint read) d = (do
        let f ← z.member "FileName"
        let file ← f.getStr
        let n ← z.member "NameServer"
        let ns ← n.getStr
        let origin ← match z.find "Origin" with
          | none => .ok []
          | some o => o.getStr
        let d ← Groot.loadZone thr lint d file (read file) (toLower ns) (toLower origin)
        zs.foldlM (loadZoneJ thr lint read) d) := by
      rw [List.foldlM_cons]
      unfold loadZoneJ
      cases z.member "FileName" with
      | ok f =>
        simp only [Res.ok_bind]
        cases f.getStr with
        | ok file =>
          simp only [Res.ok_bind]
          cases z.member "NameServer" with
          | ok n =>
            simp only [Res.ok_bind]
            cases n.getStr with
            | ok ns =>
              simp only [Res.ok_bind]
              cases z.find "Origin" with
              | none => rfl
              | some o =>
                dsimp only
                cases o.getStr with
                | ok origin => rfl
                | _ => rfl
            | _ => rfl
          | _ => rfl
        | _ => rfl
      | _ => rfl
    rw [assoc]
    unfold loadZones
    refine (Follows.lift _ _).bind (fun f _ => ?_)
    refine (Follows.lift _ _).bind (fun file _ => ?_)
    refine (Follows.lift _ _).bind (fun n _ => ?_)
    refine (Follows.lift _ _).bind (fun ns _ => ?_)
    dsimp only [id]
    cases z.find "Origin" with
    | none =>
      refine (Follows.pure ([] : Str) id rfl (T := fun _ => lintObjects d [])).bind (fun origin _ => ?_)
      refine (loadZone_follows thr lint d file (read file) (toLower ns) (toLower origin)).bind (fun d' _ => ?_)
      exact loadZones_follows thr lint read zs d'
    | some o =>
      refine (Follows.lift _ _).bind (fun origin _ => ?_)
      refine (loadZone_follows thr lint d file (read file) (toLower ns) (toLower origin)).bind (fun d' _ => ?_)
      exact loadZones_follows thr lint read zs d'

theorem lintObjects_snoc (d : Loaded) (a b : List Zone.GlueIssue) : lintObjects d (a ++ b) = lintObjects d a ++ b.map glueJson := by
  unfold lintObjects
  simp

/-- The body of the loop of `Driver.glueCheck`. -/
def glueStep (thr : Nat) (zoneNs : List (Nat × Str)) (acc : List Zone.GlueIssue) (p : Nat × Zone) : Res (List Zone.GlueIssue) :=
  match zoneNs.lookup p.1 with
  | none => .throw
  | some ns => do
    let r ← p.2.glueIssues thr ns
    .ok (acc ++ r)

theorem glueCheck_follows (thr : Nat) (d : Loaded) (zoneNs : List (Nat × Str)) : ∀ (zs : List (Nat × Zone)) (acc : List Zone.GlueIssue),
    Follows (glueCheck thr zoneNs zs) (zs.foldlM (glueStep thr zoneNs) acc) (lintObjects d acc) (lintObjects d) (fun _ => ())
  | [], acc => by
    unfold glueCheck
    exact Follows.pure acc (fun _ => ()) rfl
  | (id', z) :: zs, acc => by
    have assoc : ((id', z) :: zs).foldlM (glueStep thr zoneNs) acc = (do
        let ns ← (match zoneNs.lookup id' with | some ns => Res.ok ns | none => Res.throw)
        let issues ← z.glueIssues thr ns
        Res.ok () >>= fun _ => zs.foldlM (glueStep thr zoneNs) (acc ++ issues)) := by
      rw [List.foldlM_cons]
      unfold glueStep
      dsimp only
      cases zoneNs.lookup id' with
      | none => rfl
      | some ns =>
        simp only [Res.ok_bind]
        cases z.glueIssues thr ns with
        | ok r => rfl
        | _ => rfl
    rw [assoc]
    unfold glueCheck
    refine (Follows.lift _ _).bind (fun ns _ => ?_)
    refine (Follows.lift _ _).bind (fun issues _ => ?_)
    have hw := writeIssues_follows (issues.map glueJson) (by
      intro j hj
      obtain ⟨i, -, rfl⟩ := List.mem_map.mp hj
      exact .inr ⟨_, rfl⟩) (lintObjects d acc)
    rw [← lintObjects_snoc] at hw
    exact hw.bind (s := fun _ => zs.foldlM (glueStep thr zoneNs) (acc ++ issues)) (g := fun _ => glueCheck thr zoneNs zs)
      (fun _ _ => glueCheck_follows thr d zoneNs zs (acc ++ issues))

/-- `SetContext` and the check for glue records. -/
def loaded (thr : Nat) (lint : Bool) (read : Str → Str) (exists_ : Str → Bool) (m : JVal) : Res (Loaded × List Zone.GlueIssue) := do
  let d ← setContextJ thr lint read exists_ m
  let g ← if lint then Driver.glueCheck thr d else .ok []
  .ok (d, g)

theorem setContext_follows (thr : Nat) (lint : Bool) (read : Str → Str) (exists_ : Str → Bool) (m : JVal) :
    Follows (setContext thr lint read exists_ m) (loaded thr lint read exists_ m) [] (fun p => lintObjects p.1 p.2) (·.1) := by
  have assoc : loaded thr lint read exists_ m = (do
      sanityCheckJ exists_ m
      let t ← m.member "TopNameServers"
      let tops ← t.strings
      let z ← m.member "ZoneFiles"
      let d ← z.items.foldlM (loadZoneJ thr lint read) { ctx := { top := tops.map toLower } }
      let g ← if lint then Driver.glueCheck thr d else .ok []
      .ok (d, g)) := by
    unfold loaded setContextJ
    cases sanityCheckJ exists_ m with
    | ok u =>
      simp only [Res.ok_bind]
      cases m.member "TopNameServers" with
      | ok t =>
        simp only [Res.ok_bind]
        cases t.strings with
        | ok tops =>
          simp only [Res.ok_bind]
          cases m.member "ZoneFiles" with
          | ok z => rfl
          | _ => rfl
        | _ => rfl
      | _ => rfl
    | _ => rfl
  rw [assoc]
  unfold setContext
  refine (Follows.lift _ _).bind (fun _ _ => ?_)
  refine (Follows.lift _ _).bind (fun t _ => ?_)
  refine (Follows.lift _ _).bind (fun tops _ => ?_)
  refine (Follows.lift _ _).bind (fun z _ => ?_)
  refine (loadZones_follows thr lint read z.items { ctx := { top := tops.map toLower } }).bind (fun d _ => ?_)
  have hg : Follows (if lint then glueCheck thr d.ctx.zoneNs d.ctx.zones else Pure.pure ()) (if lint then Driver.glueCheck thr d else .ok [])
      (lintObjects d []) (lintObjects d) (fun _ => ()) := by
    cases lint with
    | true => exact glueCheck_follows thr d d.ctx.zoneNs d.ctx.zones []
    | false => exact Follows.pure [] (fun _ => ()) rfl
  have hp : ∀ g, Follows (Pure.pure d : Act Loaded) (.ok (d, g)) (lintObjects d g) (fun p : Loaded × List Zone.GlueIssue => lintObjects p.1 p.2) (·.1) :=
    fun g => Follows.pure (d, g) (·.1) rfl
  have hb := hg.bind (g := fun _ => Pure.pure d) (s := fun g => .ok (d, g)) (fun g _ => hp g)
  cases lint with
  | true => exact hb
  | false => exact hb

end Groot.Process

namespace Groot.Process

open Driver JVal Spec

/-- Nothing is written, and what was written before makes no difference. -/
def Still {α : Type} (x : Act α) : Prop := ∀ l, x l = (l, (x []).2)

theorem Still.lift {α : Type} (r : Res α) : Still (Act.lift r) := fun l => by cases r <;> rfl

theorem Still.thread {α : Type} (r : Res α) : Still (Act.thread r) := fun l => by cases r <;> rfl

theorem Still.pure {α : Type} (a : α) : Still (Pure.pure a : Act α) := fun _ => rfl

theorem Still.bind {α β : Type} {x : Act α} {g : α → Act β} (hx : Still x) (hg : ∀ a, (x []).2 = .ok a → Still (g a)) : Still (x >>= g) := by
  intro l
  rw [bind_eq, bind_eq, hx l]
  cases h : x [] with
  | mk l' o =>
    have h0 : l' = [] := by
      have := hx []
      rw [h] at this
      injection this
    subst h0
    cases o with
    | ok a => exact hg a (by rw [h]) l
    | error e => rfl

theorem parse_still (thr : Nat) (file : Str) : ∀ (ts : List Tok) (st : Parser.PState), st = st.quiet → Still (parse thr file st ts)
  | [], st, _ => by unfold parse; exact Still.pure st
  | t :: ts, st, h => by
    unfold parse
    refine (Still.lift _).bind (fun r hr => ?_)
    have hs : Parser.step thr st t = .ok r := by
      cases hq : Parser.step thr st t with
      | ok r' => rw [hq] at hr; injection hr with hr; rw [hr]
      | _ => rw [hq] at hr; cases hr
    have hq : r.1 = r.1.quiet := by
      rw [h, Parser.step_quiet] at hs
      unfold Parser.hush2 at hs
      obtain ⟨s, -, e⟩ := bind_ok_iff.mp hs
      injection e with e
      rw [← e]
      rfl
    have he : (r.1.issues.drop st.issues.length).map (issueJson file) = [] := by
      rw [hq]
      show (([] : List Parser.Issue).drop _).map _ = []
      simp
    rw [he]
    refine Still.bind (x := writeIssues []) (Still.pure ()) (fun _ _ => ?_)
    cases r.2 with
    | true => exact parse_still thr file ts r.1 hq
    | false => exact Still.pure _

theorem setContext_still (thr : Nat) (read : Str → Str) (exists_ : Str → Bool) (m : JVal) : Still (setContext thr false read exists_ m) := by
  have zone : ∀ d file contents ns origin, Still (loadZone thr false d file contents ns origin) := fun d file contents ns origin => by
    unfold loadZone
    exact (parse_still thr file _ _ rfl).bind (fun _ _ => Still.pure _)
  have zones : ∀ (zs : List JVal) (d : Loaded), Still (loadZones thr false read d zs) := by
    intro zs
    induction zs with
    | nil => intro d; unfold loadZones; exact Still.pure d
    | cons z zs ih =>
      intro d
      unfold loadZones
      refine (Still.lift _).bind (fun f _ => ?_)
      refine (Still.lift _).bind (fun file _ => ?_)
      refine (Still.lift _).bind (fun n _ => ?_)
      refine (Still.lift _).bind (fun ns _ => ?_)
      dsimp only
      cases z.find "Origin" with
      | none => exact (Still.pure _).bind (fun origin _ => (zone _ _ _ _ _).bind (fun d _ => ih d))
      | some o => exact (Still.lift _).bind (fun origin _ => (zone _ _ _ _ _).bind (fun d _ => ih d))
  unfold setContext
  refine (Still.lift _).bind (fun _ _ => ?_)
  refine (Still.lift _).bind (fun t _ => ?_)
  refine (Still.lift _).bind (fun tops _ => ?_)
  refine (Still.lift _).bind (fun z _ => ?_)
  refine (zones _ _).bind (fun d _ => ?_)
  exact Still.bind (x := Pure.pure ()) (Still.pure ()) (fun _ _ => Still.pure d)

theorem jobLoop_still (fuel thr : Nat) (ctx : Context) : ∀ (us : List JVal) (lg : LGraph) (job : Job) (t : Totals), Still (jobLoop fuel thr ctx lg job t us)
  | [], _, _, t => by unfold jobLoop; exact Still.pure t
  | u :: us, lg, job, t => by
    unfold jobLoop
    exact (Still.lift _).bind (fun job _ => (Still.thread _).bind (fun r _ => jobLoop_still fuel thr ctx us r.1 job r.2))

/-- The part of `work` after loading. -/
def jobs (fuel thr : Nat) (env : Env) (args : Args) (d : Loaded) : Act Totals :=
  if (args.jobs.getD []).length ≠ 0 then do
    let us ← readJson env (args.jobs.getD [])
    jobLoop fuel thr d.ctx d.lg {} {} us.items
  else do
    let r ← Act.thread (runJob fuel thr d.ctx d.lg {} (setDefaultJob {} ".".toList))
    pure r.2

theorem jobs_still (fuel thr : Nat) (env : Env) (args : Args) (d : Loaded) : Still (jobs fuel thr env args d) := by
  unfold jobs
  split_ifs
  · exact (Still.lift _).bind (fun us _ => jobLoop_still _ _ _ _ _ _ _)
  · exact (Still.thread _).bind (fun _ _ => Still.pure _)

theorem work_eq (fuel thr : Nat) (env : Env) (args : Args) : work fuel thr env args = (do
    let m ← readJson env (env.path "metadata.json".toList)
    let d ← setContext thr args.lint (fun f => (env.disk (env.path f)).getD []) (fun f => (env.disk (env.path f)).isSome) m
    jobs fuel thr env args d) := rfl

theorem lift_ok {α : Type} {r : Res α} {a : α} : ((Act.lift r) []).2 = .ok a ↔ r = .ok a := by
  cases r with
  | ok b => exact ⟨fun h => by injection h with h; rw [h], fun h => by injection h with h; rw [h]; rfl⟩
  | _ => exact ⟨fun h => (nomatch h), fun h => (nomatch h)⟩

theorem thread_ok {α : Type} {r : Res α} {a : α} : ((Act.thread r) []).2 = .ok a ↔ r = .ok a := by
  cases r with
  | ok b => exact ⟨fun h => by injection h with h; rw [h], fun h => by injection h with h; rw [h]; rfl⟩
  | _ => exact ⟨fun h => (nomatch h), fun h => (nomatch h)⟩

theorem still_bind_ok {α β : Type} {x : Act α} (hx : Still x) {g : α → Act β} {b : β} : ((x >>= g) []).2 = .ok b ↔ ∃ a, (x []).2 = .ok a ∧ (g a []).2 = .ok b := by
  rw [bind_eq, hx []]
  cases h : x [] with
  | mk l o =>
    cases o with
    | ok a =>
      refine ⟨fun hh => ⟨a, rfl, hh⟩, ?_⟩
      rintro ⟨a', h1, h2⟩
      injection h1 with h1
      rw [← h1] at h2
      exact h2
    | error e => exact ⟨fun hh => (nomatch hh), fun ⟨_, h1, _⟩ => (nomatch h1)⟩

theorem jobLoop_ok (fuel thr : Nat) (ctx : Context) : ∀ (us : List JVal) (lg : LGraph) (job : Job) (t0 t : Totals),
    (jobLoop fuel thr ctx lg job t0 us []).2 = .ok t ↔ jobLoopJ fuel thr ctx lg job t0 us = .ok t
  | [], _, _, t0, t => by
    unfold jobLoop jobLoopJ
    exact ⟨fun h => by injection h with h; rw [h], fun h => by injection h with h; rw [h]; rfl⟩
  | u :: us, lg, job, t0, t => by
    unfold jobLoop jobLoopJ
    rw [still_bind_ok (Still.lift _), bind_ok_iff]
    constructor
    · rintro ⟨j, h1, h2⟩
      obtain ⟨r, h2, h3⟩ := (still_bind_ok (Still.thread _)).mp h2
      exact ⟨j, lift_ok.mp h1, bind_ok_iff.mpr ⟨r, thread_ok.mp h2, (jobLoop_ok fuel thr ctx us _ _ _ _).mp h3⟩⟩
    · rintro ⟨j, h1, h2⟩
      obtain ⟨r, h2, h3⟩ := bind_ok_iff.mp h2
      exact ⟨j, lift_ok.mpr h1, (still_bind_ok (Still.thread _)).mpr ⟨r, thread_ok.mpr h2, (jobLoop_ok fuel thr ctx us _ _ _ _).mpr h3⟩⟩

/-- The jobs, from the value of the job file. -/
def jobsJ (fuel thr : Nat) (d : Loaded) : Option JVal → Res Totals
  | some us => jobLoopJ fuel thr d.ctx d.lg {} {} us.items
  | none => runJob fuel thr d.ctx d.lg {} (setDefaultJob {} ".".toList) >>= fun r => .ok r.2

theorem readJson_still (env : Env) (name : Str) : Still (readJson env name) := Still.lift _

theorem readJson_ok {env : Env} {name : Str} {v : JVal} : (readJson env name []).2 = .ok v ↔ env.json (textOf env name) = some v := by
  unfold readJson textOf
  rw [lift_ok]
  cases env.json ((env.disk name).getD []) with
  | none => exact ⟨fun h => (nomatch h), fun h => (nomatch h)⟩
  | some w => exact ⟨fun h => by injection h with h; rw [h], fun h => by injection h with h; rw [h]⟩

theorem jobs_ok {fuel thr : Nat} {env : Env} {args : Args} {d : Loaded} {t : Totals} :
    (jobs fuel thr env args d []).2 = .ok t ↔ ∃ us, JobsRead env args us ∧ jobsJ fuel thr d us = .ok t := by
  unfold jobs
  by_cases h : (args.jobs.getD []).length ≠ 0
  · rw [if_pos h, still_bind_ok (x := readJson env (args.jobs.getD [])) (Still.lift _)]
    have hf : ∃ f, args.jobs = some f ∧ f ≠ [] ∧ args.jobs.getD [] = f := by
      cases hj : args.jobs with
      | none => rw [hj] at h; exact absurd rfl h
      | some f => rw [hj] at h; exact ⟨f, rfl, by rintro rfl; exact h rfl, rfl⟩
    obtain ⟨f, h1, h2, h3⟩ := hf
    rw [h3]
    constructor
    · rintro ⟨v, hv, ht⟩
      exact ⟨some v, .file f v h1 h2 (readJson_ok.mp hv), (jobLoop_ok _ _ _ _ _ _ _ _).mp ht⟩
    · rintro ⟨us, hu, ht⟩
      cases hu with
      | default hd =>
        rcases hd with hd | hd
        · rw [h1] at hd; cases hd
        · rw [h1] at hd; injection hd with hd; exact absurd hd h2
      | file f' v e1 e2 e3 =>
        rw [h1] at e1
        injection e1 with e1
        subst e1
        exact ⟨v, readJson_ok.mpr e3, (jobLoop_ok _ _ _ _ _ _ _ _).mpr ht⟩
  · rw [if_neg h, still_bind_ok (Still.thread _)]
    have hf : args.jobs = none ∨ args.jobs = some [] := by
      cases hj : args.jobs with
      | none => exact .inl rfl
      | some f =>
        rw [hj] at h
        right
        have : f.length = 0 := by simpa using h
        rw [List.length_eq_zero_iff.mp this]
    constructor
    · rintro ⟨r, hr, ht⟩
      refine ⟨none, .default hf, bind_ok_iff.mpr ⟨r, thread_ok.mp hr, ?_⟩⟩
      injection ht with ht
      rw [ht]
    · rintro ⟨us, hu, ht⟩
      cases hu with
      | default _ =>
        obtain ⟨r, hr, ht⟩ := bind_ok_iff.mp ht
        injection ht with ht
        exact ⟨r, thread_ok.mpr hr, by rw [← ht]; rfl⟩
      | file f' v e1 e2 e3 =>
        rcases hf with hf | hf
        · rw [hf] at e1; cases e1
        · rw [hf] at e1; injection e1 with e1; exact absurd e1.symm e2

theorem mainJ_eq (fuel thr : Nat) (lint : Bool) (read : Str → Str) (exists_ : Str → Bool) (m : JVal) (us : Option JVal) :
    mainJ fuel thr lint read exists_ m us = loaded thr lint read exists_ m >>= fun p => jobsJ fuel thr p.1 us := by
  unfold mainJ loaded
  cases setContextJ thr lint read exists_ m with
  | ok d =>
    simp only [Res.ok_bind]
    cases lint with
    | true =>
      rw [if_pos rfl]
      cases Driver.glueCheck thr d with
      | ok g => cases us <;> rfl
      | _ => rfl
    | false => cases us <;> rfl
  | _ => rfl

/-- What is known when `work` comes to its end. -/
theorem work_ok {fuel thr : Nat} {env : Env} {args : Args} {l l' : List Str} {t : Totals} (hl : Written l [])
    (h : work fuel thr env args l = (l', .ok t)) : ∃ m us p, MetadataRead env m ∧ JobsRead env args us ∧
      loaded thr args.lint (fun f => textOf env (env.path f)) (fun f => (env.disk (env.path f)).isSome) m = .ok p ∧
      jobsJ fuel thr p.1 us = .ok t ∧ Written l' (lintObjects p.1 p.2) := by
  rw [work_eq, bind_eq, readJson_still env _ l] at h
  cases hm : (readJson env (env.path "metadata.json".toList) []).2 with
  | error e => rw [hm] at h; cases h
  | ok m =>
    rw [hm] at h
    dsimp only at h
    rw [bind_eq] at h
    cases hs : setContext thr args.lint (fun f => (env.disk (env.path f)).getD []) (fun f => (env.disk (env.path f)).isSome) m l with
    | mk l1 o =>
      rw [hs] at h
      cases o with
      | error e => cases h
      | ok d =>
        dsimp only at h
        obtain ⟨p, hp, rfl, hw⟩ := (setContext_follows thr args.lint _ _ m).ok l hl l1 d hs
        rw [jobs_still] at h
        injection h with h1 h2
        obtain ⟨us, hu, ht⟩ := jobs_ok.mp h2
        exact ⟨m, us, p, readJson_ok.mp hm, hu, hp, ht, h1 ▸ hw⟩

/-- What is known when it does not. -/
theorem work_error {fuel thr : Nat} {env : Env} {args : Args} {l l' : List Str} {e : Ending} (hl : Written l [])
    (h : work fuel thr env args l = (l', .error e)) : (∃ js, Left l' js) ∧
      ∀ m us p t, MetadataRead env m → JobsRead env args us →
        loaded thr args.lint (fun f => textOf env (env.path f)) (fun f => (env.disk (env.path f)).isSome) m = .ok p →
        jobsJ fuel thr p.1 us = .ok t → ¬ ∀ j ∈ lintObjects p.1 p.2, Json.textOk j = true := by
  rw [work_eq, bind_eq, readJson_still env _ l] at h
  cases hm : (readJson env (env.path "metadata.json".toList) []).2 with
  | error e' =>
    rw [hm] at h
    injection h with h1 h2
    refine ⟨⟨[], h1 ▸ hl.left⟩, ?_⟩
    intro m us p t hmd
    rw [readJson_ok.mpr hmd] at hm
    cases hm
  | ok m =>
    rw [hm] at h
    dsimp only at h
    rw [bind_eq] at h
    have hmu : ∀ m', MetadataRead env m' → m' = m := by
      intro m' h'
      rw [readJson_ok.mpr h'] at hm
      injection hm
    cases hs : setContext thr args.lint (fun f => (env.disk (env.path f)).getD []) (fun f => (env.disk (env.path f)).isSome) m l with
    | mk l1 o =>
      rw [hs] at h
      cases o with
      | error e' =>
        injection h with h1 h2
        obtain ⟨⟨js, hj, -⟩, h3, -⟩ := (setContext_follows thr args.lint _ _ m).error l hl l1 e' hs
        refine ⟨⟨js, h1 ▸ hj⟩, ?_⟩
        intro m' us p t hmd hu hp ht
        rw [hmu m' hmd] at hp
        exact (h3 p hp).2
      | ok d =>
        dsimp only at h
        obtain ⟨p, hp, rfl, hw⟩ := (setContext_follows thr args.lint _ _ m).ok l hl l1 d hs
        rw [jobs_still] at h
        injection h with h1 h2
        refine ⟨⟨_, h1 ▸ hw.left⟩, ?_⟩
        intro m' us p' t hmd hu hp' ht
        rw [hmu m' hmd] at hp'
        have hpp := hp.symm.trans hp'
        injection hpp with hpp
        subst hpp
        rw [jobs_ok.mpr ⟨us, hu, ht⟩] at h2
        cases h2

theorem work_still {fuel thr : Nat} {env : Env} {args : Args} (hl : args.lint = false) : Still (work fuel thr env args) := by
  rw [work_eq, hl]
  exact (Still.lift _ : Still (readJson env _)).bind (fun m _ => (setContext_still _ _ _ m).bind (fun d _ => jobs_still _ _ _ _ d))

theorem loaded_quiet {thr : Nat} {read : Str → Str} {exists_ : Str → Bool} {m : JVal} {p : Loaded × List Zone.GlueIssue}
    (h : loaded thr false read exists_ m = .ok p) : p.2 = [] := by
  unfold loaded at h
  obtain ⟨d, -, h⟩ := bind_ok_iff.mp h
  rw [if_neg (by simp), Res.ok_bind] at h
  injection h with h
  rw [← h]

/-- What is known about `programJ`. -/
theorem programJ_ok {ord : List Str → List Str} {fuel thr : Nat} {lint : Bool} {read : Str → Str} {exists_ : Str → Bool} {m : JVal} {us : Option JVal}
    {f : Files} : programJ ord fuel thr lint read exists_ m us = .ok f ↔ ∃ p t, loaded thr lint read exists_ m = .ok p ∧
      (lint = true → ∀ j ∈ lintObjects p.1 p.2, Json.textOk j = true) ∧ jobsJ fuel thr p.1 us = .ok t ∧
      f = { output := (writeViolations ord t.violations).1, finished := (writeViolations ord t.violations).2,
            lint := if lint then some (if (writeViolations ord t.violations).2 then lintBody (lintObjects p.1 p.2) ++ "\n]".toList
              else lintBody (lintObjects p.1 p.2)) else none } := by
  have isIssue : ∀ d g, ∀ j ∈ lintObjects d g, IsIssue j := by
    intro d g j hj
    rcases List.mem_append.mp hj with hj | hj
    · obtain ⟨f, -, hj⟩ := List.mem_flatMap.mp hj
      obtain ⟨i, -, rfl⟩ := List.mem_map.mp hj
      exact .inl ⟨_, _, rfl⟩
    · obtain ⟨i, -, rfl⟩ := List.mem_map.mp hj
      exact .inr ⟨_, rfl⟩
  have e : programJ ord fuel thr lint read exists_ m us = loaded thr lint read exists_ m >>= fun p =>
      if lint && !(lintObjects p.1 p.2).all Json.textOk then .throw
      else (mainJ fuel thr lint read exists_ m us >>= fun t => .ok
        { output := (writeViolations ord t.violations).1, finished := (writeViolations ord t.violations).2,
          lint := if lint then some (if (writeViolations ord t.violations).2 then lintBody (lintObjects p.1 p.2) ++ "\n]".toList
              else lintBody (lintObjects p.1 p.2)) else none }) := by
    unfold programJ loaded
    cases setContextJ thr lint read exists_ m with
    | ok d =>
      simp only [Res.ok_bind]
      cases lint with
      | true =>
        rw [if_pos rfl]
        cases Driver.glueCheck thr d with
        | ok g => simp only [Res.ok_bind, lintBody_fold (isIssue d g), if_true]
        | _ => rfl
      | false => simp only [Bool.false_eq_true, if_false, Res.ok_bind]
    | _ => rfl
  rw [e, bind_ok_iff]
  constructor
  · rintro ⟨p, hp, h⟩
    by_cases hc : (lint && !(lintObjects p.1 p.2).all Json.textOk) = true
    · rw [if_pos hc] at h; cases h
    · rw [if_neg hc] at h
      obtain ⟨t, ht, h⟩ := bind_ok_iff.mp h
      injection h with h
      rw [mainJ_eq, hp, Res.ok_bind] at ht
      refine ⟨p, t, hp, fun hl => ?_, ht, h.symm⟩
      rw [hl] at hc
      simpa using hc
  · rintro ⟨p, t, hp, hall, ht, rfl⟩
    refine ⟨p, hp, ?_⟩
    have hc : ¬ (lint && !(lintObjects p.1 p.2).all Json.textOk) = true := by
      cases lint with
      | true =>
        have := hall rfl
        simpa using this
      | false => simp
    rw [if_neg hc, mainJ_eq, hp, Res.ok_bind, ht]
    rfl

end Groot.Process

namespace Groot.Process

open Driver JVal Spec

/-- An error is not a return. -/
def NoReturn {α : Type} (x : Act α) : Prop := (x []).2 ≠ .error .returned

theorem NoReturn.lift {α : Type} (r : Res α) : NoReturn (Act.lift r) := by
  intro h
  cases r with
  | ok a => cases h
  | _ => injection h with h; cases h

theorem NoReturn.thread {α : Type} (r : Res α) : NoReturn (Act.thread r) := by
  intro h
  cases r with
  | ok a => cases h
  | _ => injection h with h; cases h

theorem NoReturn.bind {α β : Type} {x : Act α} {g : α → Act β} (hs : Still x) (hx : NoReturn x) (hg : ∀ a, NoReturn (g a)) : NoReturn (x >>= g) := by
  unfold NoReturn at *
  rw [bind_eq, hs []]
  cases h : x [] with
  | mk l o =>
    rw [h] at hx
    cases o with
    | ok a => exact hg a
    | error e => exact fun h' => hx (by injection h' with h'; rw [h'])

theorem jobs_noReturn (fuel thr : Nat) (env : Env) (args : Args) (d : Loaded) : NoReturn (jobs fuel thr env args d) := by
  have loop : ∀ (us : List JVal) (lg : LGraph) (job : Job) (t : Totals), NoReturn (jobLoop fuel thr d.ctx lg job t us) := by
    intro us
    induction us with
    | nil => intro _ _ _ h; cases h
    | cons u us ih =>
      intro lg job t
      unfold jobLoop
      exact .bind (Still.lift _) (.lift _) (fun job => .bind (Still.thread _) (.thread _) (fun r => ih r.1 job r.2))
  unfold jobs
  split_ifs
  · exact .bind (readJson_still env _) (.lift _) (fun us => loop _ _ _ _)
  · exact .bind (Still.thread _) (.thread _) (fun r h => by cases h)

theorem work_noReturn {fuel thr : Nat} {env : Env} {args : Args} {l l' : List Str} {e : Ending} (hl : Written l [])
    (h : work fuel thr env args l = (l', .error e)) : e ≠ .returned := by
  rw [work_eq, bind_eq, readJson_still env _ l] at h
  cases hm : (readJson env (env.path "metadata.json".toList) []).2 with
  | error e' =>
    rw [hm] at h
    injection h with h1 h2
    injection h2 with h2
    rw [← h2]
    rintro rfl
    exact NoReturn.lift _ hm
  | ok m =>
    rw [hm] at h
    dsimp only at h
    rw [bind_eq] at h
    cases hs : setContext thr args.lint (fun f => (env.disk (env.path f)).getD []) (fun f => (env.disk (env.path f)).isSome) m l with
    | mk l1 o =>
      rw [hs] at h
      cases o with
      | error e' =>
        injection h with h1 h2
        injection h2 with h2
        rw [← h2]
        obtain ⟨-, -, h3⟩ := (setContext_follows thr args.lint _ _ m).error l hl l1 e' hs
        rcases h3 with h3 | h3
        · rw [h3]; decide
        · rintro rfl
          revert h3
          cases loaded thr args.lint (fun f => (env.disk (env.path f)).getD []) (fun f => (env.disk (env.path f)).isSome) m <;> exact fun h => (nomatch h)
      | ok d =>
        dsimp only at h
        rw [jobs_still] at h
        injection h with h1 h2
        rintro rfl
        exact jobs_noReturn fuel thr env args d h2

/-! ### The disk -/

/-- The file written. -/
def Write.file : Write → Str
  | .create f => f
  | .append f _ => f

theorem write_other {d : Disk} {w : Write} {g : Str} (h : g ≠ w.file) : d.write w g = d g := by
  cases w <;> exact if_neg h

theorem after_other {ws : List Write} {g : Str} (h : ∀ w ∈ ws, g ≠ w.file) (d : Disk) : d.after ws g = d g := by
  induction ws generalizing d with
  | nil => rfl
  | cons w ws ih =>
    show (d.write w).after ws g = d g
    rw [ih (fun w hw => h w (by simp [hw])), write_other (h w (by simp))]

theorem after_append (d : Disk) (a b : List Write) : d.after (a ++ b) = (d.after a).after b := List.foldl_append

theorem after_pieces (d : Disk) (f : Str) (l : List Str) : d.after (l.map (.append f)) f = if l = [] then d f else some ((d f).getD [] ++ l.flatten) := by
  induction l generalizing d with
  | nil => rfl
  | cons s l ih =>
    show (d.write (.append f s)).after (l.map (.append f)) f = _
    rw [ih]
    have e : d.write (.append f s) f = some ((d f).getD [] ++ s) := if_pos rfl
    rw [e]
    by_cases hl : l = []
    · subst hl
      show some ((d f).getD [] ++ s) = some ((d f).getD [] ++ [s].flatten)
      simp
    · rw [if_neg hl, if_neg (by simp)]
      show some ((d f).getD [] ++ s ++ l.flatten) = some ((d f).getD [] ++ (s :: l).flatten)
      simp

/-- The writes to lint.json. -/
def lintWrites (lint : Bool) (l : List Str) : List Write := if lint then .create lintName :: l.map (.append lintName) else []

theorem lintWrites_file {lint : Bool} {l : List Str} : ∀ w ∈ lintWrites lint l, w.file = lintName := by
  intro w hw
  unfold lintWrites at hw
  cases lint with
  | false => cases hw
  | true =>
    rcases List.mem_cons.mp hw with rfl | hw
    · rfl
    · obtain ⟨s, -, rfl⟩ := List.mem_map.mp hw
      rfl

theorem after_lint (d : Disk) (l : List Str) : d.after (lintWrites true l) lintName = some l.flatten := by
  show (d.write (.create lintName)).after (l.map (.append lintName)) lintName = _
  rw [after_pieces]
  have e : d.write (.create lintName) lintName = some [] := by
    show (if lintName = lintName then some [] else d lintName) = some []
    exact if_pos rfl
  rw [e]
  by_cases hl : l = []
  · subst hl; rfl
  · rw [if_neg hl]; rfl

/-- The writes to the output file. -/
def outWrites (args : Args) (s : Str) : List Write := [.create (outputName args), .append (outputName args) s]

theorem after_out (d : Disk) (args : Args) (s : Str) : d.after (outWrites args s) (outputName args) = some s := by
  show ((d.write (.create (outputName args))).write (.append (outputName args) s)) (outputName args) = some s
  have e : d.write (.create (outputName args)) (outputName args) = some [] := by
    show (if outputName args = outputName args then some [] else d (outputName args)) = some []
    exact if_pos rfl
  have e2 : (d.write (.create (outputName args))).write (.append (outputName args) s) (outputName args) =
      some (((d.write (.create (outputName args))) (outputName args)).getD [] ++ s) := by
    show (if outputName args = outputName args then _ else _) = _
    exact if_pos rfl
  rw [e2, e]
  rfl

/-- The last write to lint.json. -/
def closing (args : Args) : List Write := if args.lint then [.append lintName "\n]".toList] else []

theorem written_start : Written ["[\n".toList] [] := ⟨by decide, fun _ h => nomatch h⟩

theorem quiet_issues {thr : Nat} {read : Str → Str} {exists_ : Str → Bool} {m : JVal} {p : Loaded × List Zone.GlueIssue}
    (h : loaded thr false read exists_ m = .ok p) : lintObjects p.1 p.2 = [] := by
  have hzone : ∀ d d' file contents ns origin, (∀ f ∈ d.issues, f.2 = []) → Groot.loadZone thr false d file contents ns origin = .ok d' →
      ∀ f ∈ d'.issues, f.2 = [] := by
    intro d d' file contents ns origin hd hl
    rw [loadZone_eq] at hl
    obtain ⟨st, hst, hl⟩ := bind_ok_iff.mp hl
    injection hl with hl
    have hq : st.issues = [] := by
      have e : ({ suffix := origin, lg := d.lg, zone := Zone.init (d.ctx.counter + 1), lint := false } : Parser.PState) =
        ({ suffix := origin, lg := d.lg, zone := Zone.init (d.ctx.counter + 1), lint := false } : Parser.PState).quiet := rfl
      rw [e, Parser.run_quiet] at hst
      unfold Parser.hush at hst
      obtain ⟨s, -, hs⟩ := bind_ok_iff.mp hst
      injection hs with hs
      rw [← hs]
      rfl
    rw [← hl]
    intro f hf
    rcases List.mem_append.mp hf with hf | hf
    · exact hd f hf
    · rw [List.mem_singleton.mp hf]; exact hq
  have hzones : ∀ (zs : List JVal) (d d' : Loaded), (∀ f ∈ d.issues, f.2 = []) → zs.foldlM (loadZoneJ thr false read) d = .ok d' →
      ∀ f ∈ d'.issues, f.2 = [] := by
    intro zs
    induction zs with
    | nil => intro d d' hd hl; injection hl with hl; rw [← hl]; exact hd
    | cons z zs ih =>
      intro d d' hd hl
      rw [List.foldlM_cons] at hl
      obtain ⟨d1, h1, hl⟩ := bind_ok_iff.mp hl
      refine ih d1 d' ?_ hl
      unfold loadZoneJ at h1
      obtain ⟨f, -, h1⟩ := bind_ok_iff.mp h1
      obtain ⟨file, -, h1⟩ := bind_ok_iff.mp h1
      obtain ⟨n, -, h1⟩ := bind_ok_iff.mp h1
      obtain ⟨ns, -, h1⟩ := bind_ok_iff.mp h1
      cases ho : z.find "Origin" with
      | none => rw [ho] at h1; exact hzone _ _ _ _ _ _ hd h1
      | some o =>
        rw [ho] at h1
        obtain ⟨origin, -, h1⟩ := bind_ok_iff.mp h1
        exact hzone _ _ _ _ _ _ hd h1
  have hp := loaded_quiet h
  unfold loaded at h
  obtain ⟨d, hd, h⟩ := bind_ok_iff.mp h
  rw [if_neg (by simp), Res.ok_bind] at h
  injection h with h
  rw [hp]
  unfold setContextJ at hd
  obtain ⟨_, -, hd⟩ := bind_ok_iff.mp hd
  obtain ⟨t, -, hd⟩ := bind_ok_iff.mp hd
  obtain ⟨tops, -, hd⟩ := bind_ok_iff.mp hd
  obtain ⟨z, -, hd⟩ := bind_ok_iff.mp hd
  have := hzones _ _ _ (by intro f hf; cases hf) hd
  unfold lintObjects
  rw [← h, List.map_nil, List.append_nil]
  rw [List.flatMap_eq_nil_iff]
  intro f hf
  rw [this f hf]
  rfl

/-- The writes and the ending, from what `work` comes to. -/
def ended (env : Env) (args : Args) (l : List Str) : Except Ending Totals → List Write × Ending
  | .error e => (lintWrites args.lint l, e)
  | .ok t => if (writeViolations env.ord t.violations).2 then
      (lintWrites args.lint l ++ outWrites args (writeViolations env.ord t.violations).1 ++ closing args, .returned)
    else (lintWrites args.lint l ++ outWrites args (writeViolations env.ord t.violations).1, .caught)

/-- The process, with what is known about it. -/
theorem process_cases (fuel thr : Nat) (env : Env) (args : Args) :
    (∃ f l js, Wrote fuel thr env args f ∧ process fuel thr env args = (lintWrites args.lint l ++ outWrites args f.output ++
        (if f.finished then closing args else []), if f.finished then .returned else .caught) ∧
      (args.lint = true → Written l js ∧ f.lint = some (if f.finished then lintBody js ++ "\n]".toList else lintBody js)) ∧
      (args.lint = false → f.lint = none) ∧ ∃ vs, f.output = (writeViolations env.ord vs).1 ∧ f.finished = (writeViolations env.ord vs).2) ∨
    (∃ e l js, (¬ ∃ f, Wrote fuel thr env args f) ∧ process fuel thr env args = (lintWrites args.lint l, e) ∧ e ≠ .returned ∧ Left l js) := by
  have same : (work fuel thr env args (if args.lint then ["[\n".toList] else [])).2 = (work fuel thr env args ["[\n".toList]).2 ∧
      lintWrites args.lint (work fuel thr env args (if args.lint then ["[\n".toList] else [])).1 = lintWrites args.lint (work fuel thr env args ["[\n".toList]).1 := by
    cases hl : args.lint with
    | true => exact ⟨rfl, rfl⟩
    | false =>
      have := work_still (fuel := fuel) (thr := thr) (env := env) hl
      exact ⟨by rw [if_neg (by simp), this ["[\n".toList]], rfl⟩
  cases hw : work fuel thr env args ["[\n".toList] with
  | mk l o =>
    rw [hw] at same
    have hp : process fuel thr env args = ended env args l o := by
      have e1 := same.1
      have e2 := same.2
      unfold process
      dsimp only at e1 e2 ⊢
      generalize hwl : work fuel thr env args (if args.lint = true then ["[\n".toList] else []) = r at e1 e2 ⊢
      obtain ⟨l2, o2⟩ := r
      dsimp only at e1 e2 ⊢
      subst e1
      cases o2 with
      | error e => unfold ended; rw [← e2]; rfl
      | ok t => unfold ended; rw [← e2]; rfl
    rw [hp]
    cases o with
    | error e =>
      right
      obtain ⟨⟨js, hj⟩, hno⟩ := work_error written_start hw
      refine ⟨e, l, js, ?_, rfl, work_noReturn written_start hw, hj⟩
      rintro ⟨f, m, us, hm, hu, hf⟩
      obtain ⟨p, t, h1, h2, h3, -⟩ := programJ_ok.mp hf
      refine hno m us p t hm hu h1 h3 (fun j hj => ?_)
      cases hl : args.lint with
      | true => exact h2 hl j hj
      | false =>
        rw [hl] at h1
        rw [quiet_issues h1] at hj
        cases hj
    | ok t =>
      left
      obtain ⟨m, us, p, hm, hu, h1, h2, hwr⟩ := work_ok written_start hw
      refine ⟨_, l, lintObjects p.1 p.2, ⟨m, us, hm, hu, programJ_ok.mpr ⟨p, t, h1, fun _ j hj => (hwr.2 j hj).2, h2, rfl⟩⟩, ?_, ?_, ?_, t.violations, rfl, rfl⟩
      · unfold ended
        dsimp only
        cases (writeViolations env.ord t.violations).2 with
        | true => rfl
        | false => simp
      · intro hl
        refine ⟨hwr, ?_⟩
        dsimp only
        rw [if_pos hl]
      · intro hl
        dsimp only
        rw [if_neg (by rw [hl]; simp)]

end Groot.Process
