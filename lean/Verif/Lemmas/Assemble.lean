import Verif.Spec.Parser
import Verif.Lemmas.Lexer
import Verif.Lemmas.Budget

/-! # Logical lines -/

namespace Groot

open Spec Parser

/-- The effect of one token on the fields read so far. -/
def pushField (cur : List Str) (t : Tok) : List Str :=
  if isWord t then cur ++ [t.text] else if t.id = .WHITESPACE ∧ cur = [] then [[]] else cur

/-- The state after tokens that do not end a line. -/
def assemble (st : PState) (p : List Tok) : PState :=
  { st with line := st.line + eols p, paren := st.paren + depth p, cur := p.foldl pushField st.cur }

theorem depth_append (a b : List Tok) : depth (a ++ b) = depth a + depth b := by
  unfold depth
  rw [List.countP_append, List.countP_append]
  omega

theorem depth_single (t : Tok) : depth [t] = if t.id = .LPAREN then 1 else if t.id = .RPAREN then -1 else 0 := by
  unfold depth
  rw [List.countP_singleton, List.countP_singleton]
  rcases t with ⟨id, s⟩
  cases id <;> simp

theorem eols_append (a b : List Tok) : eols (a ++ b) = eols a + eols b := List.countP_append ..

theorem assemble_nil (st : PState) : assemble st [] = st := by
  unfold assemble
  cases st
  simp [eols, depth]

theorem assemble_append (st : PState) (a b : List Tok) : assemble st (a ++ b) = assemble (assemble st a) b := by
  unfold assemble
  simp only [depth_append, eols_append, List.foldl_append, Nat.add_assoc, Int.add_assoc]

/-- Any token that is not a closing parenthesis too many or a newline outside parentheses is just collected. -/
theorem step_assemble (thr : Nat) (st : PState) (t : Tok) (h1 : 0 ≤ st.paren + depth [t]) (h2 : t.id = .EOL → st.paren ≠ 0) :
    step thr st t = .ok (assemble st [t], true) := by
  rcases t with ⟨id, s⟩
  rw [depth_single] at h1
  unfold step assemble
  cases id with
  | EOL => simp [eols, depth, pushField, isWord, h2 rfl]
  | RPAREN =>
    simp at h1
    simp only [depth_single, eols, pushField, isWord, List.foldl_cons, List.foldl_nil]
    rw [if_neg (by omega)]
    simp
    rfl
  | WHITESPACE =>
    simp only [depth_single, eols, pushField, isWord, List.foldl_cons, List.foldl_nil]
    rcases st with ⟨l, p, sx, dn, dt, cur, lg, z, fs, rp, li, is_⟩
    rcases cur with _ | ⟨c, cur⟩ <;> simp
  | COMMENT => simp [eols, depth, pushField, isWord]
  | LPAREN => simp [eols, depth, pushField, isWord]
  | TEXT_WORD => simp [eols, depth, pushField, isWord]
  | WORD => simp [eols, depth, pushField, isWord]
  | OTHER => simp [eols, depth, pushField, isWord]

/-- Tokens that have not ended a line. -/
structure Ongoing (p : List Tok) : Prop where
  opened : ∀ q, q <+: p → 0 ≤ depth q
  newlines : ∀ a t b, p = a ++ t :: b → t.id = .EOL → 0 < depth a

theorem LogicalLine.iff {l : List Tok} : LogicalLine l ↔ Ongoing l ∧ depth l = 0 :=
  ⟨fun h => ⟨⟨h.opened, h.newlines⟩, h.balanced⟩, fun h => ⟨h.2, h.1.opened, h.1.newlines⟩⟩

theorem Ongoing.nil : Ongoing [] := by
  refine ⟨?_, ?_⟩
  · intro q hq; rw [List.prefix_nil.mp hq]; decide
  · intro a t b h; simp at h

theorem Ongoing.snoc {p : List Tok} {t : Tok} (h : Ongoing p) (h1 : 0 ≤ depth (p ++ [t])) (h2 : t.id = .EOL → depth p ≠ 0) :
    Ongoing (p ++ [t]) := by
  refine ⟨?_, ?_⟩
  · intro q hq
    rcases List.prefix_concat_iff.mp hq with rfl | hq
    · exact h1
    · exact h.opened q hq
  · intro a x b e hx
    rcases List.eq_nil_or_concat b with rfl | ⟨b', y, rfl⟩
    · obtain ⟨rfl, e'⟩ := List.append_inj' e rfl
      injection e' with e'
      subst e'
      have := h.opened p List.prefix_rfl
      have := h2 hx
      omega
    · have e2 : p ++ [t] = (a ++ x :: b') ++ [y] := by rw [e]; simp
      exact h.newlines a x b' (List.append_inj' e2 rfl).1 hx

theorem Ongoing.prefix {p q : List Tok} (h : Ongoing (p ++ q)) : Ongoing p := by
  refine ⟨fun r hr => h.opened r (hr.trans (List.prefix_append _ _)), ?_⟩
  intro a t b e
  exact h.newlines a t (b ++ q) (by rw [e]; simp)

theorem run_assemble (thr : Nat) (st : PState) (p rest : List Tok) (h0 : st.paren = 0) (h : Ongoing p) :
    run thr st (p ++ rest) = run thr (assemble st p) rest := by
  induction p using List.reverseRecOn generalizing rest with
  | nil => rw [assemble_nil]; rfl
  | append_singleton p t ih =>
    rw [List.append_assoc, ih _ h.prefix, List.singleton_append]
    have hs : step thr (assemble st p) t = .ok (assemble (assemble st p) [t], true) := by
      apply step_assemble
      · have : (assemble st p).paren = depth p := by simp [assemble, h0]
        rw [this, ← depth_append]
        exact h.opened _ List.prefix_rfl
      · intro ht
        have : (assemble st p).paren = depth p := by simp [assemble, h0]
        rw [this]
        have := h.newlines p t [] rfl ht
        omega
    rw [run, hs, Res.ok_bind, assemble_append]
    simp

theorem foldl_pushField_cons (p : List Tok) (cur : List Str) (h : cur ≠ []) :
    p.foldl pushField cur = cur ++ (p.filter isWord).map (·.text) := by
  induction p generalizing cur with
  | nil => simp
  | cons t p ih =>
    rw [List.foldl_cons]
    have hpf : pushField cur t = if isWord t then cur ++ [t.text] else if t.id = .WHITESPACE ∧ cur = [] then [[]] else cur := rfl
    rw [hpf]
    by_cases hw : isWord t = true
    · rw [if_pos hw, ih _ (by simp), List.filter_cons_of_pos hw]
      simp
    · rw [if_neg hw, if_neg (by rintro ⟨-, e⟩; exact h e), ih _ h, List.filter_cons_of_neg hw]

theorem foldl_pushField (p : List Tok) : p.foldl pushField [] = fields p := by
  induction p with
  | nil => rfl
  | cons t p ih =>
    rw [List.foldl_cons]
    have hpf : pushField [] t = if isWord t then [] ++ [t.text] else if t.id = .WHITESPACE ∧ ([] : List Str) = [] then [[]] else [] := rfl
    rw [hpf]
    unfold fields
    by_cases hw : isWord t = true
    · have hnw : t.id ≠ .WHITESPACE := by
        intro e; unfold isWord at hw; rw [e] at hw; simp at hw
      rw [if_pos hw, foldl_pushField_cons _ _ (by simp), List.filter_cons_of_pos hw, List.find?_cons_of_pos (by simp [hw])]
      dsimp only
      rw [if_neg hnw]
      simp
    · rw [if_neg hw]
      by_cases hs : t.id = .WHITESPACE
      · rw [if_pos ⟨hs, rfl⟩, foldl_pushField_cons _ _ (by simp), List.filter_cons_of_neg hw, List.find?_cons_of_pos (by simp [hs])]
        dsimp only
        rw [if_pos hs]
      · rw [if_neg (by rintro ⟨h, -⟩; exact hs h), ih, List.filter_cons_of_neg hw, List.find?_cons_of_neg (by simp [hw, hs])]
        rfl

/-- A complete line. -/
theorem run_line (thr : Nat) (st : PState) (l : List Tok) (e : Tok) (rest : List Tok) (h0 : st.paren = 0) (hc : st.cur = [])
    (hl : LogicalLine l) (he : e.id = .EOL) :
    run thr st (l ++ e :: rest) =
      if fields l = [] then run thr { st with line := st.line + eols l + 1 } rest
      else endOfRecord thr { st with line := st.line + eols l + 1, cur := fields l } >>= fun r =>
        if r.2 then run thr r.1 rest else .ok r.1 := by
  rw [run_assemble thr st l _ h0 (LogicalLine.iff.mp hl).1]
  have ha : assemble st l = { st with line := st.line + eols l, cur := fields l } := by
    unfold assemble
    rw [hl.balanced, hc, foldl_pushField]
    simp
  rw [ha, run]
  unfold step
  rw [he]
  dsimp only
  by_cases hf : fields l = []
  · rw [if_pos hf, if_neg (by rw [hf]; simp), Res.ok_bind, if_pos rfl, hf, ← hc]
  · rw [if_neg hf, if_pos ⟨h0, List.length_pos_iff.mpr hf⟩]

/-- Handling a record leaves parentheses alone, and no fields if the file goes on. -/
theorem addRR_keeps {thr : Nat} {st st' : PState} {rr : RR} (h : addRR thr st rr = .ok st') :
    st'.paren = st.paren ∧ st'.cur = st.cur ∧ st'.suffix = st.suffix ∧ st'.defName = st.defName ∧ st'.defTtl = st.defTtl ∧
      st'.foundSOA = st.foundSOA ∧ st'.line = st.line ∧ st'.lint = st.lint := by
  have issue : ∀ (s : PState) (a b c : Str), (addIssue s a b c).paren = s.paren ∧ (addIssue s a b c).cur = s.cur ∧
      (addIssue s a b c).suffix = s.suffix ∧ (addIssue s a b c).defName = s.defName ∧ (addIssue s a b c).defTtl = s.defTtl ∧
      (addIssue s a b c).foundSOA = s.foundSOA ∧ (addIssue s a b c).line = s.line ∧ (addIssue s a b c).lint = s.lint := by
    intro s a b c
    unfold addIssue
    split <;> simp
  have lenIssue : ∀ (s s' : PState) (a b c : Str), lengthIssue s rr a b c = .ok s' → s'.paren = s.paren ∧ s'.cur = s.cur ∧
      s'.suffix = s.suffix ∧ s'.defName = s.defName ∧ s'.defTtl = s.defTtl ∧
      s'.foundSOA = s.foundSOA ∧ s'.line = s.line ∧ s'.lint = s.lint := by
    intro s s' a b c h
    unfold lengthIssue at h
    obtain ⟨x, -, h⟩ := bind_ok_iff.mp h
    injection h with h
    rw [← h]
    split <;> exact issue ..
  unfold addRR at h
  dsimp only at h
  split at h
  · have := lenIssue _ _ _ _ _ h; exact this
  · split at h
    · have := lenIssue _ _ _ _ _ h; exact this
    · obtain ⟨b, -, h⟩ := bind_ok_iff.mp h
      split at h
      · split at h
        · injection h with h
          rw [← h]
          simp
        · unfold rejected at h
          split at h
          · injection h with h; rw [← h]; simp
          · obtain ⟨x, -, h⟩ := bind_ok_iff.mp h
            injection h with h
            rw [← h]
            have := issue (PState.count { st with rrsParsed := st.rrsParsed + 1, zone := (st.zone.addRecord thr rr).1 } "Duplicate-Records".toList) x "Duplicate Record".toList []
            exact this
          · split at h
            · cases h
            · split at h
              · cases h
              · obtain ⟨x, -, h⟩ := bind_ok_iff.mp h
                obtain ⟨y, -, h⟩ := bind_ok_iff.mp h
                injection h with h
                rw [← h]
                exact issue ..
      · obtain ⟨x, -, h⟩ := bind_ok_iff.mp h
        injection h with h
        rw [← h]
        exact issue ..

theorem processRecord_keeps {thr : Nat} {st st' : PState} (h : processRecord thr st = .ok st') : st'.paren = st.paren ∧ st'.cur = [] := by
  unfold processRecord at h
  split at h
  · injection h with h; rw [← h]; simp
  · split at h
    · injection h with h; rw [← h]; simp
    · obtain ⟨x, -, h⟩ := bind_ok_iff.mp h
      dsimp only at h
      split at h
      · injection h with h; rw [← h]; simp
      · obtain ⟨y, h1, h⟩ := bind_ok_iff.mp h
        injection h with h
        rw [← h]
        refine ⟨?_, rfl⟩
        have := (addRR_keeps h1).1
        show y.paren = _
        rw [this]
        unfold complete
        dsimp only
        split_ifs <;> rfl

theorem endOfRecord_keeps {thr : Nat} {st st' : PState} (h : endOfRecord thr st = .ok (st', true)) : st'.paren = st.paren ∧ st'.cur = [] := by
  unfold endOfRecord at h
  split at h
  · rename_i hc
    injection h with h
    injection h with h
    rw [← h]
    exact ⟨rfl, hc⟩
  · rename_i first rest hc
    split_ifs at h with h1 h2 h3 h4 h5
    · split at h
      · cases h
      · injection h with h
        injection h with h
        rw [← h]
        exact ⟨rfl, rfl⟩
    · injection h with h
      injection h with _ h
      cases h
    · split at h
      · cases h
      · obtain ⟨v, -, h⟩ := bind_ok_iff.mp h
        injection h with h
        injection h with h
        rw [← h]
        exact ⟨rfl, rfl⟩
    · obtain ⟨v, h6, h⟩ := bind_ok_iff.mp h
      injection h with h
      injection h with h
      rw [← h]
      have := processRecord_keeps h6
      exact this
    · injection h with h
      injection h with _ h
      cases h
    · obtain ⟨v, h6, h⟩ := bind_ok_iff.mp h
      injection h with h
      injection h with h
      rw [← h]
      have := processRecord_keeps h6
      exact this

theorem processLines_keeps {thr : Nat} {st st' : PState} {ls : List (List Tok)} (h0 : st.paren = 0) (hc : st.cur = [])
    (h : processLines thr st ls = .ok (st', true)) : st'.paren = 0 ∧ st'.cur = [] := by
  induction ls generalizing st with
  | nil =>
    unfold processLines at h
    injection h with h
    injection h with h
    rw [← h]
    exact ⟨h0, hc⟩
  | cons l ls ih =>
    unfold processLines at h
    dsimp only at h
    split at h
    · exact ih (st := { st with line := st.line + eols l + 1 }) h0 hc h
    · obtain ⟨r, h1, h⟩ := bind_ok_iff.mp h
      split at h
      · rename_i hr
        obtain ⟨r1, r2⟩ := r
        have hr : r2 = true := hr
        rw [hr] at h1
        have := endOfRecord_keeps h1
        exact ih (this.1.trans h0) this.2 h
      · rename_i hr
        injection h with h
        rw [h] at hr
        exact absurd rfl hr

/-- An unfinished rest has no effect. -/
theorem run_unfinished (thr : Nat) (r p : List Tok) (hp : Ongoing p) (hu : Unfinished (p ++ r)) :
    ∃ l q c, ∀ st : PState, st.paren = 0 → st.cur = [] →
      run thr (assemble st p) r = .ok { st with line := st.line + l, paren := q, cur := c } := by
  induction r generalizing p with
  | nil =>
    refine ⟨eols p, depth p, p.foldl pushField [], fun st h0 hc => ?_⟩
    rw [run]
    unfold assemble
    rw [h0, hc, Int.zero_add]
  | cons t r ih =>
    by_cases h1 : 0 ≤ depth (p ++ [t])
    · by_cases h2 : t.id = .EOL → depth p ≠ 0
      · have hu' : Unfinished ((p ++ [t]) ++ r) := by rw [List.append_assoc]; exact hu
        obtain ⟨l, q, c, h⟩ := ih (p ++ [t]) (hp.snoc h1 h2) hu'
        refine ⟨l, q, c, fun st h0 hc => ?_⟩
        rw [← h st h0 hc, assemble_append, run]
        have hpar : (assemble st p).paren = depth p := by simp [assemble, h0]
        rw [step_assemble thr (assemble st p) t (by rw [hpar, ← depth_append]; exact h1) (by rw [hpar]; exact h2), Res.ok_bind]
        rfl
      · push Not at h2
        exact absurd ⟨p, t, r, rfl, LogicalLine.iff.mpr ⟨hp, h2.2⟩, h2.1⟩ hu
    · have hr : t.id = .RPAREN := by
        rw [depth_append, depth_single] at h1
        have := hp.opened p List.prefix_rfl
        split_ifs at h1 with h2 h3
        · omega
        · exact h3
        · omega
      refine ⟨eols p, depth p - 1, p.foldl pushField [], fun st h0 hc => ?_⟩
      rw [run]
      unfold step
      rw [hr]
      dsimp only
      have hpar : (assemble st p).paren = depth p := by simp [assemble, h0]
      have hd : depth p - 1 < 0 := by
        rw [depth_append, depth_single, if_neg (by rw [hr]; decide), if_pos hr] at h1
        omega
      rw [hpar, if_pos hd, Res.ok_bind, if_neg (by simp)]
      unfold assemble
      rw [hc]

theorem run_split (thr : Nat) (ts : List Tok) (ls : List (List Tok)) (tail : List Tok) (h : Split ts ls tail) :
    ∃ l q c, ∀ st : PState, st.paren = 0 → st.cur = [] →
      run thr st ts = processLines thr st ls >>= fun r =>
        .ok (if r.2 then { r.1 with line := r.1.line + l, paren := q, cur := c } else r.1) := by
  induction h with
  | rest ts hu =>
    obtain ⟨l, q, c, h⟩ := run_unfinished thr ts [] Ongoing.nil hu
    refine ⟨l, q, c, fun st h0 hc => ?_⟩
    have := h st h0 hc
    rw [assemble_nil] at this
    rw [this]
    unfold processLines
    rw [Res.ok_bind, if_pos rfl]
  | line l e ts ls tail hl he _ ih =>
    obtain ⟨n, q, c, ih⟩ := ih
    refine ⟨n, q, c, fun st h0 hc => ?_⟩
    rw [run_line thr st l e ts h0 hc hl he]
    unfold processLines
    dsimp only
    by_cases hf : fields l = []
    · rw [if_pos hf, if_pos hf]
      exact ih _ h0 hc
    · rw [if_neg hf, if_neg hf]
      rcases hr : endOfRecord thr { st with line := st.line + eols l + 1, cur := fields l } with ⟨r1, r2⟩ | _ | _ | _ | _
      · rw [Res.ok_bind, Res.ok_bind]
        rcases r2 with _ | _
        · rfl
        · have := endOfRecord_keeps hr
          exact ih r1 (this.1.trans h0) this.2
      all_goals rfl

theorem split_exists (ts : List Tok) : ∃ ls tail, Split ts ls tail := by
  generalize hn : ts.length = n
  induction n using Nat.strongRecOn generalizing ts with
  | ind n ih =>
    by_cases hu : Unfinished ts
    · exact ⟨[], ts, .rest ts hu⟩
    · unfold Unfinished at hu
      push Not at hu
      obtain ⟨l, e, r, rfl, hl, he⟩ := hu
      obtain ⟨ls, tail, h⟩ := ih r.length (by rw [← hn, List.length_append, List.length_cons]; omega) r rfl
      exact ⟨l :: ls, tail, .line l e r ls tail hl he h⟩

theorem line_unique {l e r l' e' r'} (hl : LogicalLine l) (he : e.id = .EOL) (hl' : LogicalLine l') (he' : e'.id = .EOL)
    (h : l ++ e :: r = l' ++ e' :: r') : l = l' ∧ e = e' ∧ r = r' := by
  rcases List.append_eq_append_iff.mp h with ⟨a, h1, h2⟩ | ⟨a, h1, h2⟩
  · rcases a with _ | ⟨x, a⟩
    · simp at h1 h2
      exact ⟨h1.symm, h2⟩
    · rw [List.cons_append] at h2
      injection h2 with h2 h3
      subst h2
      have := hl'.newlines l e a h1 he
      rw [hl.balanced] at this
      cases this
  · rcases a with _ | ⟨x, a⟩
    · simp at h1 h2
      exact ⟨h1, h2.1.symm, h2.2.symm⟩
    · rw [List.cons_append] at h2
      injection h2 with h2 h3
      subst h2
      have := hl.newlines l' e' a h1 he'
      rw [hl'.balanced] at this
      cases this

theorem split_unique {ts : List Tok} {ls ls' : List (List Tok)} {tail tail' : List Tok} (h : Split ts ls tail) (h' : Split ts ls' tail') :
    ls = ls' ∧ tail = tail' := by
  induction h generalizing ls' tail' with
  | rest ts hu =>
    cases h' with
    | rest _ _ => exact ⟨rfl, rfl⟩
    | line l e r ls tail hl he _ => exact absurd ⟨l, e, r, rfl, hl, he⟩ hu
  | line l e ts ls tail hl he _ ih =>
    generalize hx : l ++ e :: ts = x at h'
    cases h' with
    | rest _ hu => exact absurd ⟨l, e, ts, hx.symm, hl, he⟩ hu
    | line l' e' r' ls' tail' hl' he' h' =>
      obtain ⟨rfl, rfl, rfl⟩ := line_unique hl he hl' he' hx
      obtain ⟨rfl, rfl⟩ := ih h'
      exact ⟨rfl, rfl⟩

end Groot
