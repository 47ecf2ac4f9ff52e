import Verif.Spec.Lexer
import Mathlib.Tactic.ByContra
import Mathlib.Tactic.Push
import Mathlib.Tactic.SplitIfs
import Mathlib.Tactic.Tauto
import Mathlib.Data.List.TakeWhile
import Mathlib.Data.List.Basic

/-! # The lexer -/

namespace Groot

open Spec Lexer

/-- The word automaton on a string. -/
def wrun : WState → Str → Option WState
  | q, [] => some q
  | q, c :: cs => (wstep q c).bind (fun q' => wrun q' cs)

theorem wrun_append (q : WState) (a b : Str) : wrun q (a ++ b) = (wrun q a).bind (fun q' => wrun q' b) := by
  induction a generalizing q with
  | nil => rfl
  | cons c a ih =>
    rw [List.cons_append]
    show (wstep q c).bind (fun q' => wrun q' (a ++ b)) = ((wstep q c).bind (fun q' => wrun q' a)).bind (fun q' => wrun q' b)
    rcases wstep q c with _ | q'
    · rfl
    · exact ih q'

theorem wordChar_iff (c : Char) : wordChar c = true ↔ Ordinary c := by
  unfold wordChar Ordinary
  simp only [List.mem_cons, List.not_mem_nil, or_false, Bool.not_eq_true', Bool.or_eq_false_iff, beq_eq_false_iff_ne, ne_eq, not_or]
  tauto

theorem times_succ (n : Nat) (t : Str) : times (n + 1) t = times n t ++ t := by
  unfold times
  rw [List.replicate_succ', List.flatten_append]
  simp

theorem times_succ' (n : Nat) (t : Str) : times (n + 1) t = t ++ times n t := by
  unfold times
  rw [List.replicate_succ]
  simp

/-- Sequences of groups. -/
def Groups (s : Str) : Prop := ∃ groups : List Str, s = groups.flatten ∧ ∀ g ∈ groups, WordGroup g

theorem Groups.nil : Groups [] := ⟨[], rfl, by simp⟩

theorem Groups.snoc {s g : Str} (h : Groups s) (hg : WordGroup g) : Groups (s ++ g) := by
  obtain ⟨gs, rfl, h⟩ := h
  refine ⟨gs ++ [g], by simp, ?_⟩
  intro x hx
  rcases List.mem_append.mp hx with hx | hx
  · exact h x hx
  · rw [List.mem_singleton.mp hx]; exact hg

theorem text_word_iff (s : Str) : Text .WORD s ↔ ∃ s' g, Groups s' ∧ WordGroup g ∧ s = s' ++ g := by
  constructor
  · rintro ⟨gs, rfl, hne, h⟩
    refine ⟨gs.dropLast.flatten, gs.getLast hne, ⟨_, rfl, fun g hg => h g (List.dropLast_subset _ hg)⟩, h _ (List.getLast_mem hne), ?_⟩
    conv_lhs => rw [← List.dropLast_concat_getLast hne]
    simp
  · rintro ⟨s', g, ⟨gs, rfl, h⟩, hg, rfl⟩
    refine ⟨gs ++ [g], by simp, by simp, ?_⟩
    intro x hx
    rcases List.mem_append.mp hx with hx | hx
    · exact h x hx
    · rw [List.mem_singleton.mp hx]; exact hg

theorem Spec.WordGroup.more {g : Str} (h : WordGroup g) {c : Char} (hc : Ordinary c) : WordGroup (g ++ [c]) := by
  obtain ⟨a, b, x, rfl, hx, hp⟩ := h
  refine ⟨a, b, x ++ [c], by simp, by simp, ?_⟩
  intro y hy
  rcases List.mem_append.mp hy with hy | hy
  · exact hp y hy
  · rw [List.mem_singleton.mp hy]; exact hc

/-- What is known of the text read when the automaton is in a state. -/
def WInv : WState → Str → Prop
  | .s, p => ∃ s a, Groups s ∧ p = s ++ times a ['\\', '(']
  | .bs, p => ∃ s a, Groups s ∧ p = s ++ times a ['\\', '('] ++ ['\\']
  | .w, p => Text .WORD p
  | .rp, p => ∃ s a b, Groups s ∧ p = s ++ times a ['\\', '('] ++ times (b + 1) ['\\', ')']
  | .rb, p => ∃ s a b, Groups s ∧ p = s ++ times a ['\\', '('] ++ times (b + 1) ['\\', ')'] ++ ['\\']

theorem plain_backslash : Ordinary '\\' := by decide

theorem winv_accept {q : WState} {p : Str} (h : WInv q p) (ha : waccept q = true) : Text .WORD p := by
  rw [text_word_iff]
  cases q with
  | s => cases ha
  | rp => cases ha
  | bs =>
    obtain ⟨s, a, hs, rfl⟩ := h
    exact ⟨s, times a ['\\', '('] ++ times 0 ['\\', ')'] ++ ['\\'], hs, ⟨a, 0, ['\\'], rfl, by simp, by intro x hx; rw [List.mem_singleton.mp hx]; exact plain_backslash⟩,
      by simp [times]⟩
  | w => exact (text_word_iff _).mp h
  | rb =>
    obtain ⟨s, a, b, hs, rfl⟩ := h
    exact ⟨s, times a ['\\', '('] ++ times (b + 1) ['\\', ')'] ++ ['\\'], hs, ⟨a, b + 1, ['\\'], rfl, by simp, by intro x hx; rw [List.mem_singleton.mp hx]; exact plain_backslash⟩, by simp⟩

theorem text_word_groups {p : Str} (h : Text .WORD p) : Groups p := by
  obtain ⟨gs, rfl, -, h⟩ := h
  exact ⟨gs, rfl, h⟩

theorem text_word_more {p : Str} {c : Char} (h : Text .WORD p) (hc : Ordinary c) : Text .WORD (p ++ [c]) := by
  rw [text_word_iff] at h ⊢
  obtain ⟨s, g, hs, hg, rfl⟩ := h
  exact ⟨s, g ++ [c], hs, hg.more hc, by simp⟩

theorem winv_step {q q' : WState} {p : Str} {c : Char} (h : WInv q p) (hs : wstep q c = some q') : WInv q' (p ++ [c]) := by
  have word : ∀ {p : Str} {c : Char}, (∃ s a b, Groups s ∧ p = s ++ times a ['\\', '('] ++ times b ['\\', ')']) → wordChar c = true →
      Text .WORD (p ++ [c]) := by
    rintro p c ⟨s, a, b, hs, rfl⟩ hc
    rw [text_word_iff]
    refine ⟨s, times a ['\\', '('] ++ times b ['\\', ')'] ++ [c], hs, ⟨a, b, [c], by simp, by simp, ?_⟩, by simp⟩
    intro x hx
    rw [List.mem_singleton.mp hx]
    exact (wordChar_iff c).mp hc
  have z : times 0 ['\\', ')'] = [] := rfl
  have z' : times 0 ['\\', '('] = [] := rfl
  cases q with
  | s =>
    obtain ⟨s, a, h1, rfl⟩ := h
    unfold wstep at hs; dsimp only at hs
    split_ifs at hs with h2 h3 <;> injection hs with hs <;> subst hs
    · subst h2; exact ⟨s, a, h1, rfl⟩
    · exact word ⟨s, a, 0, h1, by simp [z]⟩ h3
  | bs =>
    have hw := winv_accept h rfl
    obtain ⟨s, a, h1, rfl⟩ := h
    unfold wstep at hs; dsimp only at hs
    split_ifs at hs with h2 h3 h4 h5 <;> injection hs with hs <;> subst hs
    · subst h2; exact ⟨s, a + 1, h1, by simp [times_succ]⟩
    · subst h3; exact ⟨s, a, 0, h1, by simp [times_succ, z]⟩
    · subst h4; exact ⟨_, 0, text_word_groups hw, by simp [z']⟩
    · exact text_word_more hw ((wordChar_iff c).mp h5)
  | w =>
    unfold wstep at hs; dsimp only at hs
    split_ifs at hs with h2 h3 <;> injection hs with hs <;> subst hs
    · subst h2; exact ⟨_, 0, text_word_groups h, by simp [z']⟩
    · exact text_word_more h ((wordChar_iff c).mp h3)
  | rp =>
    obtain ⟨s, a, b, h1, rfl⟩ := h
    unfold wstep at hs; dsimp only at hs
    split_ifs at hs with h2 h3 <;> injection hs with hs <;> subst hs
    · subst h2; exact ⟨s, a, b, h1, rfl⟩
    · exact word ⟨s, a, b + 1, h1, rfl⟩ h3
  | rb =>
    have hw := winv_accept h rfl
    obtain ⟨s, a, b, h1, rfl⟩ := h
    unfold wstep at hs; dsimp only at hs
    split_ifs at hs with h2 h3 h4 <;> injection hs with hs <;> subst hs
    · subst h2; exact ⟨s, a, b + 1, h1, by simp [times_succ]⟩
    · subst h3; exact ⟨_, 0, text_word_groups hw, by simp [z']⟩
    · exact text_word_more hw ((wordChar_iff c).mp h4)

theorem winv_run {q q' : WState} {p t : Str} (h : WInv q p) (hr : wrun q t = some q') : WInv q' (p ++ t) := by
  induction t generalizing q p with
  | nil =>
    unfold wrun at hr
    injection hr with hr
    subst hr
    simpa using h
  | cons c t ih =>
    unfold wrun at hr
    rcases hs : wstep q c with _ | q1
    · rw [hs] at hr; cases hr
    · rw [hs] at hr
      have := ih (winv_step h hs) hr
      simpa using this

theorem wrun_plain (q : WState) (c : Char) (hc : Ordinary c) : ∃ q', wstep q c = some q' ∧ waccept q' = true := by
  have hw := (wordChar_iff c).mpr hc
  have h1 : c ≠ '(' := by rintro rfl; exact absurd hc (by decide)
  have h2 : c ≠ ')' := by rintro rfl; exact absurd hc (by decide)
  cases q <;> unfold wstep <;> simp only [h1, h2, hw, if_false, if_true] <;> split_ifs <;> exact ⟨_, rfl, rfl⟩

theorem wrun_plains (q : WState) (c : Str) (hne : c ≠ []) (hc : ∀ x ∈ c, Ordinary x) : ∃ q', wrun q c = some q' ∧ waccept q' = true := by
  induction c generalizing q with
  | nil => exact absurd rfl hne
  | cons x c ih =>
    obtain ⟨q1, h1, h2⟩ := wrun_plain q x (hc x (by simp))
    unfold wrun
    rw [h1]
    by_cases hcn : c = []
    · subst hcn; exact ⟨q1, rfl, h2⟩
    · exact ih q1 hcn (fun y hy => hc y (by simp [hy]))

theorem wrun_lparens (q : WState) (hq : q ≠ .rp) (a : Nat) :
    ∃ q', wrun q (times a ['\\', '(']) = some q' ∧ q' ≠ .rp := by
  induction a generalizing q with
  | zero => exact ⟨q, rfl, hq⟩
  | succ a ih =>
    rw [times_succ', wrun_append]
    have : wrun q ['\\', '('] = some .s := by cases q <;> first | exact absurd rfl hq | rfl
    rw [this]
    exact ih .s (by decide)

theorem wrun_rparens (q : WState) (b : Nat) : ∃ q', wrun q (times b ['\\', ')']) = some q' := by
  induction b generalizing q with
  | zero => exact ⟨q, rfl⟩
  | succ b ih =>
    rw [times_succ', wrun_append]
    have : wrun q ['\\', ')'] = some .rp := by cases q <;> rfl
    rw [this]
    exact ih .rp

theorem wrun_group (q : WState) (hq : q ≠ .rp) (g : Str) (hg : WordGroup g) : ∃ q', wrun q g = some q' ∧ waccept q' = true := by
  obtain ⟨a, b, c, rfl, hne, hc⟩ := hg
  obtain ⟨q1, h1, h1'⟩ := wrun_lparens q hq a
  obtain ⟨q2, h2⟩ := wrun_rparens q1 b
  obtain ⟨q3, h3, h3'⟩ := wrun_plains q2 c hne hc
  refine ⟨q3, ?_, h3'⟩
  rw [wrun_append, wrun_append, h1]
  show Option.bind (wrun q1 _) _ = _
  rw [h2]
  exact h3

theorem waccept_ne_rp {q : WState} (h : waccept q = true) : q ≠ .rp := by rintro rfl; cases h

theorem wrun_groups (gs : List Str) (q : WState) (hq : waccept q = true ∨ gs ≠ [] ∧ q = .s) (h : ∀ g ∈ gs, WordGroup g) :
    ∃ q', wrun q gs.flatten = some q' ∧ waccept q' = true := by
  induction gs generalizing q with
  | nil =>
    rcases hq with hq | hq
    · exact ⟨q, rfl, hq⟩
    · exact absurd rfl hq.1
  | cons g gs ih =>
    have hq' : q ≠ .rp := by
      rcases hq with hq | hq
      · exact waccept_ne_rp hq
      · rw [hq.2]; decide
    obtain ⟨q1, h1, h2⟩ := wrun_group q hq' g (h g (by simp))
    rw [List.flatten_cons, wrun_append, h1]
    exact ih q1 (.inl h2) (fun x hx => h x (by simp [hx]))

/-- The automaton accepts exactly the texts of the word rule. -/
theorem word_iff (p : Str) : Text .WORD p ↔ ∃ q, wrun .s p = some q ∧ waccept q = true := by
  constructor
  · rintro ⟨gs, rfl, hne, h⟩
    exact wrun_groups gs .s (.inr ⟨hne, rfl⟩) h
  · rintro ⟨q, h1, h2⟩
    have : WInv .s [] := ⟨[], 0, Groups.nil, rfl⟩
    exact winv_accept (winv_run this h1) h2

/-- `n` is the length of the longest prefix of `s` with property `P`; 0 if there is none. -/
def Longest (P : Str → Prop) (s : Str) (n : Nat) : Prop :=
  n ≤ s.length ∧ (n ≠ 0 → P (s.take n)) ∧ ∀ p, P p → p <+: s → p.length ≤ n

theorem wordLoop_spec (q : WState) (s : Str) (n best : Nat) :
    (wordLoop q n best s = best ∨ n < wordLoop q n best s ∧ wordLoop q n best s ≤ n + s.length ∧
      ∃ q', wrun q (s.take (wordLoop q n best s - n)) = some q' ∧ waccept q' = true) ∧
    ∀ p q', p <+: s → p ≠ [] → wrun q p = some q' → waccept q' = true → n + p.length ≤ wordLoop q n best s ∨ best > n := by
  induction s generalizing q n best with
  | nil =>
    unfold wordLoop
    refine ⟨.inl rfl, ?_⟩
    intro p q' hp hne
    exact absurd (List.prefix_nil.mp hp) hne
  | cons c s ih =>
    unfold wordLoop
    rcases hs : wstep q c with _ | q1
    · refine ⟨.inl rfl, ?_⟩
      intro p q' hp hne hr
      rcases p with _ | ⟨d, p⟩
      · exact absurd rfl hne
      · rw [(List.cons_prefix_cons.mp hp).1] at hr
        unfold wrun at hr
        rw [hs] at hr
        cases hr
    · dsimp only
      obtain ⟨h1, h2⟩ := ih q1 (n + 1) (if waccept q1 = true then n + 1 else best)
      constructor
      · rcases h1 with h1 | ⟨h3, h4, q', h5, h6⟩
        · rw [h1]
          split_ifs with ha
          · right
            refine ⟨by omega, by simp, q1, ?_, ha⟩
            simp [wrun, hs]
          · exact .inl rfl
        · right
          refine ⟨by omega, by rw [List.length_cons]; omega, q', ?_, h6⟩
          generalize wordLoop q1 (n + 1) (if waccept q1 = true then n + 1 else best) s = m at h3 h4 h5 ⊢
          have : m - n = (m - (n + 1)) + 1 := by omega
          rw [this, List.take_succ_cons]
          unfold wrun
          rw [hs]
          exact h5
      · intro p q' hp hne hr ha
        by_cases hbest : best > n
        · exact .inr hbest
        left
        rcases p with _ | ⟨d, p⟩
        · exact absurd rfl hne
        · obtain ⟨rfl, hp'⟩ := List.cons_prefix_cons.mp hp
          unfold wrun at hr
          rw [hs] at hr
          have hr : wrun q1 p = some q' := hr
          have mono : (if waccept q1 = true then n + 1 else best) ≤ wordLoop q1 (n + 1) (if waccept q1 = true then n + 1 else best) s := by
            rcases h1 with h1 | ⟨h3, -⟩
            · exact Nat.le_of_eq h1.symm
            · split_ifs at h3 ⊢ <;> omega
          rcases p with _ | ⟨e, p⟩
          · unfold wrun at hr
            injection hr with hr
            subst hr
            rw [if_pos ha] at mono ⊢
            simpa using mono
          · rcases h2 _ q' hp' (by simp) hr ha with h | h
            · simp only [List.length_cons] at h ⊢
              omega
            · split_ifs at h <;> omega

theorem wordLen_longest (s : Str) : Longest (Text .WORD) s (wordLen s) := by
  obtain ⟨h1, h2⟩ := wordLoop_spec .s s 0 0
  unfold wordLen
  refine ⟨?_, ?_, ?_⟩
  · rcases h1 with h1 | ⟨-, h1, -⟩
    · rw [h1]; simp
    · simpa using h1
  · intro hn
    rcases h1 with h1 | ⟨-, -, q, h3, h4⟩
    · exact absurd h1 hn
    · exact (word_iff _).mpr ⟨q, by simpa using h3, h4⟩
  · intro p hp hpre
    obtain ⟨q, h3, h4⟩ := (word_iff p).mp hp
    by_cases hne : p = []
    · simp [hne]
    · rcases h2 p q hpre hne h3 h4 with h | h
      · simpa using h
      · cases h

theorem charLen_longest (f : Char → Bool) (s : Str) : Longest (fun t => ∃ c, t = [c] ∧ f c = true) s (charLen f s) := by
  rcases s with _ | ⟨c, s⟩
  · refine ⟨by simp [charLen], by simp [charLen], ?_⟩
    rintro p ⟨c, rfl, -⟩ hp
    cases List.prefix_nil.mp hp
  · unfold charLen
    dsimp only
    refine ⟨by split <;> simp, ?_, ?_⟩
    · split
      · rename_i h; intro _; exact ⟨c, by simp, h⟩
      · intro h; exact absurd rfl h
    · rintro p ⟨d, rfl, hd⟩ hp
      obtain ⟨rfl, -⟩ := List.cons_prefix_cons.mp hp
      simp [hd]

theorem takeWhile_prefix_le (f : Char → Bool) (p s : Str) (hp : p <+: s) (hf : ∀ c ∈ p, f c = true) : p.length ≤ (s.takeWhile f).length := by
  obtain ⟨r, rfl⟩ := hp
  rw [List.takeWhile_append_of_pos hf]
  simp

theorem white_longest (s : Str) : Longest (Text .WHITESPACE) s (s.takeWhile (fun c => c == ' ' || c == '\t')).length := by
  refine ⟨(List.takeWhile_prefix _).length_le, ?_, ?_⟩
  · intro hn
    have e : s.take (s.takeWhile (fun c => c == ' ' || c == '\t')).length = s.takeWhile (fun c => c == ' ' || c == '\t') :=
      (List.prefix_iff_eq_take.mp (List.takeWhile_prefix _)).symm
    rw [e]
    refine ⟨by intro h; rw [h] at hn; exact hn rfl, ?_⟩
    intro c hc
    have := List.mem_takeWhile_imp hc
    simpa using this
  · rintro p ⟨-, hp⟩ hpre
    exact takeWhile_prefix_le _ p s hpre (fun c hc => by simpa using hp c hc)

theorem comment_longest (s : Str) : Longest (Text .COMMENT) s (commentLen s) := by
  unfold commentLen
  split
  · rename_i cs
    dsimp only
    have e : cs.take (cs.takeWhile (· != '\n')).length = cs.takeWhile (· != '\n') :=
      (List.prefix_iff_eq_take.mp (List.takeWhile_prefix _)).symm
    have hle : (cs.takeWhile (· != '\n')).length ≤ cs.length := (List.takeWhile_prefix _).length_le
    refine ⟨?_, ?_, ?_⟩
    · split <;> simp [hle]
    · split
      · intro h; exact absurd rfl h
      · rename_i h
        intro _
        refine ⟨cs.takeWhile (· != '\n'), by rw [List.take_succ_cons, e], fun h' => h (by rw [h']; rfl), ?_⟩
        intro hm
        have := List.mem_takeWhile_imp hm
        simp at this
    · rintro p ⟨body, rfl, hne, hb⟩ hp
      obtain ⟨-, hp⟩ := List.cons_prefix_cons.mp hp
      have := takeWhile_prefix_le (· != '\n') body cs hp (fun c hc => by
        simp only [bne_iff_ne]
        rintro rfl
        exact hb hc)
      have hpos : 0 < body.length := List.length_pos_iff.mpr hne
      rw [if_neg (by omega), List.length_cons]
      omega
  · rename_i h
    refine ⟨by simp, by simp, ?_⟩
    rintro p ⟨body, rfl, -, -⟩ ⟨r, hr⟩
    exact absurd hr.symm (by rw [List.cons_append]; exact h (body ++ r))

theorem takeWhile_quote (cs : Str) (h : '"' ∈ cs) : ∃ r, cs = cs.takeWhile (· != '"') ++ '"' :: r := by
  induction cs with
  | nil => cases h
  | cons c cs ih =>
    by_cases hc : c = '"'
    · subst hc
      exact ⟨cs, by simp⟩
    · rcases List.mem_cons.mp h with h | h
      · exact absurd h.symm hc
      · obtain ⟨r, e⟩ := ih h
        refine ⟨r, ?_⟩
        rw [List.takeWhile_cons_of_pos (by simp [hc]), List.cons_append, ← e]

theorem text_longest (s : Str) : Longest (Text .TEXT_WORD) s (textLen s) := by
  unfold textLen
  split
  · rename_i cs
    by_cases hq : '"' ∈ cs
    · rw [if_pos (List.contains_iff_mem.mpr hq)]
      obtain ⟨r, e⟩ := takeWhile_quote cs hq
      generalize hb : cs.takeWhile (· != '"') = body at e
      have hnb : '"' ∉ body := by
        intro hm
        rw [← hb] at hm
        have := List.mem_takeWhile_imp hm
        simp at this
      refine ⟨by rw [e]; simp, ?_, ?_⟩
      · intro _
        refine ⟨body, ?_, hnb⟩
        rw [show body.length + 2 = (body.length + 1) + 1 from rfl, List.take_succ_cons, e]
        rw [List.take_append, List.take_of_length_le (by omega), Nat.add_sub_cancel_left]
        rfl
      · rintro p ⟨b, rfl, hnb'⟩ hp
        obtain ⟨-, ⟨r', hp⟩⟩ := List.cons_prefix_cons.mp hp
        have : b.length ≤ body.length := by
          rw [← hb]
          refine takeWhile_prefix_le _ b cs ⟨'"' :: r', by rw [← hp]; simp⟩ ?_
          intro c hc
          simp only [bne_iff_ne]
          rintro rfl
          exact hnb' hc
        simp only [List.length_cons, List.length_append, List.length_nil]
        omega
    · rw [if_neg (by rw [List.contains_iff_mem]; exact hq)]
      refine ⟨by simp, by simp, ?_⟩
      rintro p ⟨b, rfl, -⟩ hp
      obtain ⟨-, ⟨r', hp⟩⟩ := List.cons_prefix_cons.mp hp
      exact absurd (by rw [← hp]; simp) hq
  · rename_i h
    refine ⟨by simp, by simp, ?_⟩
    rintro p ⟨body, rfl, -⟩ ⟨r, hr⟩
    exact absurd hr.symm (by rw [List.cons_append]; exact h _)

theorem Longest.congr {P Q : Str → Prop} {s : Str} {n : Nat} (h : Longest P s n) (e : ∀ t, P t ↔ Q t) : Longest Q s n :=
  ⟨h.1, fun hn => (e _).mp (h.2.1 hn), fun p hp => h.2.2 p ((e p).mpr hp)⟩

theorem rules_longest (s : Str) : ∀ r ∈ rules s, Longest (Text r.1) s r.2 := by
  intro r hr
  have ch : ∀ d : Char, ∀ t : Str, (∃ c, t = [c] ∧ (c == d) = true) ↔ t = [d] := by
    intro d t
    constructor
    · rintro ⟨c, rfl, h⟩; rw [eq_of_beq h]
    · rintro rfl; exact ⟨d, rfl, by simp⟩
  unfold rules at hr
  simp only [List.mem_cons, List.not_mem_nil, or_false] at hr
  rcases hr with rfl | rfl | rfl | rfl | rfl | rfl | rfl | rfl
  · exact text_longest s
  · exact comment_longest s
  · exact wordLen_longest s
  · exact (charLen_longest _ s).congr (ch '(')
  · exact (charLen_longest _ s).congr (ch ')')
  · exact (charLen_longest _ s).congr (ch '\n')
  · exact white_longest s
  · exact (charLen_longest _ s).congr (fun t => by simp [Text])

theorem rules_kinds (s : Str) : (rules s).map (·.1) = kinds := rfl

/-- The fold takes the first of the longest. -/
theorem best_fold (rs : List (TokId × Nat)) (b0 : TokId × Nat) :
    let b := rs.foldl (fun b r => if r.2 > b.2 then r else b) b0
    (∀ r ∈ rs, r.2 ≤ b.2) ∧ b0.2 ≤ b.2 ∧ (b = b0 ∨ ∃ pre post, rs = pre ++ b :: post ∧ b0.2 < b.2 ∧ ∀ r ∈ pre, r.2 < b.2) := by
  induction rs generalizing b0 with
  | nil => exact ⟨by simp, Nat.le_refl _, .inl rfl⟩
  | cons r rs ih =>
    dsimp only
    rw [List.foldl_cons]
    obtain ⟨h1, h2, h3⟩ := ih (if r.2 > b0.2 then r else b0)
    generalize rs.foldl (fun b r => if r.2 > b.2 then r else b) (if r.2 > b0.2 then r else b0) = b at h1 h2 h3
    by_cases h : r.2 > b0.2
    · rw [if_pos h] at h2 h3
      refine ⟨?_, by omega, ?_⟩
      · intro x hx
        rcases List.mem_cons.mp hx with rfl | hx
        · exact h2
        · exact h1 x hx
      · right
        rcases h3 with rfl | ⟨pre, post, e, h4, h5⟩
        · exact ⟨[], rs, rfl, h, by simp⟩
        · refine ⟨r :: pre, post, by rw [e]; rfl, by omega, ?_⟩
          intro x hx
          rcases List.mem_cons.mp hx with rfl | hx
          · exact h4
          · exact h5 x hx
    · rw [if_neg h] at h2 h3
      refine ⟨?_, h2, ?_⟩
      · intro x hx
        rcases List.mem_cons.mp hx with rfl | hx
        · omega
        · exact h1 x hx
      · rcases h3 with rfl | ⟨pre, post, e, h4, h5⟩
        · exact .inl rfl
        · right
          refine ⟨r :: pre, post, by rw [e]; rfl, h4, ?_⟩
          intro x hx
          rcases List.mem_cons.mp hx with rfl | hx
          · omega
          · exact h5 x hx

theorem text_ne_nil {k : TokId} {t : Str} (h : Text k t) : t ≠ [] := by
  cases k with
  | TEXT_WORD => obtain ⟨b, rfl, -⟩ := h; simp
  | COMMENT => obtain ⟨b, rfl, -⟩ := h; simp
  | WORD =>
    obtain ⟨q, h1, h2⟩ := (word_iff t).mp h
    rintro rfl
    unfold wrun at h1
    injection h1 with h1
    subst h1
    cases h2
  | LPAREN => rw [show t = ['('] from h]; simp
  | RPAREN => rw [show t = [')'] from h]; simp
  | EOL => rw [show t = ['\n'] from h]; simp
  | WHITESPACE => exact h.1
  | OTHER => obtain ⟨c, rfl, -⟩ := h; simp

/-- The chosen token: a longest text, of highest priority. -/
structure Chosen (s : Str) (k : TokId) (n : Nat) : Prop where
  len : n ≤ s.length
  text : Text k (s.take n)
  longest : ∀ k' p, Text k' p → p <+: s → p.length ≤ n
  first : ∀ k', Before k' k → ¬ Text k' (s.take n)

theorem mem_kinds (k : TokId) : k ∈ kinds := by cases k <;> decide

theorem best_chosen (c : Char) (cs : Str) : Chosen (c :: cs) (best (c :: cs)).1 (best (c :: cs)).2 := by
  generalize hs : c :: cs = s
  have hr := rules_longest s
  have hk := rules_kinds s
  obtain ⟨h1, -, h3⟩ := best_fold (rules s) (.OTHER, 0)
  change (∀ r ∈ rules s, r.2 ≤ (best s).2) at h1
  change best s = _ ∨ ∃ pre post, rules s = pre ++ best s :: post ∧ _ < (best s).2 ∧ ∀ r ∈ pre, r.2 < (best s).2 at h3
  generalize best s = b at h1 h3
  have get : ∀ k, ∃ m, (k, m) ∈ rules s := by
    intro k
    have := mem_kinds k
    rw [← hk] at this
    obtain ⟨r, h, e⟩ := List.mem_map.mp this
    exact ⟨r.2, by rw [← e]; exact h⟩
  have pos : b.2 ≠ 0 := by
    intro h0
    have one : ∀ k, Text k [c] → False := by
      intro k hk'
      obtain ⟨m, hm⟩ := get k
      have h4 := (hr _ hm).2.2 [c] hk' (by rw [← hs]; simp)
      have h5 := h1 _ hm
      simp only [List.length_singleton] at h4 h5
      omega
    by_cases hc : c = '\n'
    · exact one .EOL (by rw [hc]; rfl)
    · exact one .OTHER ⟨c, rfl, hc⟩
  rcases h3 with h3 | ⟨pre, post, e, -, h5⟩
  · rw [h3] at pos; exact absurd rfl pos
  · have hb : b ∈ rules s := by rw [e]; simp
    have hL := hr b hb
    refine ⟨hL.1, hL.2.1 pos, ?_, ?_⟩
    · intro k' p hp hpre
      obtain ⟨m, hm⟩ := get k'
      have := (hr _ hm).2.2 p hp hpre
      exact Nat.le_trans this (h1 _ hm)
    · intro k' hbef ht
      obtain ⟨m, hm⟩ := get k'
      have h6 := (hr _ hm).2.2 _ ht (List.take_prefix _ _)
      rw [List.length_take, Nat.min_eq_left hL.1] at h6
      have hpre : (k', m) ∈ pre := by
        have hnd : kinds.Nodup := by decide
        have hsplit : kinds = pre.map (·.1) ++ b.1 :: post.map (·.1) := by rw [← hk, e]; simp
        unfold Before at hbef
        by_contra hnot
        have hm' : (k', m) ∈ b :: post := by
          rw [e] at hm
          rcases List.mem_append.mp hm with h | h
          · exact absurd h hnot
          · exact h
        have hk'' : k' ∈ b.1 :: post.map (·.1) := by
          have := List.mem_map_of_mem (f := (·.1)) hm'
          simpa using this
        rw [hsplit] at hnd hbef
        rw [List.nodup_append] at hnd
        have n1 : k' ∉ pre.map (·.1) := fun h => hnd.2.2 _ h _ hk'' rfl
        have n2 : b.1 ∉ pre.map (·.1) := fun h => hnd.2.2 _ h _ (by simp) rfl
        rw [List.idxOf_append_of_notMem n1, List.idxOf_append_of_notMem n2, List.idxOf_cons_self] at hbef
        omega
      have := h5 _ hpre
      simp only at this h6
      omega

theorem tokensFuel_munch (n : Nat) (s : Str) (h : s.length ≤ n) : Munch s (tokensFuel n s) := by
  induction n generalizing s with
  | zero =>
    rw [List.length_eq_zero_iff.mp (Nat.le_zero.mp h)]
    exact Munch.nil
  | succ n ih =>
    rcases s with _ | ⟨c, cs⟩
    · exact Munch.nil
    · have hc := best_chosen c cs
      unfold tokensFuel
      dsimp only
      generalize hs : c :: cs = s at hc h
      generalize best s = b at hc
      have hne := text_ne_nil hc.text
      have hpos : 0 < b.2 := by
        rcases Nat.eq_zero_or_pos b.2 with h0 | h0
        · rw [h0] at hne; exact absurd rfl hne
        · exact h0
      conv => arg 1; rw [← List.take_append_drop b.2 s]
      refine Munch.cons b.1 _ _ _ hc.text ?_ hc.first (ih _ (by rw [List.length_drop]; omega))
      intro k' p hp hpre
      rw [List.take_append_drop] at hpre
      rw [List.length_take, Nat.min_eq_left hc.len]
      exact hc.longest k' p hp hpre

theorem munch_unique {s : Str} {ts ts' : List Tok} (h : Munch s ts) (h' : Munch s ts') : ts = ts' := by
  induction h generalizing ts' with
  | nil =>
    generalize he : ([] : Str) = e at h'
    cases h' with
    | nil => rfl
    | cons k t rest ts h1 =>
      have := text_ne_nil h1
      exact absurd (List.append_eq_nil_iff.mp he.symm).1 this
  | cons k t rest ts h1 h2 h3 _ ih =>
    generalize he : t ++ rest = e at h'
    cases h' with
    | nil => exact absurd (List.append_eq_nil_iff.mp he).1 (text_ne_nil h1)
    | cons k' t' rest' ts'' h1' h2' h3' h4' =>
      have l1 := h2 k' t' h1' (by rw [he]; simp)
      have l2 := h2' k t h1 (by rw [← he]; simp)
      obtain ⟨rfl, rfl⟩ := List.append_inj he (Nat.le_antisymm l2 l1)
      have : k = k' := by
        by_contra hkk
        have hidx : kinds.idxOf k ≠ kinds.idxOf k' := by
          intro e
          exact hkk (by revert e; cases k <;> cases k' <;> decide)
        rcases Nat.lt_or_gt_of_ne hidx with hlt | hlt
        · exact h3' k hlt h1
        · exact h3 k' hlt h1'
      subst this
      rw [ih h4']

theorem tokens_munch (s : Str) : Munch s (tokens s) := tokensFuel_munch _ s (Nat.le_refl _)

theorem tokens_iff (s : Str) (ts : List Tok) : tokens s = ts ↔ Munch s ts :=
  ⟨fun h => h ▸ tokens_munch s, fun h => munch_unique (tokens_munch s) h⟩

end Groot
