import Verif.Lemmas.Assemble

/-! # The tokens and the fields of a record line -/

namespace Groot

open Spec Lexer

theorem tokens_step {k : TokId} {t rest : Str} (h1 : Text k t) (h2 : ∀ k' p, Text k' p → p <+: t ++ rest → p.length ≤ t.length)
    (h3 : ∀ k', Before k' k → ¬ Text k' t) : tokens (t ++ rest) = ⟨k, t⟩ :: tokens rest :=
  (tokens_iff _ _).mpr (Munch.cons k t rest _ h1 h2 h3 (tokens_munch rest))

theorem word_head {c : Char} {p : Str} (h : Text .WORD (c :: p)) : Ordinary c := by
  obtain ⟨q, h1, -⟩ := (word_iff _).mp h
  unfold wrun wstep at h1
  dsimp only at h1
  by_cases h2 : c = '\\'
  · rw [h2]; exact plain_backslash
  · rw [if_neg h2] at h1
    by_cases h3 : wordChar c = true
    · exact (wordChar_iff c).mp h3
    · rw [if_neg h3] at h1
      cases h1

/-- The first character decides, except between words and single characters. -/
theorem text_head {k : TokId} {c : Char} {p : Str} (h : Text k (c :: p)) :
    (k = .TEXT_WORD ∧ c = '"') ∨ (k = .COMMENT ∧ c = ';') ∨ (k = .WORD ∧ Ordinary c) ∨
      (k = .WHITESPACE ∧ (c = ' ' ∨ c = '\t')) ∨ p = [] := by
  cases k with
  | TEXT_WORD => obtain ⟨b, e, -⟩ := h; injection e with e; exact .inl ⟨rfl, e⟩
  | COMMENT => obtain ⟨b, e, -⟩ := h; injection e with e; exact .inr (.inl ⟨rfl, e⟩)
  | WORD => exact .inr (.inr (.inl ⟨rfl, word_head h⟩))
  | LPAREN => injection (show c :: p = ['('] from h) with _ e; exact .inr (.inr (.inr (.inr e)))
  | RPAREN => injection (show c :: p = [')'] from h) with _ e; exact .inr (.inr (.inr (.inr e)))
  | EOL => injection (show c :: p = ['\n'] from h) with _ e; exact .inr (.inr (.inr (.inr e)))
  | WHITESPACE => exact .inr (.inr (.inr (.inl ⟨rfl, h.2 c (by simp)⟩)))
  | OTHER => obtain ⟨d, e, -⟩ := h; injection e with _ e; exact .inr (.inr (.inr (.inr e)))

/-- The next character cannot continue a word. -/
def EndsWord (rest : Str) : Prop := ∀ c cs, rest = c :: cs → ¬ Ordinary c ∧ c ≠ '(' ∧ c ≠ ')'

theorem wstep_none (q : WState) (c : Char) (h : ¬ Ordinary c) (h1 : c ≠ '(') (h2 : c ≠ ')') : wstep q c = none := by
  have hw : ¬ wordChar c = true := fun h' => h ((wordChar_iff c).mp h')
  have hb : c ≠ '\\' := by rintro rfl; exact h plain_backslash
  cases q <;> simp [wstep, h1, h2, hw, hb]

theorem tokens_word (w rest : Str) (hne : w ≠ []) (hw : ∀ c ∈ w, Ordinary c) (hr : EndsWord rest) :
    tokens (w ++ rest) = ⟨.WORD, w⟩ :: tokens rest := by
  have hg : WordGroup w := ⟨0, 0, w, by simp [times], hne, hw⟩
  obtain ⟨c, w', rfl⟩ := List.exists_cons_of_ne_nil hne
  have hc := hw c (by simp)
  have notq : c ≠ '"' ∧ c ≠ ';' ∧ c ≠ ' ' ∧ c ≠ '\t' := by
    refine ⟨?_, ?_, ?_, ?_⟩ <;> rintro rfl <;> exact absurd hc (by decide)
  apply tokens_step
  · exact ⟨[c :: w'], by simp, by simp, by intro g hg'; rw [List.mem_singleton.mp hg']; exact hg⟩
  · intro k' p hp hpre
    rcases p with _ | ⟨d, p⟩
    · simp
    · obtain ⟨rfl, hpre'⟩ := List.cons_prefix_cons.mp (by simpa using hpre)
      rcases text_head hp with ⟨-, h⟩ | ⟨-, h⟩ | ⟨rfl, -⟩ | ⟨-, h⟩ | h
      · exact absurd h notq.1
      · exact absurd h notq.2.1
      · by_contra hlong
        have hl : w'.length < p.length := by simpa using hlong
        obtain ⟨q, hq, -⟩ := (word_iff _).mp hp
        have : ∃ x y, p = w' ++ x :: y ∧ [x] <+: rest := by
          obtain ⟨r, hr'⟩ := hpre'
          rcases List.append_eq_append_iff.mp hr' with ⟨a, h1, h2⟩ | ⟨a, h1, h2⟩
          · rw [h1] at hl; simp at hl; omega
          · rcases a with _ | ⟨x, y⟩
            · rw [h1] at hl; simp at hl
            · exact ⟨x, y, h1, by rw [h2]; simp⟩
        obtain ⟨x, y, rfl, ⟨rest', hx⟩⟩ := this
        have hx' := hr x rest' (by simpa using hx.symm)
        rw [← List.cons_append, wrun_append] at hq
        rcases hz : wrun .s (d :: w') with _ | z
        · rw [hz] at hq; cases hq
        · rw [hz] at hq
          have hq : (wstep z x).bind (fun q' => wrun q' y) = some q := hq
          rw [wstep_none z x hx'.1 hx'.2.1 hx'.2.2] at hq
          cases hq
      · rcases h with h | h
        · exact absurd h notq.2.2.1
        · exact absurd h notq.2.2.2
      · subst h; simp
  · intro k' hb hk
    rcases text_head hk with ⟨-, h⟩ | ⟨-, h⟩ | ⟨rfl, -⟩ | ⟨rfl, h⟩ | h
    · exact notq.1 h
    · exact notq.2.1 h
    · exact absurd hb (by unfold Before; decide)
    · exact absurd hb (by unfold Before; decide)
    · cases k' with
      | TEXT_WORD => obtain ⟨b, e, -⟩ := hk; injection e with e; exact notq.1 e
      | COMMENT => obtain ⟨b, e, -⟩ := hk; injection e with e; exact notq.2.1 e
      | WORD => exact absurd hb (by unfold Before; decide)
      | LPAREN => exact absurd hb (by unfold Before; decide)
      | RPAREN => exact absurd hb (by unfold Before; decide)
      | EOL => exact absurd hb (by unfold Before; decide)
      | WHITESPACE => exact absurd hb (by unfold Before; decide)
      | OTHER => exact absurd hb (by unfold Before; decide)

theorem tokens_blank (b rest : Str) (hne : b ≠ []) (hb : Blank b) (hr : ∀ c cs, rest = c :: cs → c ≠ ' ' ∧ c ≠ '\t') :
    tokens (b ++ rest) = ⟨.WHITESPACE, b⟩ :: tokens rest := by
  obtain ⟨c, b', rfl⟩ := List.exists_cons_of_ne_nil hne
  have hc := hb c (by simp)
  have special : ¬ Ordinary c ∧ c ≠ '"' ∧ c ≠ ';' ∧ c ≠ '(' ∧ c ≠ ')' ∧ c ≠ '\n' := by
    rcases hc with rfl | rfl <;> decide
  apply tokens_step
  · exact ⟨by simp, hb⟩
  · intro k' p hp hpre
    rcases p with _ | ⟨d, p⟩
    · simp
    · obtain ⟨rfl, hpre'⟩ := List.cons_prefix_cons.mp (by simpa using hpre)
      rcases text_head hp with ⟨-, h⟩ | ⟨-, h⟩ | ⟨-, h⟩ | ⟨rfl, -⟩ | h
      · exact absurd h special.2.1
      · exact absurd h special.2.2.1
      · exact absurd h special.1
      · by_contra hlong
        have hl : b'.length < p.length := by simpa using hlong
        obtain ⟨r, hr'⟩ := hpre'
        rcases List.append_eq_append_iff.mp hr' with ⟨a, h1, h2⟩ | ⟨a, h1, h2⟩
        · rw [h1] at hl; simp at hl; omega
        · rcases a with _ | ⟨x, y⟩
          · rw [h1] at hl; simp at hl
          · have hx := hr x (y ++ r) (by rw [h2]; rfl)
            rcases hp.2 x (by rw [h1]; simp) with e | e
            · exact hx.1 e
            · exact hx.2 e
      · subst h; simp
  · intro k' hbef hk
    cases k' with
    | TEXT_WORD => obtain ⟨b, e, -⟩ := hk; injection e with e; exact special.2.1 e
    | COMMENT => obtain ⟨b, e, -⟩ := hk; injection e with e; exact special.2.2.1 e
    | WORD => exact special.1 (word_head hk)
    | LPAREN => injection (show c :: b' = ['('] from hk) with e; exact special.2.2.2.1 e
    | RPAREN => injection (show c :: b' = [')'] from hk) with e; exact special.2.2.2.2.1 e
    | EOL => injection (show c :: b' = ['\n'] from hk) with e; exact special.2.2.2.2.2 e
    | WHITESPACE => exact absurd hbef (by unfold Before; decide)
    | OTHER => exact absurd hbef (by unfold Before; decide)

theorem tokens_eol (rest : Str) : tokens ('\n' :: rest) = ⟨.EOL, ['\n']⟩ :: tokens rest := by
  have : tokens (['\n'] ++ rest) = ⟨.EOL, ['\n']⟩ :: tokens rest := by
    apply tokens_step
    · rfl
    · intro k' p hp hpre
      rcases p with _ | ⟨d, p⟩
      · simp
      · obtain ⟨rfl, -⟩ := List.cons_prefix_cons.mp (by simpa using hpre)
        rcases text_head hp with ⟨-, h⟩ | ⟨-, h⟩ | ⟨-, h⟩ | ⟨-, h⟩ | h
        · cases h
        · cases h
        · exact absurd h (by decide)
        · exact absurd h (by decide)
        · subst h; simp
    · intro k' hbef hk
      cases k' with
      | TEXT_WORD => obtain ⟨b, e, -⟩ := hk; injection e with e; cases e
      | COMMENT => obtain ⟨b, e, -⟩ := hk; injection e with e; cases e
      | WORD => exact absurd (word_head hk) (by decide)
      | LPAREN => injection (show ['\n'] = ['('] from hk) with e; cases e
      | RPAREN => injection (show ['\n'] = [')'] from hk) with e; cases e
      | EOL => exact absurd hbef (by unfold Before; decide)
      | WHITESPACE => exact absurd hbef (by unfold Before; decide)
      | OTHER => exact absurd hbef (by unfold Before; decide)
  exact this

theorem tokens_comment (c rest : Str) (hc : '\n' ∉ c) :
    ∃ k, (k = .COMMENT ∨ k = .OTHER) ∧ tokens (';' :: c ++ '\n' :: rest) = ⟨k, ';' :: c⟩ :: tokens ('\n' :: rest) := by
  by_cases hne : c = []
  · subst hne
    refine ⟨.OTHER, .inr rfl, ?_⟩
    apply tokens_step
    · exact ⟨';', rfl, by decide⟩
    · intro k' p hp hpre
      rcases p with _ | ⟨d, p⟩
      · simp
      · obtain ⟨rfl, hpre'⟩ := List.cons_prefix_cons.mp (by simpa using hpre)
        rcases text_head hp with ⟨-, h⟩ | ⟨rfl, -⟩ | ⟨-, h⟩ | ⟨-, h⟩ | h
        · cases h
        · obtain ⟨b, e, hb, hn⟩ := hp
          injection e with _ e
          subst e
          obtain ⟨x, y, rfl⟩ := List.exists_cons_of_ne_nil hb
          obtain ⟨rfl, -⟩ := List.cons_prefix_cons.mp hpre'
          exact absurd (by simp) hn
        · exact absurd h (by decide)
        · exact absurd h (by decide)
        · subst h; simp
    · intro k' hbef hk
      cases k' with
      | TEXT_WORD => obtain ⟨b, e, -⟩ := hk; injection e with e; cases e
      | COMMENT => obtain ⟨b, e, hb, -⟩ := hk; injection e with _ e; exact hb e.symm
      | WORD => exact absurd (word_head hk) (by decide)
      | LPAREN => injection (show [';'] = ['('] from hk) with e; cases e
      | RPAREN => injection (show [';'] = [')'] from hk) with e; cases e
      | EOL => injection (show [';'] = ['\n'] from hk) with e; cases e
      | WHITESPACE => exact absurd (hk.2 ';' (by simp)) (by decide)
      | OTHER => exact absurd hbef (by unfold Before; decide)
  · refine ⟨.COMMENT, .inl rfl, ?_⟩
    apply tokens_step
    · exact ⟨c, rfl, hne, hc⟩
    · intro k' p hp hpre
      rcases p with _ | ⟨d, p⟩
      · simp
      · obtain ⟨rfl, hpre'⟩ := List.cons_prefix_cons.mp (by simpa using hpre)
        rcases text_head hp with ⟨-, h⟩ | ⟨rfl, -⟩ | ⟨-, h⟩ | ⟨-, h⟩ | h
        · cases h
        · obtain ⟨b, e, hb, hn⟩ := hp
          injection e with _ e
          subst e
          by_contra hlong
          have hl : c.length < p.length := by simpa using hlong
          obtain ⟨r, hr'⟩ := hpre'
          rcases List.append_eq_append_iff.mp hr' with ⟨a, h1, h2⟩ | ⟨a, h1, h2⟩
          · rw [h1] at hl; simp at hl; omega
          · rcases a with _ | ⟨x, y⟩
            · rw [h1] at hl; simp at hl
            · rw [List.cons_append] at h2
              injection h2 with h2 _
              exact hn (by rw [h1, ← h2]; simp)
        · exact absurd h (by decide)
        · exact absurd h (by decide)
        · subst h; simp
    · intro k' hbef hk
      cases k' with
      | TEXT_WORD => obtain ⟨b, e, -⟩ := hk; injection e with e; cases e
      | COMMENT => exact absurd hbef (by unfold Before; decide)
      | WORD => exact absurd hbef (by unfold Before; decide)
      | LPAREN => exact absurd hbef (by unfold Before; decide)
      | RPAREN => exact absurd hbef (by unfold Before; decide)
      | EOL => exact absurd hbef (by unfold Before; decide)
      | WHITESPACE => exact absurd hbef (by unfold Before; decide)
      | OTHER => exact absurd hbef (by unfold Before; decide)

/-- Tokens without parentheses and newlines. -/
def Flat (l : List Tok) : Prop := ∀ t ∈ l, t.id ≠ .LPAREN ∧ t.id ≠ .RPAREN ∧ t.id ≠ .EOL

theorem Flat.logical {l : List Tok} (h : Flat l) : LogicalLine l := by
  have zero : ∀ p, (∀ t ∈ p, t ∈ l) → depth p = 0 := by
    intro p hp
    unfold depth
    have h1 : p.countP (fun t => decide (t.id = .LPAREN)) = 0 :=
      List.countP_eq_zero.mpr (fun t ht => by simp [(h t (hp t ht)).1])
    have h2 : p.countP (fun t => decide (t.id = .RPAREN)) = 0 :=
      List.countP_eq_zero.mpr (fun t ht => by simp [(h t (hp t ht)).2.1])
    rw [h1, h2]
    rfl
  refine ⟨zero l (fun _ h => h), fun p hp => ?_, ?_⟩
  · rw [zero p (fun t ht => hp.subset ht)]; exact Int.le_refl 0
  · intro p t q e ht
    exact absurd ht (h t (by rw [e]; simp)).2.2

theorem Flat.eols {l : List Tok} (h : Flat l) : eols l = 0 :=
  List.countP_eq_zero.mpr (fun t ht => by simp [(h t ht).2.2])

theorem Flat.append {a b : List Tok} (ha : Flat a) (hb : Flat b) : Flat (a ++ b) := by
  intro t ht
  rcases List.mem_append.mp ht with h | h
  · exact ha t h
  · exact hb t h

/-- The next character ends words and blanks. -/
def EndsAll (rest : Str) : Prop := ∃ c cs, rest = c :: cs ∧ (c = ';' ∨ c = '\n')

theorem EndsAll.word {rest : Str} (h : EndsAll rest) : EndsWord rest := by
  obtain ⟨c, cs, rfl, h⟩ := h
  intro d ds e
  injection e with e
  subst e
  rcases h with rfl | rfl <;> decide

theorem EndsAll.blank {rest : Str} (h : EndsAll rest) : ∀ c cs, rest = c :: cs → c ≠ ' ' ∧ c ≠ '\t' := by
  obtain ⟨c, cs, rfl, h⟩ := h
  intro d ds e
  injection e with e
  subst e
  rcases h with rfl | rfl <;> decide

/-- What follows a word or blanks in a written line. -/
theorem written_head {ws : List Str} {s : Str} (h : Written ws s) (hne : ws ≠ []) : ∃ c s', s = c :: s' ∧ Ordinary c := by
  cases h with
  | nil => exact absurd rfl hne
  | word w sep s ws h1 h2 h3 h4 h5 =>
    obtain ⟨c, w', rfl⟩ := List.exists_cons_of_ne_nil h1
    exact ⟨c, w' ++ sep ++ s, by simp, h2 c (by simp)⟩

theorem written_tokens {ws : List Str} {s : Str} (h : Written ws s) (rest : Str) (hr : EndsAll rest) :
    ∃ toks, tokens (s ++ rest) = toks ++ tokens rest ∧ Flat toks ∧ (toks.filter isWord).map (·.text) = ws ∧
      (toks = [] ∨ ∃ t ts, toks = t :: ts ∧ isWord t = true) := by
  induction h with
  | nil => exact ⟨[], rfl, (by intro t ht; cases ht), rfl, .inl rfl⟩
  | word w sep s ws h1 h2 h3 h4 h5 ih =>
    obtain ⟨toks, e1, e2, e3, -⟩ := ih
    by_cases hsep : sep = []
    · subst hsep
      have hws := h4 rfl
      subst hws
      cases h5
      refine ⟨[⟨.WORD, w⟩], ?_, ?_, by simp [isWord], .inr ⟨_, _, rfl, by simp [isWord]⟩⟩
      · rw [List.append_nil, List.append_nil, tokens_word w rest h1 h2 hr.word]
        rfl
      · intro t ht; rw [List.mem_singleton.mp ht]; exact ⟨by simp, by simp, by simp⟩
    · have hew : EndsWord (sep ++ (s ++ rest)) := by
        intro c cs e
        obtain ⟨d, sep', rfl⟩ := List.exists_cons_of_ne_nil hsep
        injection e with e
        subst e
        rcases h3 d (by simp) with rfl | rfl <;> decide
      have heb : ∀ c cs, s ++ rest = c :: cs → c ≠ ' ' ∧ c ≠ '\t' := by
        intro c cs e
        by_cases hws : ws = []
        · subst hws
          cases h5
          exact hr.blank c cs e
        · obtain ⟨d, s', rfl, hd⟩ := written_head h5 hws
          injection e with e
          subst e
          constructor <;> rintro rfl <;> exact absurd hd (by decide)
      refine ⟨⟨.WORD, w⟩ :: ⟨.WHITESPACE, sep⟩ :: toks, ?_, ?_, ?_, .inr ⟨_, _, rfl, by simp [isWord]⟩⟩
      · rw [List.append_assoc, List.append_assoc, tokens_word w _ h1 h2 hew, tokens_blank sep _ hsep h3 heb, e1]
        rfl
      · intro t ht
        rcases List.mem_cons.mp ht with rfl | ht
        · exact ⟨by simp, by simp, by simp⟩
        rcases List.mem_cons.mp ht with rfl | ht
        · exact ⟨by simp, by simp, by simp⟩
        · exact e2 t ht
      · simp [isWord]
        simpa [isWord] using e3

theorem fields_cons_word (t : Tok) (ts : List Tok) (h : isWord t = true) :
    fields (t :: ts) = ((t :: ts).filter isWord).map (·.text) := by
  unfold fields
  rw [List.find?_cons_of_pos (by simp [h])]
  dsimp only
  rw [if_neg]
  · rfl
  · intro e
    unfold isWord at h
    rw [e] at h
    simp at h

/-- The tokens of a record line. -/
theorem line_tokens (l : Line) (s rest : Str) (h : l.Text s) :
    ∃ toks, tokens (s ++ '\n' :: rest) = toks ++ ⟨.EOL, ['\n']⟩ :: tokens rest ∧ Flat toks ∧
      fields toks = l.owner :: (l.middle ++ l.type :: l.rdata) := by
  obtain ⟨body, e, rfl, he, hb⟩ := h
  -- the end of the line
  obtain ⟨ends, t1, f1, w1⟩ : ∃ ends, tokens (e ++ '\n' :: rest) = ends ++ ⟨.EOL, ['\n']⟩ :: tokens rest ∧ Flat ends ∧
      ends.filter isWord = [] := by
    rcases he with rfl | ⟨c, rfl, hc⟩
    · exact ⟨[], tokens_eol rest, (by intro t ht; cases ht), rfl⟩
    · obtain ⟨k, hk, e⟩ := tokens_comment c rest hc
      refine ⟨[⟨k, ';' :: c⟩], by rw [e, tokens_eol]; rfl, ?_, ?_⟩
      · intro t ht
        rw [List.mem_singleton.mp ht]
        rcases hk with rfl | rfl <;> simp
      · rcases hk with rfl | rfl <;> simp [isWord]
  have hall : EndsAll (e ++ '\n' :: rest) := by
    rcases he with rfl | ⟨c, rfl, hc⟩
    · exact ⟨_, _, rfl, .inr rfl⟩
    · exact ⟨_, _, rfl, .inl rfl⟩
  by_cases ho : l.owner = []
  · rw [if_pos ho] at hb
    obtain ⟨lead, b, rfl, hl1, hl2, hw⟩ := hb
    obtain ⟨toks, t2, f2, w2, -⟩ := written_tokens hw _ hall
    have heb : ∀ c cs, b ++ (e ++ '\n' :: rest) = c :: cs → c ≠ ' ' ∧ c ≠ '\t' := by
      intro c cs e'
      obtain ⟨d, s', rfl, hd⟩ := written_head hw (by simp)
      injection e' with e'
      subst e'
      constructor <;> rintro rfl <;> exact absurd hd (by decide)
    refine ⟨⟨.WHITESPACE, lead⟩ :: (toks ++ ends), ?_, ?_, ?_⟩
    · rw [List.append_assoc, List.append_assoc, tokens_blank lead _ hl1 hl2 heb, t2, t1]
      simp
    · intro t ht
      rcases List.mem_cons.mp ht with rfl | ht
      · exact ⟨by simp, by simp, by simp⟩
      · exact (f2.append f1) t ht
    · unfold fields
      rw [List.find?_cons_of_pos (by simp)]
      dsimp only
      rw [if_pos rfl, List.filter_cons_of_neg (by simp [isWord]), List.filter_append, w1, List.append_nil, w2, ho]
      rfl
  · rw [if_neg ho] at hb
    obtain ⟨toks, t2, f2, w2, h3⟩ := written_tokens hb _ hall
    refine ⟨toks ++ ends, ?_, f2.append f1, ?_⟩
    · rw [List.append_assoc, t2, t1, List.append_assoc]
    · rcases h3 with rfl | ⟨t, ts, rfl, ht⟩
      · simp at w2
      · rw [List.cons_append, fields_cons_word _ _ ht, ← List.cons_append, List.filter_append, w1, List.append_nil, w2]

end Groot
