import Verif.Lemmas.Loader

/-! # Letter case -/

namespace Groot

open Spec Parser Lexer

/-- Not a letter (of the basic alphabet). -/
def NotLetter (c : Char) : Prop := ¬ ('A' ≤ c ∧ c ≤ 'Z') ∧ ¬ ('a' ≤ c ∧ c ≤ 'z')

instance (c : Char) : Decidable (NotLetter c) := by unfold NotLetter; infer_instance

theorem lowerChar_upper {c : Char} (h : 'A' ≤ c ∧ c ≤ 'Z') : 'a' ≤ lowerChar c ∧ lowerChar c ≤ 'z' := by
  have hb : c.toNat < 91 := by
    have h2 : c.toNat ≤ 'Z'.toNat := h.2
    have : 'Z'.toNat = 90 := rfl
    omega
  have e : c = Char.ofNat c.toNat := (Char.ofNat_toNat c).symm
  generalize c.toNat = n at e hb
  subst e
  revert h hb n
  decide +kernel

theorem lowerChar_eq_iff {c : Char} (hc : NotLetter c) (x : Char) : lowerChar x = c ↔ x = c := by
  by_cases h : 'A' ≤ x ∧ x ≤ 'Z'
  · have := lowerChar_upper h
    constructor
    · intro e; rw [e] at this; exact absurd this hc.2
    · intro e; rw [e] at h; exact absurd h hc.1
  · unfold lowerChar
    rw [if_neg h]

theorem lowerChar_beq {c : Char} (hc : NotLetter c) (x : Char) : (lowerChar x == c) = (x == c) := by
  have := lowerChar_eq_iff hc x
  by_cases h : x = c
  · rw [h] at this ⊢; simp [this]
  · have h' : lowerChar x ≠ c := fun e => h (this.mp e)
    rw [beq_eq_false_iff_ne.mpr h, beq_eq_false_iff_ne.mpr h']

theorem lowerChar_lower (c : Char) : lowerChar (lowerChar c) = lowerChar c := by
  by_cases h : 'A' ≤ c ∧ c ≤ 'Z'
  · have := lowerChar_upper h
    generalize lowerChar c = d at this
    unfold lowerChar
    rw [if_neg]
    rintro ⟨-, h2⟩
    have : 'a' ≤ 'Z' := Char.le_trans this.1 h2
    exact absurd this (by decide)
  · have : lowerChar c = c := by unfold lowerChar; rw [if_neg h]
    rw [this, this]

theorem toLower_lower (s : Str) : toLower (toLower s) = toLower s := by
  unfold toLower
  rw [List.map_map]
  exact List.map_congr_left (fun c _ => lowerChar_lower c)

theorem toLower_append (a b : Str) : toLower (a ++ b) = toLower a ++ toLower b := List.map_append

theorem toLower_length (s : Str) : (toLower s).length = s.length := List.length_map _

theorem toLower_getLast? {c : Char} (hc : NotLetter c) (s : Str) : (toLower s).getLast? = some c ↔ s.getLast? = some c := by
  unfold toLower
  rw [List.getLast?_map]
  cases s.getLast? with
  | none => simp
  | some x => simp [lowerChar_eq_iff hc]

/-! ## Names -/

theorem scan_lower (s : Str) : ∀ st : List Str × Str,
    (toLower s).foldl scanStep (st.1.map toLower, toLower st.2) = ((s.foldl scanStep st).1.map toLower, toLower (s.foldl scanStep st).2) := by
  induction s with
  | nil => intro st; rfl
  | cons c s ih =>
    intro st
    have key : scanStep (st.1.map toLower, toLower st.2) (lowerChar c) = ((scanStep st c).1.map toLower, toLower (scanStep st c).2) := by
      unfold scanStep
      dsimp only
      have h1 : (lowerChar c = '.' ∧ (toLower st.2).length > 0) ↔ (c = '.' ∧ st.2.length > 0) := by
        rw [lowerChar_eq_iff (by decide), toLower_length]
      have h2 := toLower_getLast? (c := '\\') (by decide) st.2
      by_cases a : c = '.' ∧ st.2.length > 0
      · rw [if_pos a, if_pos (h1.mpr a)]
        by_cases b : st.2.getLast? = some '\\'
        · rw [if_pos b, if_pos (h2.mpr b)]; simp [toLower]
        · rw [if_neg b, if_neg (fun x => b (h2.mp x))]; simp [toLower]
      · rw [if_neg a, if_neg (fun x => a (h1.mp x))]; simp [toLower]
    show (toLower s).foldl scanStep (scanStep _ (lowerChar c)) = _
    rw [key, ih]
    rfl

theorem stringToLabels_lower (s : Str) : stringToLabels (toLower s) = (stringToLabels s).map toLower := by
  unfold stringToLabels
  rw [toLower_length]
  by_cases h : s.length = 0
  · rw [if_pos h, if_pos h]; rfl
  · rw [if_neg h, if_neg h]
    dsimp only
    have key : ∀ d : Str, ((toLower d).foldl scanStep ([], [])).1.reverse = ((d.foldl scanStep ([], [])).1.reverse).map toLower := by
      intro d
      have := scan_lower d ([], [])
      rw [List.map_nil] at this
      have e : toLower [] = [] := rfl
      rw [e] at this
      rw [this, List.map_reverse]
    by_cases hd : s.getLast? = some '.'
    · rw [if_neg (by rw [ne_eq, not_not]; exact (toLower_getLast? (by decide) s).mpr hd), if_neg (by rw [ne_eq, not_not]; exact hd)]
      exact key s
    · rw [if_pos (fun x => hd ((toLower_getLast? (by decide) s).mp x)), if_pos hd]
      have : toLower s ++ ['.'] = toLower (s ++ ['.']) := by rw [toLower_append]; rfl
      rw [this]
      exact key _

theorem labelsToString_lower (n : Name) : labelsToString (n.map toLower) = toLower (labelsToString n) := by
  unfold labelsToString
  rw [List.length_map]
  by_cases h : n.length = 0
  · rw [if_pos h, if_pos h]; rfl
  · rw [if_neg h, if_neg h]
    have : ∀ (n : Name) (acc : Str), (n.map toLower).foldl (fun domain l => l ++ ['.'] ++ domain) (toLower acc) =
        toLower (n.foldl (fun domain l => l ++ ['.'] ++ domain) acc) := by
      intro n
      induction n with
      | nil => intro acc; rfl
      | cons l n ih =>
        intro acc
        rw [List.map_cons, List.foldl_cons, List.foldl_cons, ← ih]
        congr 1
        simp [toLower_append]
        rfl
    exact this n []

/-! ## Tokens -/

/-- A token in lower case. -/
def lowerTok (t : Tok) : Tok := ⟨t.id, toLower t.text⟩

theorem takeWhile_lower {p : Char → Bool} (hp : ∀ c, p (lowerChar c) = p c) (s : Str) :
    (toLower s).takeWhile p = toLower (s.takeWhile p) := by
  induction s with
  | nil => rfl
  | cons c s ih =>
    show List.takeWhile p (lowerChar c :: toLower s) = _
    by_cases h : p c = true
    · rw [List.takeWhile_cons_of_pos (by rw [hp]; exact h), List.takeWhile_cons_of_pos h, ih]; rfl
    · rw [List.takeWhile_cons_of_neg (by rw [hp]; exact h), List.takeWhile_cons_of_neg h]; rfl

theorem dropWhile_lower {p : Char → Bool} (hp : ∀ c, p (lowerChar c) = p c) (s : Str) :
    (toLower s).dropWhile p = toLower (s.dropWhile p) := by
  induction s with
  | nil => rfl
  | cons c s ih =>
    show List.dropWhile p (lowerChar c :: toLower s) = _
    by_cases h : p c = true
    · rw [List.dropWhile_cons_of_pos (by rw [hp]; exact h), List.dropWhile_cons_of_pos h, ih]
    · rw [List.dropWhile_cons_of_neg (by rw [hp]; exact h), List.dropWhile_cons_of_neg h]; rfl

theorem bne_lower {c : Char} (hc : NotLetter c) (x : Char) : (lowerChar x != c) = (x != c) := by
  unfold bne; rw [lowerChar_beq hc]

theorem wordChar_lower (c : Char) : wordChar (lowerChar c) = wordChar c := by
  unfold wordChar
  rw [lowerChar_beq (by decide), lowerChar_beq (by decide), lowerChar_beq (by decide), lowerChar_beq (by decide),
    lowerChar_beq (by decide), lowerChar_beq (by decide), lowerChar_beq (by decide), lowerChar_beq (by decide)]

theorem wstep_lower (q : WState) (c : Char) : wstep q (lowerChar c) = wstep q c := by
  cases q <;>
  · unfold wstep
    simp only [lowerChar_eq_iff (c := '\\') (by decide), lowerChar_eq_iff (c := '(') (by decide), lowerChar_eq_iff (c := ')') (by decide),
      wordChar_lower]

theorem wordLoop_lower (s : Str) : ∀ q n b, wordLoop q n b (toLower s) = wordLoop q n b s := by
  induction s with
  | nil => intro q n b; rfl
  | cons c s ih =>
    intro q n b
    show wordLoop q n b (lowerChar c :: toLower s) = _
    unfold wordLoop
    rw [wstep_lower]
    cases wstep q c with
    | none => rfl
    | some q' => exact ih _ _ _

theorem textLen_lower (s : Str) : textLen (toLower s) = textLen s := by
  have hne : ∀ (c : Char) (t : Str), c ≠ '"' → textLen (c :: t) = 0 := by
    intro c t h
    unfold textLen
    split
    · rename_i e; injection e with e1 e2; exact absurd e1 h
    · rfl
  cases s with
  | nil => rfl
  | cons c s =>
    show textLen (lowerChar c :: toLower s) = _
    by_cases h : c = '"'
    · subst h
      have : lowerChar '"' = '"' := by decide
      have hq : ∀ t : Str, textLen ('"' :: t) = if t.contains '"' then (t.takeWhile (· != '"')).length + 2 else 0 := fun _ => rfl
      rw [this, hq, hq]
      have h1 : (toLower s).contains '"' = s.contains '"' := by
        rw [Bool.eq_iff_iff, List.contains_iff_mem, List.contains_iff_mem]
        unfold toLower
        rw [List.mem_map]
        constructor
        · rintro ⟨x, hx, e⟩
          rw [lowerChar_eq_iff (by decide)] at e
          rw [← e]; exact hx
        · intro hx; exact ⟨_, hx, by decide⟩
      rw [h1, takeWhile_lower (fun c => bne_lower (by decide) c), toLower_length]
    · rw [hne c s h, hne _ _ (fun e => h ((lowerChar_eq_iff (by decide) c).mp e))]

theorem commentLen_lower (s : Str) : commentLen (toLower s) = commentLen s := by
  have hne : ∀ (c : Char) (t : Str), c ≠ ';' → commentLen (c :: t) = 0 := by
    intro c t h
    unfold commentLen
    split
    · rename_i e; injection e with e1 e2; exact absurd e1 h
    · rfl
  cases s with
  | nil => rfl
  | cons c s =>
    show commentLen (lowerChar c :: toLower s) = _
    by_cases h : c = ';'
    · subst h
      have : lowerChar ';' = ';' := by decide
      have hq : ∀ t : Str, commentLen (';' :: t) = if (t.takeWhile (· != '\n')).length = 0 then 0 else (t.takeWhile (· != '\n')).length + 1 := fun _ => rfl
      rw [this, hq, hq, takeWhile_lower (fun c => bne_lower (by decide) c), toLower_length]
    · rw [hne c s h, hne _ _ (fun e => h ((lowerChar_eq_iff (by decide) c).mp e))]

theorem charLen_lower {p : Char → Bool} (hp : ∀ c, p (lowerChar c) = p c) (s : Str) : charLen p (toLower s) = charLen p s := by
  cases s with
  | nil => rfl
  | cons c s => show (if p (lowerChar c) = true then 1 else 0) = _; rw [hp]; rfl

theorem best_lower (s : Str) : best (toLower s) = best s := by
  unfold best
  congr 1
  unfold rules wordLen
  rw [textLen_lower, commentLen_lower, wordLoop_lower, charLen_lower (fun c => lowerChar_beq (by decide) c),
    charLen_lower (fun c => lowerChar_beq (by decide) c), charLen_lower (fun c => lowerChar_beq (by decide) c),
    charLen_lower (fun c => bne_lower (by decide) c), takeWhile_lower, toLower_length]
  intro c
  rw [lowerChar_beq (by decide), lowerChar_beq (by decide)]

theorem tokens_lower (s : Str) : tokens (toLower s) = (tokens s).map lowerTok := by
  unfold tokens
  rw [toLower_length]
  generalize s.length = n
  induction n generalizing s with
  | zero => rfl
  | succ n ih =>
    cases s with
    | nil => rfl
    | cons c s =>
      have hb := best_lower (c :: s)
      show tokensFuel (n + 1) (lowerChar c :: toLower s) = _
      unfold tokensFuel
      dsimp only
      have e : lowerChar c :: toLower s = toLower (c :: s) := rfl
      rw [e, hb]
      have ht : (toLower (c :: s)).take (best (c :: s)).2 = toLower ((c :: s).take (best (c :: s)).2) := by
        unfold toLower; rw [List.map_take]
      have hd : (toLower (c :: s)).drop (best (c :: s)).2 = toLower ((c :: s).drop (best (c :: s)).2) := by
        unfold toLower; rw [List.map_drop]
      rw [ht, hd, ih, List.map_cons]
      rfl

/-! ## Fields -/

theorem typeIndex_lower (fs : List Str) : typeIndex (fs.map toLower) = typeIndex fs := by
  unfold typeIndex
  rw [List.findIdx?_map]
  congr 1
  funext f
  show isTypeField (toLower f) = isTypeField f
  unfold isTypeField
  rw [toUpper_toLower, toLower_length]

theorem iequals_lower (f : Str) (s : String) : iequals (toLower f) s = iequals f s := by
  unfold iequals; rw [toUpper_toLower]

theorem isDigit_lower (c : Char) : isDigit (lowerChar c) = isDigit c := by
  by_cases h : 'A' ≤ c ∧ c ≤ 'Z'
  · have h' := lowerChar_upper h
    have key : ∀ d : Char, 'A' ≤ d → isDigit d = false := by
      intro d hd
      unfold isDigit
      rw [Bool.and_eq_false_iff]
      right
      rw [decide_eq_false_iff_not]
      intro hc
      have : 'A' ≤ '9' := Char.le_trans hd hc
      exact absurd this (by decide)
    rw [key c h.1, key _ (Char.le_trans (by decide) h'.1)]
  · unfold lowerChar; rw [if_neg h]

theorem isSpace_lower (c : Char) : isSpace (lowerChar c) = isSpace c := by
  unfold isSpace
  rw [lowerChar_beq (by decide), lowerChar_beq (by decide), lowerChar_beq (by decide), lowerChar_beq (by decide),
    lowerChar_beq (by decide), lowerChar_beq (by decide)]

theorem afterSign_lower (s : Str) : afterSign (toLower s) = toLower (afterSign s) := by
  have hp : ∀ t : Str, afterSign ('+' :: t) = t := fun _ => rfl
  have hm : ∀ t : Str, afterSign ('-' :: t) = t := fun _ => rfl
  have hn : ∀ (c : Char) (t : Str), c ≠ '-' → c ≠ '+' → afterSign (c :: t) = c :: t := by
    intro c t h1 h2
    unfold afterSign
    split
    · rename_i e; injection e with e1 e2; exact absurd e1 h1
    · rename_i e; injection e with e1 e2; exact absurd e1 h2
    · rfl
  cases s with
  | nil => rfl
  | cons c s =>
    show afterSign (lowerChar c :: toLower s) = _
    by_cases h1 : c = '-'
    · subst h1
      have : lowerChar '-' = '-' := by decide
      rw [this, hm, hm]
    · by_cases h2 : c = '+'
      · subst h2
        have : lowerChar '+' = '+' := by decide
        rw [this, hp, hp]
      · rw [hn c s h1 h2, hn _ _ (fun e => h1 ((lowerChar_eq_iff (by decide) c).mp e)) (fun e => h2 ((lowerChar_eq_iff (by decide) c).mp e))]
        rfl

theorem digits_lower (s : Str) : toLower (s.takeWhile isDigit) = s.takeWhile isDigit := by
  unfold toLower
  conv_rhs => rw [← List.map_id (s.takeWhile isDigit)]
  refine List.map_congr_left ?_
  intro c hc
  have hd : isDigit c = true := by
    have := List.all_takeWhile (p := isDigit) (l := s)
    rw [List.all_eq_true] at this
    exact this c hc
  unfold isDigit at hd
  rw [Bool.and_eq_true, decide_eq_true_eq, decide_eq_true_eq] at hd
  unfold lowerChar
  rw [if_neg]
  · rfl
  · rintro ⟨h1, -⟩
    have : 'A' ≤ '9' := Char.le_trans h1 hd.2
    exact absurd this (by decide)

theorem strtol_lower (s : Str) : strtol (toLower s) = ((strtol s).1, toLower (strtol s).2) := by
  unfold strtol
  dsimp only
  rw [takeWhile_lower (fun c => bne_lower (by decide) c), dropWhile_lower isSpace_lower, afterSign_lower, takeWhile_lower isDigit_lower,
    dropWhile_lower isDigit_lower, digits_lower]
  have hh : ∀ t : Str, (toLower t).head? = some '-' ↔ t.head? = some '-' := by
    intro t
    unfold toLower
    rw [List.head?_map]
    cases t.head? with
    | none => simp
    | some x => simp [lowerChar_eq_iff (c := '-') (by decide)]
  split
  · rfl
  · have := hh (List.dropWhile isSpace (s.takeWhile (· != '\x00')))
    by_cases h : (List.dropWhile isSpace (s.takeWhile (· != '\x00'))).head? = some '-'
    · rw [if_pos h, if_pos (this.mpr h)]
    · rw [if_neg h, if_neg (fun x => h (this.mp x))]

theorem stoi_lower (s : Str) : stoi (toLower s) = stoi s := by
  unfold stoi; rw [strtol_lower]

theorem isInteger_lower (s : Str) : isInteger (toLower s) = isInteger s := by
  cases s with
  | nil => rfl
  | cons c s =>
    show isInteger (lowerChar c :: toLower s) = _
    have e : lowerChar c :: toLower s = toLower (c :: s) := rfl
    unfold isInteger
    dsimp only
    rw [e, strtol_lower, isDigit_lower, lowerChar_beq (by decide), lowerChar_beq (by decide)]
    congr 1
    unfold toLower
    cases (strtol (c :: s)).2 <;> rfl

/-- The variables of the field loop in lower case. -/
def lowerF (f : FState) : FState := { f with name := toLower f.name, rdata := toLower f.rdata, defName := f.defName.map toLower }

theorem fieldLoop_lower (ti : Nat) (fs : List Str) : ∀ (i : Nat) (f : FState),
    fieldLoop ti i (fs.map toLower) (lowerF f) = (fieldLoop ti i fs f >>= fun r => .ok (lowerF r.1, r.2)) := by
  induction fs with
  | nil => intro i f; rfl
  | cons x fs ih =>
    intro i f
    rw [List.map_cons]
    unfold fieldLoop
    split
    · rw [← ih]
      congr 1
      unfold lowerF
      simp [toLower_append]
      rfl
    · split
      · split
        · rw [toLower_length]
          split
          · rw [← ih]
            congr 1
            unfold lowerF
            simp [stringToLabels_lower]
          · exact ih _ _
        · rw [iequals_lower, iequals_lower, isInteger_lower, stoi_lower]
          split
          · exact ih _ { f with cls := 3 }
          · split
            · exact ih _ { f with cls := 1 }
            · split
              · cases stoi x with
                | ok v => exact ih _ { f with ttl := toU32 v, defTtl := if f.defTtl = 0 then toU32 v else f.defTtl }
                | _ => rfl
              · rfl
      · exact ih _ _

/-! ## The parser state -/

/-- The state with its words in lower case. -/
def lowerS (st : PState) : PState :=
  { st with suffix := toLower st.suffix, defName := st.defName.map toLower, cur := st.cur.map toLower }

theorem endsDot_lower (s : Str) : endsDot (toLower s) = endsDot s := by
  unfold endsDot
  have := toLower_getLast? (c := '.') (by decide) s
  by_cases h : s.getLast? = some '.'
  · rw [h, this.mpr h]
  · have h' : (toLower s).getLast? ≠ some '.' := fun x => h (this.mp x)
    rw [beq_eq_false_iff_ne.mpr h, beq_eq_false_iff_ne.mpr h']

theorem toLower_dropLast (s : Str) : (toLower s).dropLast = toLower s.dropLast := by
  unfold toLower; rw [List.map_dropLast]

theorem complete_lower (st : PState) (type : Str) (f : FState) :
    complete (lowerS st) type (lowerF f) = (lowerS (complete st type f).1, (complete st type f).2) := by
  have hdot : ∀ a b : Str, toLower a ++ ['.'] ++ toLower b = toLower (a ++ ['.'] ++ b) := by
    intro a b; rw [toLower_append, toLower_append]; rfl
  unfold complete lowerS lowerF
  dsimp only
  rw [toLower_length, toLower_dropLast]
  by_cases h1 : f.name.length = 0
  · simp only [if_pos h1, labelsToString_lower, endsDot_lower]
    by_cases h2 : (!endsDot (labelsToString f.defName)) = true
    · simp only [if_pos h2, hdot, stringToLabels_lower, toLower_lower]
      split <;> first | rfl | simp only [toLower_lower] | skip
    · simp only [if_neg h2, hdot, toLower_lower]
      split <;> first | rfl | simp only [toLower_lower] | skip
  · simp only [if_neg h1]
    by_cases h3 : type = "SOA".toList
    · simp only [if_pos h3, endsDot_lower, toLower_length]
      have hs : (if st.suffix.length = 0 then toLower f.name else toLower st.suffix) = toLower (if st.suffix.length = 0 then f.name else st.suffix) := by
        split <;> rfl
      rw [hs]
      generalize (if st.suffix.length = 0 then f.name else st.suffix) = suf
      by_cases h2 : (!endsDot f.name) = true
      · simp only [if_pos h2, hdot, stringToLabels_lower, toLower_lower]
        split <;> first | rfl | simp only [toLower_lower] | skip
      · simp only [if_neg h2, hdot, toLower_lower]
        split <;> first | rfl | simp only [toLower_lower] | skip
    · simp only [if_neg h3, endsDot_lower]
      by_cases h2 : (!endsDot f.name) = true
      · simp only [if_pos h2, hdot, stringToLabels_lower, toLower_lower]
        split <;> first | rfl | simp only [toLower_lower] | skip
      · simp only [if_neg h2, hdot, toLower_lower]
        split <;> first | rfl | simp only [toLower_lower] | skip

theorem addIssue_lower (st : PState) (a b c : Str) : addIssue (lowerS st) a b c = lowerS (addIssue st a b c) := by
  unfold addIssue
  have : (lowerS st).lint = st.lint := rfl
  rw [this]
  split <;> rfl

theorem count_lower (st : PState) (k : Str) : (lowerS st).count k = lowerS (st.count k) := rfl

theorem lengthIssue_lower (st : PState) (rr : RR) (a b c : Str) :
    lengthIssue (lowerS st) rr a b c = (lengthIssue st rr a b c >>= fun s => .ok (lowerS s)) := by
  unfold lengthIssue
  cases rr.toStr with
  | ok s => simp only [Res.ok_bind, count_lower, addIssue_lower]; split <;> rfl
  | _ => rfl

theorem rejected_lower (st : PState) (rr : RR) (code : AddCode) (node : Option Nat) :
    rejected (lowerS st) rr code node = (rejected st rr code node >>= fun s => .ok (lowerS s)) := by
  unfold rejected
  have hz : (lowerS st).zone = st.zone := rfl
  rw [hz]
  cases code with
  | SUCCESS => rfl
  | DUPLICATE =>
    dsimp only
    cases rr.toStr with
    | ok s => simp only [Res.ok_bind, count_lower, addIssue_lower]
    | _ => rfl
  | _ =>
    dsimp only
    cases node with
    | none => rfl
    | some v =>
      dsimp only
      cases st.zone.rrsAt v with
      | nil => rfl
      | cons first rest =>
        dsimp only
        cases first.toStr with
        | ok p =>
          simp only [Res.ok_bind]
          cases rr.toStr with
          | ok s => simp only [Res.ok_bind, count_lower, addIssue_lower]
          | _ => rfl
        | _ => rfl

theorem addRR_lower (thr : Nat) (st : PState) (rr : RR) :
    addRR thr (lowerS st) rr = (addRR thr st rr >>= fun s => .ok (lowerS s)) := by
  unfold addRR
  have hz : (lowerS st).zone = st.zone := rfl
  dsimp only
  split
  · exact lengthIssue_lower { st with rrsParsed := st.rrsParsed + 1 } _ _ _ _
  · split
    · exact lengthIssue_lower { st with rrsParsed := st.rrsParsed + 1 } _ _ _ _
    · rw [hz]
      cases st.zone.membership rr with
      | ok b =>
        simp only [Res.ok_bind]
        cases b with
        | true =>
          simp only [if_true]
          split
          · rfl
          · exact rejected_lower { st with rrsParsed := st.rrsParsed + 1, zone := (st.zone.addRecord thr rr).1 } _ _ _
        | false =>
          simp only [Bool.false_eq_true, if_false]
          cases rr.toStr with
          | ok s => simp only [Res.ok_bind]; exact congrArg Res.ok (addIssue_lower (PState.count { st with rrsParsed := st.rrsParsed + 1 } _) _ _ _)
          | _ => rfl
      | _ => rfl

theorem processRecord_lower (thr : Nat) (st : PState) :
    (processRecord thr (lowerS st) >>= fun s => .ok (lowerS s)) = (processRecord thr st >>= fun s => .ok (lowerS s)) := by
  have hl2 : ∀ s : PState, lowerS (lowerS s) = lowerS s := by
    intro s
    have e : ∀ l : List Str, (l.map toLower).map toLower = l.map toLower := by
      intro l; rw [List.map_map]; exact List.map_congr_left (fun x _ => toLower_lower x)
    unfold lowerS
    dsimp only
    rw [toLower_lower, e, e]
  have hcur : (lowerS st).cur = st.cur.map toLower := rfl
  unfold processRecord
  rw [hcur, typeIndex_lower]
  cases hti : typeIndex st.cur with
  | none => simp only [Res.ok_bind]; exact congrArg Res.ok (hl2 { st with cur := [] })
  | some ti =>
    dsimp only
    split
    · simp only [Res.ok_bind]; exact congrArg Res.ok (hl2 { st with cur := [] })
    · have hf := fieldLoop_lower ti st.cur 0 { ttl := st.defTtl, defName := st.defName, defTtl := st.defTtl }
      have hf0 : lowerF { ttl := st.defTtl, defName := st.defName, defTtl := st.defTtl } =
          { ttl := (lowerS st).defTtl, defName := (lowerS st).defName, defTtl := (lowerS st).defTtl } := rfl
      rw [hf0] at hf
      rw [hf]
      have ht : toUpper ((st.cur.map toLower).getD ti []) = toUpper (st.cur.getD ti []) := by
        rw [List.getD_eq_getElem?_getD, List.getD_eq_getElem?_getD, List.getElem?_map]
        cases st.cur[ti]? with
        | none => rfl
        | some x => exact toUpper_toLower x
      rw [ht]
      cases fieldLoop ti 0 st.cur { ttl := st.defTtl, defName := st.defName, defTtl := st.defTtl } with
      | ok r =>
        obtain ⟨f, good⟩ := r
        simp only [Res.ok_bind]
        cases good with
        | false => exact congrArg Res.ok (hl2 { st with cur := [], defName := f.defName, defTtl := f.defTtl })
        | true =>
          simp only [Bool.not_true, Bool.false_eq_true, if_false]
          rw [complete_lower]
          dsimp only
          rw [addRR_lower]
          cases addRR thr (complete st (toUpper (st.cur.getD ti [])) f).1 (complete st (toUpper (st.cur.getD ti [])) f).2 with
          | ok x => exact congrArg Res.ok (hl2 { x with cur := [] })
          | _ => rfl
      | _ => rfl

/-- The words that are compared with regard to case. -/
def controls : List Str := ["$ORIGIN".toList, "$INCLUDE".toList, "$TTL".toList]

/-- Two lists of words that agree up to case, and on the control words. -/
def Alike (a b : List Str) : Prop := a.map toLower = b.map toLower ∧ ∀ (i : Nat) x y, a[i]? = some x → b[i]? = some y → ∀ c ∈ controls, x = c ↔ y = c

theorem alike_append {a b : List Str} {x y : Str} (h : Alike a b) (hx : toLower x = toLower y) (hc : ∀ c ∈ controls, x = c ↔ y = c) :
    Alike (a ++ [x]) (b ++ [y]) := by
  have hlen : a.length = b.length := by simpa using congrArg List.length h.1
  refine ⟨by rw [List.map_append, List.map_append, h.1]; simp [hx], ?_⟩
  intro i u v hu hv
  by_cases hi : i < a.length
  · rw [List.getElem?_append_left hi] at hu
    rw [List.getElem?_append_left (by omega)] at hv
    exact h.2 i u v hu hv
  · rw [List.getElem?_append_right (by omega)] at hu
    rw [List.getElem?_append_right (by omega), ← hlen] at hv
    cases hk : i - a.length with
    | zero =>
      rw [hk] at hu hv
      simp only [List.length_cons, List.length_nil, Nat.zero_add, Nat.lt_add_one, getElem?_pos, List.getElem_cons_zero, Option.some.injEq] at hu hv
      rw [← hu, ← hv]; exact hc
    | succ k => rw [hk] at hu; simp at hu

/-- Two states that agree up to case. -/
def AlikeS (st st' : PState) : Prop := lowerS st = lowerS st' ∧ Alike st.cur st'.cur

theorem lowerS_with {st st' : PState} (h : lowerS st = lowerS st') : ∃ (su : Str) (dn : Name) (cu : List Str),
    st' = { st with suffix := su, defName := dn, cur := cu } ∧ toLower st.suffix = toLower su ∧ st.defName.map toLower = dn.map toLower ∧
      st.cur.map toLower = cu.map toLower := by
  unfold lowerS at h
  cases st
  cases st'
  simp only [PState.mk.injEq] at h
  obtain ⟨h1, h2, h3, h4, h5, h6, h7, h8, h9, h10, h11, h12, h13⟩ := h
  subst h1 h2 h5 h7 h8 h9 h10 h11 h12 h13
  exact ⟨_, _, _, rfl, h3, h4, h6⟩

theorem processRecord_alike {thr : Nat} {st st' : PState} (h : lowerS st = lowerS st') :
    (processRecord thr st >>= fun s => .ok (lowerS s)) = (processRecord thr st' >>= fun s => .ok (lowerS s)) := by
  rw [← processRecord_lower thr st, ← processRecord_lower thr st', h]

/-- Two outcomes that agree up to case. -/
def AlikeR : Res (PState × Bool) → Res (PState × Bool) → Prop
  | .ok (a, b), .ok (a', b') => AlikeS a a' ∧ b = b'
  | .exit, .exit => True
  | .throw, .throw => True
  | .ub, .ub => True
  | .oof, .oof => True
  | _, _ => False

theorem alikeR_process {thr : Nat} {st st' : PState} (h : lowerS st = lowerS st') :
    AlikeR (processRecord thr st >>= fun s => .ok (s, true)) (processRecord thr st' >>= fun s => .ok (s, true)) := by
  have := processRecord_alike (thr := thr) h
  cases h1 : processRecord thr st with
  | ok a =>
    cases h2 : processRecord thr st' with
    | ok a' =>
      rw [h1, h2] at this
      simp only [Res.ok_bind, Res.ok.injEq] at this
      refine ⟨⟨this, ?_⟩, rfl⟩
      rw [(processRecord_keeps h1).2, (processRecord_keeps h2).2]
      exact ⟨rfl, by simp⟩
    | _ => rw [h1, h2] at this; cases this
  | exit => cases h2 : processRecord thr st' <;> rw [h1, h2] at this <;> first | trivial | cases this
  | throw => cases h2 : processRecord thr st' <;> rw [h1, h2] at this <;> first | trivial | cases this
  | ub => cases h2 : processRecord thr st' <;> rw [h1, h2] at this <;> first | trivial | cases this
  | oof => cases h2 : processRecord thr st' <;> rw [h1, h2] at this <;> first | trivial | cases this

theorem endOfRecord_alike {thr : Nat} {st st' : PState} (h : AlikeS st st') : AlikeR (endOfRecord thr st) (endOfRecord thr st') := by
  obtain ⟨hl, hc⟩ := h
  obtain ⟨su, dn, cu, rfl, hsu, hdn, hcu⟩ := lowerS_with hl
  unfold endOfRecord
  dsimp only
  cases hcur : st.cur with
  | nil =>
    have : cu = [] := by rw [hcur] at hcu; exact List.map_eq_nil_iff.mp hcu.symm
    subst this
    exact ⟨⟨hl, hc⟩, rfl⟩
  | cons first rest =>
    rw [hcur] at hcu
    cases cu with
    | nil => cases hcu
    | cons first' rest' =>
      rw [List.map_cons, List.map_cons] at hcu
      injection hcu with hf hr
      dsimp only at hc ⊢
      rw [hcur] at hc
      have hctl := hc.2 0 first first' rfl rfl
      have hat : first = "@".toList ↔ first' = "@".toList := by
        have key : ∀ x : Str, x = "@".toList ↔ toLower x = "@".toList := by
          intro x
          constructor
          · intro e; rw [e]; decide
          · intro e
            unfold toLower at e
            match x, e with
            | [c], e =>
              have : lowerChar c = '@' := by injection e
              rw [lowerChar_eq_iff (by decide)] at this
              rw [this]; rfl
            | [], e => cases e
            | _ :: _ :: _, e => injection e with e1 e2; cases e2
        exact (key first).trans (hf ▸ (key first').symm)
      by_cases h1 : first = "$ORIGIN".toList
      · rw [if_pos h1, if_pos ((hctl _ (by unfold controls; simp)).mp h1)]
        cases rest with
        | nil =>
          have : rest' = [] := List.map_eq_nil_iff.mp hr.symm
          subst this
          trivial
        | cons x rest =>
          cases rest' with
          | nil => cases hr
          | cons x' rest' =>
            injection hr with hx hr
            refine ⟨⟨?_, rfl, by simp⟩, rfl⟩
            unfold lowerS
            dsimp only
            rw [hx, hdn]
      · rw [if_neg h1, if_neg (fun e => h1 ((hctl _ (by unfold controls; simp)).mpr e))]
        by_cases h2 : first = "$INCLUDE".toList
        · rw [if_pos h2, if_pos ((hctl _ (by unfold controls; simp)).mp h2)]
          refine ⟨⟨hl, ?_⟩, rfl⟩
          rw [hcur]; exact hc
        · rw [if_neg h2, if_neg (fun e => h2 ((hctl _ (by unfold controls; simp)).mpr e))]
          by_cases h3 : first = "$TTL".toList
          · rw [if_pos h3, if_pos ((hctl _ (by unfold controls; simp)).mp h3)]
            cases rest with
            | nil =>
              have : rest' = [] := List.map_eq_nil_iff.mp hr.symm
              subst this
              trivial
            | cons x rest =>
              cases rest' with
              | nil => cases hr
              | cons x' rest' =>
                injection hr with hx hr
                dsimp only
                have : stoi x = stoi x' := by rw [← stoi_lower x, hx, stoi_lower]
                rw [this]
                cases stoi x' with
                | ok v =>
                  refine ⟨⟨?_, rfl, by simp⟩, rfl⟩
                  unfold lowerS
                  dsimp only
                  rw [hsu, hdn]
                | _ => trivial
          · rw [if_neg h3, if_neg (fun e => h3 ((hctl _ (by unfold controls; simp)).mpr e))]
            by_cases h4 : first = "@".toList
            · rw [if_pos h4, if_pos (hat.mp h4)]
              have hlen : su.length = st.suffix.length := by
                rw [← toLower_length su, ← hsu, toLower_length]
              rw [hlen]
              split
              · refine alikeR_process ?_
                unfold lowerS
                dsimp only
                rw [List.map_cons, List.map_cons, hsu, hr, ← stringToLabels_lower, ← stringToLabels_lower, hsu]
              · refine ⟨⟨hl, ?_⟩, rfl⟩
                rw [hcur]; exact hc
            · rw [if_neg h4, if_neg (fun e => h4 (hat.mpr e))]
              exact alikeR_process hl

theorem step_alike {thr : Nat} {st st' : PState} {t t' : Tok} (h : AlikeS st st') (ht : lowerTok t = lowerTok t')
    (hc : ∀ c ∈ controls, t.text = c ↔ t'.text = c) : AlikeR (step thr st t) (step thr st' t') := by
  obtain ⟨hl, hcur⟩ := h
  obtain ⟨su, dn, cu, rfl, hsu, hdn, hcu⟩ := lowerS_with hl
  obtain ⟨id, x⟩ := t
  obtain ⟨id', x'⟩ := t'
  unfold lowerTok at ht
  injection ht with e1 e2
  dsimp only at e1 e2 hc
  subst e1
  have hall : ∀ (f : PState → PState), (∀ s : PState, (f s).cur = s.cur) → (∀ s, lowerS (f s) = f (lowerS s)) →
      AlikeS (f st) (f { st with suffix := su, defName := dn, cur := cu }) := by
    intro f h1 h2
    refine ⟨by rw [h2, h2, hl], ?_⟩
    rw [h1, h1]; exact hcur
  have hpush : AlikeS { st with cur := st.cur ++ [x] } { st with suffix := su, defName := dn, cur := cu ++ [x'] } := by
    refine ⟨?_, alike_append hcur e2 hc⟩
    unfold lowerS
    dsimp only
    rw [hsu, hdn, List.map_append, List.map_append, hcu, List.map_singleton, List.map_singleton, e2]
  unfold step
  cases id with
  | LPAREN => exact ⟨hall (fun s => { s with paren := s.paren + 1 }) (fun _ => rfl) (fun _ => rfl), rfl⟩
  | RPAREN =>
    dsimp only
    split
    · exact ⟨hall (fun s => { s with paren := s.paren - 1 }) (fun _ => rfl) (fun _ => rfl), rfl⟩
    · exact ⟨hall (fun s => { s with paren := s.paren - 1 }) (fun _ => rfl) (fun _ => rfl), rfl⟩
  | TEXT_WORD => exact ⟨hpush, rfl⟩
  | WORD => exact ⟨hpush, rfl⟩
  | WHITESPACE =>
    dsimp only
    have hlen : cu.length = st.cur.length := by simpa using (congrArg List.length hcu).symm
    rw [hlen]
    split
    · refine ⟨⟨?_, rfl, ?_⟩, rfl⟩
      · unfold lowerS; dsimp only; rw [hsu, hdn]
      · intro i u v hu hv
        dsimp only at hu hv
        rw [hu] at hv; cases hv
        exact fun _ _ => Iff.rfl
    · exact ⟨⟨hl, hcur⟩, rfl⟩
  | EOL =>
    dsimp only
    have hlen : cu.length = st.cur.length := by simpa using (congrArg List.length hcu).symm
    rw [hlen]
    have hs := hall (fun s => { s with line := s.line + 1 }) (fun _ => rfl) (fun _ => rfl)
    split
    · exact endOfRecord_alike hs
    · exact ⟨hs, rfl⟩
  | COMMENT => exact ⟨⟨hl, hcur⟩, rfl⟩
  | OTHER => exact ⟨⟨hl, hcur⟩, rfl⟩

/-- A whole file. -/
theorem run_alike (thr : Nat) (ts ts' : List Tok) (hts : ts.map lowerTok = ts'.map lowerTok)
    (hc : ∀ (i : Nat) t t', ts[i]? = some t → ts'[i]? = some t' → ∀ c ∈ controls, t.text = c ↔ t'.text = c) :
    ∀ st st' : PState, AlikeS st st' → (run thr st ts >>= fun s => .ok (lowerS s).zone) = (run thr st' ts' >>= fun s => .ok (lowerS s).zone) ∧
      (run thr st ts >>= fun s => .ok { lowerS s with cur := [], suffix := [], defName := [] }) =
        (run thr st' ts' >>= fun s => .ok { lowerS s with cur := [], suffix := [], defName := [] }) := by
  induction ts generalizing ts' with
  | nil =>
    have : ts' = [] := List.map_eq_nil_iff.mp hts.symm
    subst this
    intro st st' h
    refine ⟨?_, ?_⟩
    · show Res.ok (lowerS st).zone = Res.ok (lowerS st').zone
      rw [h.1]
    · show Res.ok { lowerS st with cur := [], suffix := [], defName := [] } = Res.ok { lowerS st' with cur := [], suffix := [], defName := [] }
      rw [h.1]
  | cons t ts ih =>
    cases ts' with
    | nil => cases hts
    | cons t' ts' =>
      intro st st' h
      rw [List.map_cons, List.map_cons] at hts
      injection hts with h1 h2
      have hs := step_alike (thr := thr) h h1 (hc 0 t t' rfl rfl)
      have hrest := ih ts' h2 (fun i u u' hu hu' => hc (i + 1) u u' hu hu')
      unfold run
      cases e1 : step thr st t with
      | ok a =>
        cases e2 : step thr st' t' with
        | ok a' =>
          rw [e1, e2] at hs
          obtain ⟨s1, b⟩ := a
          obtain ⟨s2, b'⟩ := a'
          obtain ⟨hs, rfl⟩ := hs
          simp only [Res.ok_bind]
          cases b with
          | true => exact hrest s1 s2 hs
          | false =>
            simp only [Bool.false_eq_true, if_false, Res.ok_bind]
            rw [hs.1]
            exact ⟨rfl, rfl⟩
        | _ => rw [e1, e2] at hs; exact hs.elim
      | exit => cases e2 : step thr st' t' <;> rw [e1, e2] at hs <;> first | exact ⟨rfl, rfl⟩ | exact hs.elim
      | throw => cases e2 : step thr st' t' <;> rw [e1, e2] at hs <;> first | exact ⟨rfl, rfl⟩ | exact hs.elim
      | ub => cases e2 : step thr st' t' <;> rw [e1, e2] at hs <;> first | exact ⟨rfl, rfl⟩ | exact hs.elim
      | oof => cases e2 : step thr st' t' <;> rw [e1, e2] at hs <;> first | exact ⟨rfl, rfl⟩ | exact hs.elim

/-- Loading a file depends on the letters of the file up to case only. -/
theorem loadZone_alike (thr : Nat) (lint : Bool) (d : Loaded) (file s s' ns origin origin' : Str) (hs : toLower s = toLower s')
    (ho : toLower origin = toLower origin')
    (hc : ∀ (i : Nat) t t', (tokens s)[i]? = some t → (tokens s')[i]? = some t' → ∀ c ∈ controls, t.text = c ↔ t'.text = c) :
    loadZone thr lint d file s ns origin = loadZone thr lint d file s' ns origin' := by
  have ht : (tokens s).map lowerTok = (tokens s').map lowerTok := by rw [← tokens_lower, ← tokens_lower, hs]
  have := (run_alike thr _ _ ht hc { suffix := origin, lg := d.lg, zone := Zone.init (d.ctx.counter + 1), lint := lint }
    { suffix := origin', lg := d.lg, zone := Zone.init (d.ctx.counter + 1), lint := lint }
    ⟨by unfold lowerS; dsimp only; rw [ho], rfl, by simp⟩).2
  unfold loadZone
  dsimp only
  generalize run thr { suffix := origin, lg := d.lg, zone := Zone.init (d.ctx.counter + 1), lint := lint } (tokens s) = x at this
  generalize run thr { suffix := origin', lg := d.lg, zone := Zone.init (d.ctx.counter + 1), lint := lint } (tokens s') = y at this
  cases x with
  | ok a =>
    cases y with
    | ok b =>
      simp only [Res.ok_bind, Res.ok.injEq, lowerS, PState.mk.injEq] at this
      obtain ⟨h1, h2, -, -, h5, -, h7, h8, h9, h10, h11, h12, h13⟩ := this
      simp only [Res.ok_bind]
      rw [h7, h8, h9, h10, h12, h13]
    | _ => cases this
  | exit => cases y <;> first | rfl | cases this
  | throw => cases y <;> first | rfl | cases this
  | ub => cases y <;> first | rfl | cases this
  | oof => cases y <;> first | rfl | cases this

end Groot
