import Verif.Lemmas.RecordLine
import Verif.Spec.Driver

/-!
# C60-C62: tokens, logical lines, record lines
-/

namespace Groot

open Spec Parser Lexer

/-! ## C60 -/

/-- **C60** Every file is cut into tokens by maximal munch, and in no other way: at each point the longest text matched by
any rule, of the rules with that text the first. -/
theorem C60_maximal_munch (s : Str) (ts : List Tok) : tokens s = ts ↔ Munch s ts := tokens_iff s ts

/-- **C60** The texts of the tokens, one after the other, are the file. -/
theorem C60_lossless (s : Str) : ((tokens s).map (·.text)).flatten = s := by
  have h := tokens_munch s
  generalize tokens s = ts at h
  induction h with
  | nil => rfl
  | cons k t rest ts _ _ _ _ ih => rw [List.map_cons, List.flatten_cons, ih]

theorem munch_text {s : Str} {ts : List Tok} (h : Munch s ts) : ∀ t ∈ ts, Text t.id t.text := by
  induction h with
  | nil => intro t ht; cases ht
  | cons k t rest ts h1 _ _ _ ih =>
    intro x hx
    rcases List.mem_cons.mp hx with rfl | hx
    · exact h1
    · exact ih x hx

/-- **C60** Every token has a text its rule describes, and no token is empty. -/
theorem C60_token_texts (s : Str) : ∀ t ∈ tokens s, Text t.id t.text ∧ t.text ≠ [] := fun t ht =>
  ⟨munch_text (tokens_munch s) t ht, text_ne_nil (munch_text (tokens_munch s) t ht)⟩

theorem word_chars {t : Str} (h : Text .WORD t) : ∀ c ∈ t, Ordinary c ∨ c = '(' ∨ c = ')' := by
  obtain ⟨gs, rfl, -, h⟩ := h
  intro c hc
  obtain ⟨g, hg, hc⟩ := List.mem_flatten.mp hc
  obtain ⟨a, b, x, rfl, -, hx⟩ := h g hg
  have tm : ∀ n (l : Str), c ∈ times n l → c ∈ l := by
    intro n l hl
    unfold times at hl
    obtain ⟨y, hy, hc'⟩ := List.mem_flatten.mp hl
    rw [List.eq_of_mem_replicate hy] at hc'
    exact hc'
  rcases List.mem_append.mp hc with hc | hc
  · rcases List.mem_append.mp hc with hc | hc
    · have := tm _ _ hc
      simp at this
      rcases this with rfl | rfl
      · exact .inl plain_backslash
      · exact .inr (.inl rfl)
    · have := tm _ _ hc
      simp at this
      rcases this with rfl | rfl
      · exact .inl plain_backslash
      · exact .inr (.inr rfl)
  · exact .inl (hx c hc)

/-- **C60** A newline is a token of its own, unless it is inside quotes. -/
theorem C60_newline (s : Str) (t : Tok) (ht : t ∈ tokens s) (hn : '\n' ∈ t.text) :
    (t.id = .EOL ∧ t.text = ['\n']) ∨ t.id = .TEXT_WORD := by
  have h := (C60_token_texts s t ht).1
  rcases t with ⟨id, x⟩
  cases id with
  | TEXT_WORD => exact .inr rfl
  | EOL => exact .inl ⟨rfl, h⟩
  | COMMENT =>
    obtain ⟨b, e, -, hb⟩ := h
    dsimp only at e hn
    rw [e] at hn
    rcases List.mem_cons.mp hn with h' | h'
    · cases h'
    · exact absurd h' hb
  | WORD =>
    rcases word_chars h _ hn with h' | h' | h'
    · exact absurd h' (by decide)
    · cases h'
    · cases h'
  | LPAREN =>
    have e : x = ['('] := h
    dsimp only at hn
    rw [e] at hn
    exact absurd hn (by decide)
  | RPAREN =>
    have e : x = [')'] := h
    dsimp only at hn
    rw [e] at hn
    exact absurd hn (by decide)
  | WHITESPACE => exact absurd (h.2 _ hn) (by decide)
  | OTHER =>
    obtain ⟨c, e, hc⟩ := h
    dsimp only at e hn
    rw [e] at hn
    exact absurd (List.mem_singleton.mp hn).symm hc

/-- **C60** In a file without quotes the newline tokens are the newlines. -/
theorem C60_newline_count (s : Str) (hq : '"' ∉ s) : eols (tokens s) = newlines s := by
  have key : ∀ ts : List Tok, (∀ t ∈ ts, (t.id = .EOL ∧ t.text = ['\n']) ∨ t.id ≠ .EOL ∧ '\n' ∉ t.text) →
      eols ts = newlines (ts.map (·.text)).flatten := by
    intro ts
    induction ts with
    | nil => intro _; rfl
    | cons t ts ih =>
      intro h
      have ih := ih (fun x hx => h x (by simp [hx]))
      unfold eols newlines at ih ⊢
      rw [List.map_cons, List.flatten_cons, List.count_append, ← ih, List.countP_cons]
      rcases h t (by simp) with ⟨h1, h2⟩ | ⟨h1, h2⟩
      · rw [h2, if_pos (by simp [h1])]
        simp only [List.count_singleton_self]
        omega
      · rw [if_neg (by simp [h1]), List.count_eq_zero_of_not_mem h2]
        omega
  have := key (tokens s) ?_
  · rw [this, C60_lossless]
  · intro t ht
    have htext := (C60_token_texts s t ht).1
    by_cases hn : '\n' ∈ t.text
    · rcases C60_newline s t ht hn with h | h
      · exact .inl h
      · exfalso
        rw [h] at htext
        obtain ⟨b, e, -⟩ := htext
        apply hq
        rw [← C60_lossless s]
        exact List.mem_flatten.mpr ⟨t.text, List.mem_map_of_mem ht, by rw [e]; simp⟩
    · refine .inr ⟨?_, hn⟩
      intro h
      rw [h] at htext
      have : t.text = ['\n'] := htext
      rw [this] at hn
      exact hn (by simp)

example : tokens "a\\(b 3( \"x\ny\" ;c\n)\n".toList =
    [⟨.WORD, "a\\(b".toList⟩, ⟨.WHITESPACE, " ".toList⟩, ⟨.WORD, "3".toList⟩, ⟨.LPAREN, "(".toList⟩, ⟨.WHITESPACE, " ".toList⟩,
     ⟨.TEXT_WORD, "\"x\ny\"".toList⟩, ⟨.WHITESPACE, " ".toList⟩, ⟨.COMMENT, ";c".toList⟩, ⟨.EOL, "\n".toList⟩, ⟨.RPAREN, ")".toList⟩,
     ⟨.EOL, "\n".toList⟩] := by decide +kernel

/-- **C60** (disagreement) An escaped parenthesis at the end of a word is not part of the word: it is read as a parenthesis. -/
theorem C60_disagreement_escaped_paren : tokens "a\\( b".toList =
    [⟨.WORD, "a\\".toList⟩, ⟨.LPAREN, "(".toList⟩, ⟨.WHITESPACE, " ".toList⟩, ⟨.WORD, "b".toList⟩] := by decide +kernel

/-! ## C61 -/

/-- **C61** The tokens of every file fall into logical lines and an unfinished rest, in exactly one way. -/
theorem C61_split (ts : List Tok) : ∃ ls tail, Split ts ls tail ∧ ∀ ls' tail', Split ts ls' tail' → ls' = ls ∧ tail' = tail := by
  obtain ⟨ls, tail, h⟩ := split_exists ts
  exact ⟨ls, tail, h, fun ls' tail' h' => split_unique h' h⟩

/-- **C61** Parsing a file is handling its logical lines one after the other, each as one record made of the fields of the
line; the unfinished rest changes nothing but the position in the file. -/
theorem C61_lines (thr : Nat) (ts : List Tok) (ls : List (List Tok)) (tail : List Tok) (h : Split ts ls tail) (st : PState)
    (h0 : st.paren = 0) (hc : st.cur = []) :
    ∃ l q c, run thr st ts = processLines thr st ls >>= fun r =>
      .ok (if r.2 then { r.1 with line := r.1.line + l, paren := q, cur := c } else r.1) := by
  obtain ⟨l, q, c, h⟩ := run_split thr ts ls tail h
  exact ⟨l, q, c, h st h0 hc⟩

/-- **C61** One logical line: nothing happens before its newline, then its fields are handled as one record. -/
theorem C61_line (thr : Nat) (st : PState) (l : List Tok) (e : Tok) (rest : List Tok) (h0 : st.paren = 0) (hc : st.cur = [])
    (hl : LogicalLine l) (he : e.id = .EOL) (hf : fields l ≠ []) :
    run thr st (l ++ e :: rest) = endOfRecord thr { st with line := st.line + eols l + 1, cur := fields l } >>= fun r =>
      if r.2 then run thr r.1 rest else .ok r.1 := by
  rw [run_line thr st l e rest h0 hc hl he, if_neg hf]

/-- **C61** A rest without its newline (or with a parenthesis left open) is never handled. -/
theorem C61_unfinished (thr : Nat) (st : PState) (ts : List Tok) (h0 : st.paren = 0) (hc : st.cur = []) (h : Unfinished ts) :
    ∃ st', run thr st ts = .ok st' ∧ st'.zone = st.zone ∧ st'.lg = st.lg ∧ st'.foundSOA = st.foundSOA ∧ st'.issues = st.issues ∧
      st'.rrsParsed = st.rrsParsed := by
  obtain ⟨l, q, c, h⟩ := run_unfinished thr ts [] Ongoing.nil h
  have := h st h0 hc
  rw [assemble_nil] at this
  exact ⟨_, this, rfl, rfl, rfl, rfl, rfl⟩

example : Split (tokens "a ( b\n) c\n\nd".toList) [(tokens "a ( b\n) c".toList), []] (tokens "d".toList) := by
  have h1 : LogicalLine (tokens "a ( b\n) c".toList) := by
    have e : tokens "a ( b\n) c".toList = [⟨.WORD, ['a']⟩, ⟨.WHITESPACE, [' ']⟩, ⟨.LPAREN, ['(']⟩, ⟨.WHITESPACE, [' ']⟩, ⟨.WORD, ['b']⟩, ⟨.EOL, ['\n']⟩] ++
        [⟨.RPAREN, [')']⟩] ++ [⟨.WHITESPACE, [' ']⟩] ++ [⟨.WORD, ['c']⟩] := by decide +kernel
    rw [e, LogicalLine.iff]
    refine ⟨?_, by decide⟩
    refine Ongoing.snoc (Ongoing.snoc (Ongoing.snoc ?_ (by decide) (by decide)) (by decide) (by decide)) (by decide) (by decide)
    exact Ongoing.snoc (p := [⟨.WORD, ['a']⟩, ⟨.WHITESPACE, [' ']⟩, ⟨.LPAREN, ['(']⟩, ⟨.WHITESPACE, [' ']⟩, ⟨.WORD, ['b']⟩])
      (Ongoing.snoc (p := [⟨.WORD, ['a']⟩, ⟨.WHITESPACE, [' ']⟩, ⟨.LPAREN, ['(']⟩, ⟨.WHITESPACE, [' ']⟩])
        (Ongoing.snoc (p := [⟨.WORD, ['a']⟩, ⟨.WHITESPACE, [' ']⟩, ⟨.LPAREN, ['(']⟩])
          (Ongoing.snoc (p := [⟨.WORD, ['a']⟩, ⟨.WHITESPACE, [' ']⟩])
            (Ongoing.snoc (p := [⟨.WORD, ['a']⟩]) (Ongoing.snoc Ongoing.nil (by decide) (by decide)) (by decide) (by decide))
            (by decide) (by decide)) (by decide) (by decide)) (by decide) (by decide)) (by decide) (by decide)
  have e : tokens "a ( b\n) c\n\nd".toList = tokens "a ( b\n) c".toList ++ ⟨.EOL, ['\n']⟩ :: ([] ++ ⟨.EOL, ['\n']⟩ :: tokens "d".toList) := by
    decide +kernel
  rw [e]
  refine .line _ _ _ _ _ h1 rfl (.line _ _ _ _ _ (LogicalLine.iff.mpr ⟨Ongoing.nil, rfl⟩) rfl (.rest _ ?_))
  rintro ⟨l, x, r, e, -, hx⟩
  have e2 : tokens "d".toList = [⟨.WORD, ['d']⟩] := by decide +kernel
  have : x ∈ tokens "d".toList := by rw [e]; simp
  rw [e2] at this
  rw [List.mem_singleton.mp this] at hx
  cases hx

/-- The records of a zone read from a text, with the origin given in the metadata. -/
def recordsRead (origin text : String) : Option (List RR) :=
  match run 500 { suffix := origin.toList, lg := LGraph.init, zone := Zone.init 1 } (tokens text.toList) with
  | .ok st => some (st.zone.g.verts.flatMap (·.data))
  | _ => none

/-- **C61** (disagreement) The last line of a file is ignored if no newline follows it. -/
theorem C61_disagreement_last_line :
    recordsRead "" "x. SOA a\nb.x. A 1\n" = some [⟨["x".toList], .SOA, 1, 0, "a".toList⟩, ⟨["x".toList, "b".toList], .A, 1, 0, "1".toList⟩] ∧
    recordsRead "" "x. SOA a\nb.x. A 1" = some [⟨["x".toList], .SOA, 1, 0, "a".toList⟩] := by
  decide +kernel

/-! ## C62 -/

/-- **C62** A record line of the standard form is read as the record it stands for: that record is offered to the zone
(`addRR`), the defaults change as described, and parsing goes on with the next line. -/
theorem C62_record_line (thr : Nat) (l : Line) (s rest : Str) (h : l.Standard) (ht : l.Text s) (st : PState) (h0 : st.paren = 0)
    (hc : st.cur = []) :
    ∃ fs, run thr st (tokens (s ++ '\n' :: rest)) =
      addRR thr (withDefaults { st with line := st.line + 1, cur := fs } (l.next st.defaults)
        (st.foundSOA || decide (l.owner ≠ [] ∧ toUpper l.type = "SOA".toList))) (l.record st.defaults) >>= fun st' =>
      run thr { st' with cur := [] } (tokens rest) := by
  obtain ⟨toks, e1, e2, e3⟩ := line_tokens l s rest ht
  refine ⟨l.owner :: (l.middle ++ l.type :: l.rdata), ?_⟩
  rw [e1, C61_line thr st toks _ _ h0 hc e2.logical rfl (by rw [e3]; simp), e3, e2.eols]
  unfold endOfRecord
  have hn := h.notControl
  simp only [List.map_cons, List.map_nil, List.mem_cons, List.not_mem_nil, or_false, not_or] at hn
  dsimp only
  rw [if_neg hn.1, if_neg hn.2.1, if_neg hn.2.2.1, if_neg hn.2.2.2]
  have := line_process thr l h { st with line := st.line + 0 + 1 }
  change processRecord thr { st with line := st.line + 0 + 1, cur := _ } = _ at this
  rw [this]
  change (addRR thr (withDefaults { st with line := st.line + 1, cur := _ } (l.next st.defaults) _) (l.record st.defaults) >>= _) >>= _ >>= _ = _
  rcases addRR thr _ (l.record st.defaults) with x | _ | _ | _ | _ <;> rfl

/-- **C62** An owner written `@` is the suffix. -/
theorem C62_at (thr : Nat) (l : Line) (s rest : Str) (h : l.Standard) (st : PState) (h0 : st.paren = 0) (hc : st.cur = [])
    (hs : st.suffix ≠ []) (hl : l.owner = st.suffix) (ht : Line.Text { l with owner := "@".toList } s) :
    ∃ fs, run thr st (tokens (s ++ '\n' :: rest)) =
      addRR thr (withDefaults { st with line := st.line + 1, cur := fs } (l.next st.defaults)
        (st.foundSOA || decide (l.owner ≠ [] ∧ toUpper l.type = "SOA".toList))) (l.record st.defaults) >>= fun st' =>
      run thr { st' with cur := [] } (tokens rest) := by
  obtain ⟨toks, e1, e2, e3⟩ := line_tokens _ s rest ht
  refine ⟨st.suffix :: (l.middle ++ l.type :: l.rdata), ?_⟩
  rw [e1, C61_line thr st toks _ _ h0 hc e2.logical rfl (by rw [e3]; simp), e3, e2.eols]
  unfold endOfRecord
  dsimp only
  rw [if_neg (by decide), if_neg (by decide), if_neg (by decide), if_pos rfl, if_pos (List.length_pos_iff.mpr hs)]
  have hne : l.owner ≠ [] := by rw [hl]; exact hs
  have := line_process thr l h { st with line := st.line + 0 + 1, defName := stringToLabels st.suffix }
  change processRecord thr { st with line := st.line + 0 + 1, defName := stringToLabels st.suffix, cur := _ } = _ at this
  rw [hl] at this
  have hm : Line.middle { l with owner := "@".toList } = l.middle := rfl
  rw [hm, this, hl]
  have en : l.next { st.defaults with owner := stringToLabels st.suffix } = l.next st.defaults := by
    unfold Line.next Line.ownerText Line.suffix Line.ttlValue
    simp [hne]
  have er : l.record { st.defaults with owner := stringToLabels st.suffix } = l.record st.defaults := by
    unfold Line.record Line.ownerText Line.suffix Line.ttlValue
    simp [hne]
  change (addRR thr (withDefaults { st with line := st.line + 1, cur := _ , defName := stringToLabels st.suffix } (l.next { st.defaults with owner := stringToLabels st.suffix }) _) (l.record { st.defaults with owner := stringToLabels st.suffix }) >>= _) >>= _ >>= _ = _
  rw [en, er]
  unfold withDefaults
  dsimp only
  rcases addRR thr _ (l.record st.defaults) with x | _ | _ | _ | _ <;> rfl

/-- A line with TTL, class and a relative target. -/
def sampleLine : Line := ⟨"WWW".toList, some "300".toList, some "in".toList, true, "Cname".toList, ["Host".toList]⟩

example : sampleLine.Standard := by
  refine ⟨by decide +kernel, by decide, ?_, ?_, by decide +kernel⟩
  · intro t ht; cases ht; decide +kernel
  · intro t ht; cases ht; decide +kernel

example : sampleLine.Text "WWW 300\tin Cname Host ;web".toList := by
  refine ⟨"WWW 300\tin Cname Host ".toList, ";web".toList, by decide, .inr ⟨"web".toList, by decide, by decide⟩, ?_⟩
  rw [if_neg (by decide)]
  refine .word "WWW".toList " ".toList _ _ (by decide) (by decide) (by unfold Blank; decide) (by decide) ?_
  refine .word "300".toList "\t".toList _ _ (by decide) (by decide) (by unfold Blank; decide) (by decide) ?_
  refine .word "in".toList " ".toList _ _ (by decide) (by decide) (by unfold Blank; decide) (by decide) ?_
  refine .word "Cname".toList " ".toList _ _ (by decide) (by decide) (by unfold Blank; decide) (by decide) ?_
  exact .word "Host".toList " ".toList _ _ (by decide) (by decide) (by unfold Blank; decide) (by decide) .nil

example : sampleLine.record ⟨"X.org.".toList, [], 0⟩ =
    ⟨["org".toList, "x".toList, "www".toList], .CNAME, 1, 300, "host.x.org.".toList⟩ := by decide +kernel

/-- **C62** (disagreement) An owner spelt like a record type is taken for the type: the line below is read as an NS record
of the previous owner. -/
theorem C62_disagreement_owner :
    recordsRead "x." "x. SOA a\nns IN A 1\n" =
      some [⟨["x".toList], .SOA, 1, 0, "a".toList⟩, ⟨["x".toList], .NS, 1, 0, "in a 1.x.".toList⟩] := by
  decide +kernel

/-- **C62** (disagreement) TTLs with units: a record with one is dropped, and in `$TTL` the unit is ignored. -/
theorem C62_disagreement_units :
    recordsRead "x." "x. SOA a\nb 1h IN A 1\n" = some [⟨["x".toList], .SOA, 1, 0, "a".toList⟩] ∧
    recordsRead "x." "$TTL 2h\nx. SOA a\n" = some [⟨["x".toList], .SOA, 1, 2, "a".toList⟩] := by
  decide +kernel

/-- **C62** (disagreement) A name of a target that is relative is completed even if it is `@`. -/
theorem C62_disagreement_at_target :
    recordsRead "x." "x. SOA a\nb CNAME @\n" = some [⟨["x".toList], .SOA, 1, 0, "a".toList⟩, ⟨["x".toList, "b".toList], .CNAME, 1, 0, "@.x.".toList⟩] := by
  decide +kernel

end Groot
