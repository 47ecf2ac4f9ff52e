import Verif.Lemmas.Numbers
import Verif.Lemmas.File
import Verif.Props.Lexer

/-!
# C85: numbers as TTLs
-/

namespace Groot

open Spec Parser Lexer

/-- **C85** A record line whose TTL has no room in an `int` stops the program, whatever else is in the file. -/
theorem C85_too_large (thr : Nat) (l : Line) (t : Str) (s rest : Str) (h : Line.Standard { l with ttl := none }) (ht : l.ttl = some t)
    (hn : Numeral t) (hv : ¬ Fitting (numeralValue t)) (hs : WordsText (l.owner :: l.afterOwner) s) (st : PState) (h0 : st.paren = 0) (hc : st.cur = []) :
    run thr st (tokens (s ++ '\n' :: rest)) = .throw := by
  obtain ⟨toks, e1, e2, e3⟩ := words_tokens _ s rest hs
  rw [e1, C61_line thr st toks _ _ h0 hc e2.logical rfl (by rw [e3]; simp), e3, e2.eols]
  unfold endOfRecord
  have hnc := h.notControl
  simp only [List.map_cons, List.map_nil, List.mem_cons, List.not_mem_nil, or_false, not_or] at hnc
  dsimp only
  rw [if_neg hnc.1, if_neg hnc.2.1, if_neg hnc.2.2.1, if_neg hnc.2.2.2]
  have hsh : Shaped l := ⟨h.owner, h.notControl, fun t' ht' => by rw [ht] at ht'; cases ht'; exact hn, h.cls, h.type⟩
  have := line_process_throw thr l hsh ht hv { st with line := st.line + 0 + 1 }
  change processRecord thr { st with line := st.line + 0 + 1, cur := l.owner :: l.afterOwner } = _ at this
  rw [this]
  rfl

/-- **C85** `$TTL` followed by a word that begins with a number sets the default TTL to it; if the number has no room in an
`int`, or there is none, the program stops. -/
theorem C85_directive (thr : Nat) (t : Str) (more : List Str) (s rest : Str) (hs : WordsText ("$TTL".toList :: t :: more) s) (st : PState)
    (h0 : st.paren = 0) (hc : st.cur = []) :
    (∀ v, BeginsWith t v → Fitting v →
      run thr st (tokens (s ++ '\n' :: rest)) = run thr { st with line := st.line + 1, defTtl := asTTL v } (tokens rest)) ∧
    (∀ v, BeginsWith t v → ¬ Fitting v → run thr st (tokens (s ++ '\n' :: rest)) = .throw) ∧
    ((¬ ∃ v, BeginsWith t v) → run thr st (tokens (s ++ '\n' :: rest)) = .throw) := by
  obtain ⟨toks, e1, e2, e3⟩ := words_tokens _ s rest hs
  have key : run thr st (tokens (s ++ '\n' :: rest)) =
      stoi t >>= fun v => run thr { st with line := st.line + 1, defTtl := toU32 v } (tokens rest) := by
    rw [e1, C61_line thr st toks _ _ h0 hc e2.logical rfl (by rw [e3]; simp), e3, e2.eols]
    unfold endOfRecord
    dsimp only
    rw [if_neg (by decide), if_neg (by decide), if_pos rfl]
    cases stoi t with
    | ok v =>
      rw [Res.ok_bind, Res.ok_bind, Res.ok_bind]
      rw [if_pos rfl]
      rw [← hc]
    | _ => rfl
  obtain ⟨h1, h2⟩ := stoi_spec t
  refine ⟨fun v hb hf => ?_, fun v hb hf => ?_, fun hn => ?_⟩
  · rw [key, h1 v hb, if_pos hf, Res.ok_bind, toU32_fitting hf]
  · rw [key, h1 v hb, if_neg hf]; rfl
  · rw [key, h2 hn]; rfl

/-- **C85** A record with a word between owner and type that is neither a class nor a number (such as `1h`) is dropped; its owner
(as written) and a TTL before the word become defaults. -/
theorem C85_dropped (thr : Nat) (owner : Str) (pre : List Str) (bad : Str) (post : List Str) (type : Str) (rdata : List Str) (s rest : Str)
    (ho : ¬ LooksLikeType owner) (hnc : owner ∉ ["$ORIGIN", "$INCLUDE", "$TTL", "@"].map String.toList)
    (hz : '\x00' ∉ bad) (hn : ¬ Numeral bad) (hb : ¬ IsClass bad) (hbt : ¬ LooksLikeType bad) (hpt : ∀ w ∈ post, ¬ LooksLikeType w)
    (hp : ∀ w ∈ pre, IsClass w ∨ Numeral w ∧ Fitting (numeralValue w)) (ht : LooksLikeType type) (hl : pre.length + post.length ≤ 1)
    (hs : WordsText (owner :: (pre ++ bad :: post ++ type :: rdata)) s) (st : PState) (h0 : st.paren = 0) (hc : st.cur = []) :
    run thr st (tokens (s ++ '\n' :: rest)) =
      run thr { st with
        line := st.line + 1
        defName := if owner = [] then st.defName else stringToLabels owner
        defTtl := defaultAfter st.defTtl pre } (tokens rest) := by
  obtain ⟨toks, e1, e2, e3⟩ := words_tokens _ s rest hs
  rw [e1, C61_line thr st toks _ _ h0 hc e2.logical rfl (by rw [e3]; simp), e3, e2.eols]
  unfold endOfRecord
  simp only [List.map_cons, List.map_nil, List.mem_cons, List.not_mem_nil, or_false, not_or] at hnc
  dsimp only
  rw [if_neg hnc.1, if_neg hnc.2.1, if_neg hnc.2.2.1, if_neg hnc.2.2.2]
  have := bad_process thr owner pre bad post type rdata ho hz hn hb hbt hpt hp ht hl { st with line := st.line + 0 + 1 }
  rw [this, Res.ok_bind, Res.ok_bind, if_pos rfl, ← hc]
  rfl

/-- A line with a TTL too large, and its text. -/
example : ∃ (l : Line) (t : Str), Line.Standard { l with ttl := none } ∧ l.ttl = some t ∧ Numeral t ∧ ¬ Fitting (numeralValue t) ∧
    WordsText (l.owner :: l.afterOwner) "b 2147483648 A 1".toList := by
  refine ⟨⟨"b".toList, some "2147483648".toList, none, true, "A".toList, ["1".toList]⟩, "2147483648".toList, ⟨by decide +kernel, by decide, ?_, ?_, by decide +kernel⟩, rfl,
    by decide +kernel, by decide +kernel, "b 2147483648 A 1".toList, [], by decide, .inl rfl, .inl ?_⟩
  · intro t ht; cases ht
  · intro t ht; cases ht
  · refine .word "b".toList " ".toList _ _ (by decide) (by decide) (by unfold Blank; decide) (by decide) ?_
    refine .word "2147483648".toList " ".toList _ _ (by decide) (by decide) (by unfold Blank; decide) (by decide) ?_
    refine .word "A".toList " ".toList _ _ (by decide) (by decide) (by unfold Blank; decide) (by decide) ?_
    exact .word "1".toList [] _ _ (by decide) (by decide) (by unfold Blank; decide) (by decide) .nil

/-- `2h` begins with 2, `-1` with -1, and `h2` with no number. -/
example : BeginsWith "2h".toList 2 ∧ BeginsWith "-1".toList (-1) ∧ ¬ ∃ v, BeginsWith "h2".toList v := by
  refine ⟨⟨[], "2".toList, "h".toList, by decide, by simp, by decide +kernel, by decide +kernel, ?_⟩,
    ⟨[], "-1".toList, [], by decide, by simp, by decide +kernel, by decide +kernel, by simp⟩, ?_⟩
  · intro c hc; injection hc with hc; subst hc; decide
  · rintro ⟨v, hv⟩
    have := strtol_begins hv
    revert this
    have : (strtol "h2".toList).1 = none := by decide +kernel
    rw [this]; simp

example : WordsText ["$TTL".toList, "2h".toList] "$TTL 2h".toList := by
  refine ⟨"$TTL 2h".toList, [], by decide, .inl rfl, .inl ?_⟩
  refine .word "$TTL".toList " ".toList _ _ (by decide) (by decide) (by unfold Blank; decide) (by decide) ?_
  exact .word "2h".toList [] _ _ (by decide) (by decide) (by unfold Blank; decide) (by decide) .nil

/-- The boundaries: the largest TTL, the smallest, and the ones beyond. -/
example : recordsRead "x." "x. 2147483647 SOA a\n" = some [⟨["x".toList], .SOA, 1, 2147483647, "a".toList⟩] ∧
    recordsRead "x." "x. -2147483648 SOA a\n" = some [⟨["x".toList], .SOA, 1, 2147483648, "a".toList⟩] ∧
    recordsRead "x." "x. -1 SOA a\n" = some [⟨["x".toList], .SOA, 1, 4294967295, "a".toList⟩] ∧
    recordsRead "x." "x. 2147483648 SOA a\n" = none ∧ recordsRead "x." "x. -2147483649 SOA a\n" = none ∧
    recordsRead "x." "$TTL x\nx. SOA a\n" = none := by decide +kernel

/-- The hypotheses on the words of a dropped line. -/
example : ¬ LooksLikeType "b".toList ∧ ¬ Numeral "1h".toList ∧ ¬ IsClass "1h".toList ∧ ¬ LooksLikeType "1h".toList ∧ IsClass "in".toList ∧
    LooksLikeType "a".toList ∧ WordsText ("b".toList :: ([] ++ "1h".toList :: ["in".toList] ++ "a".toList :: ["1".toList])) "b 1h in a 1".toList := by
  refine ⟨by decide +kernel, by decide +kernel, by decide +kernel, by decide +kernel, by decide +kernel, by decide +kernel,
    "b 1h in a 1".toList, [], by decide, .inl rfl, .inl ?_⟩
  refine .word "b".toList " ".toList _ _ (by decide) (by decide) (by unfold Blank; decide) (by decide) ?_
  refine .word "1h".toList " ".toList _ _ (by decide) (by decide) (by unfold Blank; decide) (by decide) ?_
  refine .word "in".toList " ".toList _ _ (by decide) (by decide) (by unfold Blank; decide) (by decide) ?_
  refine .word "a".toList " ".toList _ _ (by decide) (by decide) (by unfold Blank; decide) (by decide) ?_
  exact .word "1".toList [] _ _ (by decide) (by decide) (by unfold Blank; decide) (by decide) .nil

/-- **C85** (disagreement) A TTL is a number between 0 and 2^31 - 1 (RFC 2181, section 8), yet a negative one is accepted, and
becomes a TTL of more than 68 years. -/
theorem C85_disagreement_negative :
    recordsRead "x." "x. -1 SOA a\n" = some [⟨["x".toList], .SOA, 1, 4294967295, "a".toList⟩] := by decide +kernel

end Groot
