import Verif.Lemmas.LineText
import Verif.Props.Names

/-! # From fields to records -/

namespace Groot

open Spec Parser

theorem looksLike_iff (f : Str) : isTypeField f = true ↔ LooksLikeType f := by
  have len : ∀ m ∈ typeNames, m.length < 6 := by decide
  unfold isTypeField LooksLikeType
  rw [Bool.and_eq_true, decide_eq_true_eq, List.contains_iff_mem]
  have hl : (toUpper f).length = f.length := by simp [toUpper]
  constructor
  · rintro ⟨-, h⟩
    have : ∀ m ∈ typeNames, m ∈ ("DS".toList :: RRType.supported.filterMap (fun t => (mnemonic t).map String.toList)) := by decide
    exact this _ h
  · intro h
    have : ∀ m ∈ ("DS".toList :: RRType.supported.filterMap (fun t => (mnemonic t).map String.toList)), m ∈ typeNames := by decide
    have h := this _ h
    exact ⟨by rw [← hl]; exact len _ h, h⟩

theorem digit_facts (c : Char) (h1 : '0' ≤ c) (h2 : c ≤ '9') :
    isDigit c = true ∧ isSpace c = false ∧ c ≠ '-' ∧ c ≠ '+' ∧ c ≠ '\x00' ∧ upperChar c = c := by
  have h1' : 48 ≤ c.toNat := h1
  have h2' : c.toNat ≤ 57 := h2
  have ne : ∀ d : Char, (d.toNat < 48 ∨ 57 < d.toNat) → c ≠ d := by rintro d hd rfl; omega
  refine ⟨?_, ?_, ne _ (by decide), ne _ (by decide), ne _ (by decide), ?_⟩
  · unfold isDigit; simp [h1, h2]
  · unfold isSpace
    simp [ne ' ' (by decide), ne '\t' (by decide), ne '\n' (by decide), ne '\x0b' (by decide), ne '\x0c' (by decide), ne '\r' (by decide)]
  · unfold upperChar
    rw [if_neg]
    rintro ⟨h, -⟩
    have : 97 ≤ c.toNat := h
    omega

theorem decimal_eq (s : Str) : digitsVal s = decimal s := by
  unfold digitsVal decimal
  congr 1
  funext n c
  rw [Nat.mul_comm]
  rfl

theorem sign_facts (t : Str) : (∃ ds, t = '-' :: ds ∧ unsigned t = ds) ∨ (∃ ds, t = '+' :: ds ∧ unsigned t = ds) ∨
    (unsigned t = t ∧ t.head? ≠ some '-' ∧ t.head? ≠ some '+') := by
  unfold unsigned
  split
  · exact .inl ⟨_, rfl, rfl⟩
  · exact .inr (.inl ⟨_, rfl, rfl⟩)
  · rename_i h1 h2
    refine .inr (.inr ⟨rfl, ?_, ?_⟩)
    · intro h
      cases t with
      | nil => cases h
      | cons c t => injection h with h; exact h1 _ (by rw [h])
    · intro h
      cases t with
      | nil => cases h
      | cons c t => injection h with h; exact h2 _ (by rw [h])

theorem afterSign_eq (t : Str) : afterSign t = unsigned t := by
  rcases t with _ | ⟨c, t⟩
  · rfl
  · unfold afterSign unsigned
    rfl

theorem head_unsigned {t : Str} (h : t.head? ≠ some '-') (h' : t.head? ≠ some '+') : unsigned t = t := by
  rcases sign_facts t with ⟨ds, rfl, -⟩ | ⟨ds, rfl, -⟩ | h
  · exact absurd rfl h
  · exact absurd rfl h'
  · exact h.1

/-- The first character of a numeral. -/
theorem numeral_head {t : Str} (h : Numeral t) : ∃ c t', t = c :: t' ∧ ((c = '-' ∨ c = '+') ∨ '0' ≤ c ∧ c ≤ '9') := by
  rcases sign_facts t with ⟨ds, rfl, -⟩ | ⟨ds, rfl, -⟩ | ⟨h1, -⟩
  · exact ⟨_, _, rfl, .inl (.inl rfl)⟩
  · exact ⟨_, _, rfl, .inl (.inr rfl)⟩
  · unfold Numeral at h
    rw [h1] at h
    obtain ⟨c, t', rfl⟩ := List.exists_cons_of_ne_nil h.1
    exact ⟨c, t', rfl, .inr (h.2 c (by simp))⟩

/-- A numeral has no NUL and does not start with a space. -/
theorem numeral_clean {t : Str} (h : Numeral t) : t.takeWhile (· != '\x00') = t ∧ t.dropWhile isSpace = t := by
  have hz : ∀ c ∈ t, c ≠ '\x00' := by
    intro c hc
    rcases sign_facts t with ⟨ds, rfl, e⟩ | ⟨ds, rfl, e⟩ | ⟨e, -⟩ <;> unfold Numeral at h <;> rw [e] at h
    · rcases List.mem_cons.mp hc with rfl | hc
      · decide
      · exact (digit_facts c (h.2 c hc).1 (h.2 c hc).2).2.2.2.2.1
    · rcases List.mem_cons.mp hc with rfl | hc
      · decide
      · exact (digit_facts c (h.2 c hc).1 (h.2 c hc).2).2.2.2.2.1
    · exact (digit_facts c (h.2 c hc).1 (h.2 c hc).2).2.2.2.2.1
  refine ⟨by rw [List.takeWhile_eq_self_iff]; intro x hx; simpa using hz x hx, ?_⟩
  obtain ⟨c, t', rfl, hc⟩ := numeral_head h
  rw [List.dropWhile_cons_of_neg]
  rcases hc with (rfl | rfl) | hc
  · decide
  · decide
  · rw [(digit_facts c hc.1 hc.2).2.1]; simp

/-- A numeral is read as the number it stands for. -/
theorem strtol_numeral {t : Str} (h : Numeral t) : strtol t = (some (numeralValue t), []) := by
  obtain ⟨h1, h2⟩ := numeral_clean h
  have e3 : (unsigned t).takeWhile isDigit = unsigned t := by
    rw [List.takeWhile_eq_self_iff]
    intro x hx
    exact (digit_facts x (h.2 x hx).1 (h.2 x hx).2).1
  have e4 : (unsigned t).dropWhile isDigit = [] := by
    rw [List.dropWhile_eq_nil_iff]
    intro x hx
    exact (digit_facts x (h.2 x hx).1 (h.2 x hx).2).1
  unfold strtol
  dsimp only
  rw [h1, h2, afterSign_eq, e3, e4, if_neg (by rw [List.isEmpty_iff]; exact h.1), decimal_eq]
  rfl

theorem isInteger_numeral {t : Str} (h : Numeral t) : isInteger t = true := by
  unfold isInteger
  rw [strtol_numeral h]
  obtain ⟨c, t', rfl, hc⟩ := numeral_head h
  rcases hc with (rfl | rfl) | hc
  · rfl
  · rfl
  · simp [(digit_facts c hc.1 hc.2).1]

/-- Words taken for integers are numerals. -/
theorem numeral_of_isInteger {t : Str} (hz : '\x00' ∉ t) (h : isInteger t = true) : Numeral t := by
  unfold isInteger at h
  rcases t with _ | ⟨c, t⟩
  · cases h
  · dsimp only at h
    rw [Bool.and_eq_true, List.isEmpty_iff] at h
    obtain ⟨hc, hr⟩ := h
    have h1 : (c :: t).takeWhile (· != '\x00') = c :: t := by
      rw [List.takeWhile_eq_self_iff]
      intro x hx
      simp only [bne_iff_ne, ne_eq]
      rintro rfl
      exact hz hx
    have hs : isSpace c = false := by
      rw [Bool.or_eq_true, Bool.or_eq_true, beq_iff_eq, beq_iff_eq] at hc
      rcases hc with (hc | rfl) | rfl
      · unfold isDigit at hc
        rw [Bool.and_eq_true, decide_eq_true_eq, decide_eq_true_eq] at hc
        exact (digit_facts c hc.1 hc.2).2.1
      · decide
      · decide
    have h2 : (c :: t).dropWhile isSpace = c :: t := by rw [List.dropWhile_cons_of_neg (by simp [hs])]
    unfold strtol at hr
    dsimp only at hr
    rw [h1, h2, afterSign_eq] at hr
    by_cases he : ((unsigned (c :: t)).takeWhile isDigit).isEmpty = true
    · rw [if_pos he] at hr; cases hr
    · rw [if_neg he] at hr
      dsimp only at hr
      rw [List.dropWhile_eq_nil_iff] at hr
      refine ⟨fun e => he (by rw [e]; rfl), fun x hx => ?_⟩
      have := hr x hx
      unfold isDigit at this
      rw [Bool.and_eq_true, decide_eq_true_eq, decide_eq_true_eq] at this
      exact this

theorem stoi_numeral {t : Str} (h : Numeral t) (hv : Fitting (numeralValue t)) : stoi t = .ok (numeralValue t) := by
  unfold stoi
  rw [strtol_numeral h]
  exact if_pos hv

theorem stoi_unfitting {t : Str} (h : Numeral t) (hv : ¬ Fitting (numeralValue t)) : stoi t = .throw := by
  unfold stoi
  rw [strtol_numeral h]
  exact if_neg hv

theorem toU32_fitting {v : Int} (h : Fitting v) : toU32 v = asTTL v := by
  unfold Fitting at h
  unfold toU32 asTTL
  split
  · rw [← Int.add_emod_left, Int.emod_eq_of_lt (by omega) (by omega)]
  · rw [Int.emod_eq_of_lt (by omega) (by omega)]

theorem numeral_upper {t : Str} (h : Numeral t) (s : String) (c0 : Char) (r : Str) (hs : toUpper s.toList = c0 :: r)
    (hc : 57 < c0.toNat) : iequals t s = false := by
  obtain ⟨c, t', rfl, hcc⟩ := numeral_head h
  have hu : upperChar c = c ∧ c.toNat ≤ 57 := by
    rcases hcc with (rfl | rfl) | hcc
    · decide
    · decide
    · exact ⟨(digit_facts c hcc.1 hcc.2).2.2.2.2.2, hcc.2⟩
  unfold iequals
  rw [hs, beq_eq_false_iff_ne]
  intro e
  unfold toUpper at e
  rw [List.map_cons, hu.1] at e
  injection e with e _
  have h2 := hu.2
  rw [e] at h2
  omega

section fieldLoop

theorem fieldLoop_rdata (ti : Nat) (rd : List Str) (i : Nat) (f : FState) (h : ti < i) :
    fieldLoop ti i rd f = .ok ({ f with rdata := f.rdata ++ (rd.map (fun x => x ++ [' '])).flatten }, true) := by
  induction rd generalizing i f with
  | nil => simp [fieldLoop]
  | cons x rd ih =>
    unfold fieldLoop
    rw [if_pos h, ih _ _ (by omega)]
    simp

theorem fieldLoop_type (ti : Nat) (t : Str) (rest : List Str) (f : FState) :
    fieldLoop ti ti (t :: rest) f = fieldLoop ti (ti + 1) rest f := by
  rw [fieldLoop, if_neg (Nat.lt_irrefl _), if_neg (Nat.lt_irrefl _)]

theorem fieldLoop_owner (ti : Nat) (o : Str) (rest : List Str) (f : FState) (h : 0 < ti) :
    fieldLoop ti 0 (o :: rest) f =
      fieldLoop ti 1 rest (if o = [] then f else { f with name := o, defName := stringToLabels o }) := by
  rw [fieldLoop, if_neg (by omega), if_pos h, if_pos rfl]
  cases o <;> simp

theorem fieldLoop_cls (ti i : Nat) (c : Str) (rest : List Str) (f : FState) (h : i < ti) (h0 : 0 < i)
    (hc : toUpper c = "IN".toList ∨ toUpper c = "CH".toList) :
    fieldLoop ti i (c :: rest) f = fieldLoop ti (i + 1) rest { f with cls := if toUpper c = "CH".toList then 3 else 1 } := by
  rw [fieldLoop, if_neg (by omega), if_pos h, if_neg (by omega)]
  have u1 : toUpper "CH".toList = "CH".toList := by decide
  have u2 : toUpper "IN".toList = "IN".toList := by decide
  by_cases hch : toUpper c = "CH".toList
  · rw [if_pos (by unfold iequals; rw [u1, hch]; exact beq_self_eq_true _), if_pos hch]
  · have hin := hc.resolve_right hch
    rw [if_neg (by unfold iequals; rw [u1]; simpa using hch), if_pos (by unfold iequals; rw [u2, hin]; exact beq_self_eq_true _), if_neg hch]

theorem fieldLoop_number (ti i : Nat) (t : Str) (rest : List Str) (f : FState) (h : i < ti) (h0 : 0 < i) (hn : Numeral t) :
    fieldLoop ti i (t :: rest) f = stoi t >>= fun v =>
      fieldLoop ti (i + 1) rest { f with ttl := toU32 v, defTtl := if f.defTtl = 0 then toU32 v else f.defTtl } := by
  rw [fieldLoop, if_neg (by omega), if_pos h, if_neg (by omega)]
  rw [if_neg (by rw [numeral_upper hn "CH" 'C' ['H'] (by decide) (by decide)]; simp),
    if_neg (by rw [numeral_upper hn "IN" 'I' ['N'] (by decide) (by decide)]; simp),
    if_pos (isInteger_numeral hn)]

theorem fieldLoop_ttl (ti i : Nat) (t : Str) (rest : List Str) (f : FState) (h : i < ti) (h0 : 0 < i)
    (hn : Numeral t) (hv : Fitting (numeralValue t)) :
    fieldLoop ti i (t :: rest) f =
      fieldLoop ti (i + 1) rest { f with ttl := asTTL (numeralValue t), defTtl := if f.defTtl = 0 then asTTL (numeralValue t) else f.defTtl } := by
  rw [fieldLoop_number ti i t rest f h h0 hn, stoi_numeral hn hv, Res.ok_bind, toU32_fitting hv]

/-- A word that is neither class nor number ends the record. -/
theorem fieldLoop_bad (ti i : Nat) (t : Str) (rest : List Str) (f : FState) (h : i < ti) (h0 : 0 < i) (hz : '\x00' ∉ t)
    (hn : ¬ Numeral t) (hc : ¬ (toUpper t = "IN".toList ∨ toUpper t = "CH".toList)) : fieldLoop ti i (t :: rest) f = .ok (f, false) := by
  rw [fieldLoop, if_neg (by omega), if_pos h, if_neg (by omega)]
  have u1 : toUpper "CH".toList = "CH".toList := by decide
  have u2 : toUpper "IN".toList = "IN".toList := by decide
  rw [not_or] at hc
  rw [if_neg (by unfold iequals; rw [u1]; simpa using hc.2), if_neg (by unfold iequals; rw [u2]; simpa using hc.1),
    if_neg (fun h => hn (numeral_of_isInteger hz h))]

end fieldLoop

theorem flatten_dropLast (rd : List Str) : ((rd.map (fun x => x ++ [' '])).flatten).dropLast = List.intercalate [' '] rd := by
  unfold List.intercalate
  induction rd with
  | nil => rfl
  | cons x rd ih =>
    cases rd with
    | nil => simp
    | cons y rd =>
      rw [List.intersperse_cons_cons, List.flatten_cons, List.flatten_cons, ← ih, List.map_cons, List.flatten_cons]
      rw [List.dropLast_append_of_ne_nil]
      · simp
      · simp

/-- A record line of standard form, save for the size of the TTL. -/
structure Shaped (l : Line) : Prop where
  owner : ¬ LooksLikeType l.owner
  notControl : l.owner ∉ ["$ORIGIN", "$INCLUDE", "$TTL", "@"].map String.toList
  ttl : ∀ t, l.ttl = some t → Numeral t
  cls : ∀ c, l.cls = some c → toUpper c = "IN".toList ∨ toUpper c = "CH".toList
  type : LooksLikeType l.type

theorem Spec.Line.Standard.shaped {l : Line} (h : l.Standard) : Shaped l := ⟨h.owner, h.notControl, fun t ht => (h.ttl t ht).1, h.cls, h.type⟩

theorem numeral_not_type {t : Str} (h : Numeral t) : isTypeField t = false := by
  rw [Bool.eq_false_iff, Ne, looksLike_iff]
  intro hl
  obtain ⟨c, t', rfl, hcc⟩ := numeral_head h
  have hu : upperChar c = c ∧ c.toNat ≤ 57 := by
    rcases hcc with (rfl | rfl) | hcc
    · decide
    · decide
    · exact ⟨(digit_facts c hcc.1 hcc.2).2.2.2.2.2, hcc.2⟩
  unfold LooksLikeType toUpper at hl
  rw [List.map_cons, hu.1] at hl
  have : ∀ m ∈ ("DS".toList :: RRType.supported.filterMap (fun t => (mnemonic t).map String.toList)), ∀ x, m.head? = some x → 57 < x.toNat := by
    decide
  have := this _ hl c rfl
  have h2 := hu.2
  omega

theorem middle_not_type (l : Line) (h : Shaped l) : ∀ f ∈ l.middle, isTypeField f = false := by
  have t1 : ∀ t, l.ttl = some t → isTypeField t = false := fun t ht => numeral_not_type (h.ttl t ht)
  have t2 : ∀ c, l.cls = some c → isTypeField c = false := by
    intro c hc
    rw [Bool.eq_false_iff, Ne, looksLike_iff]
    unfold LooksLikeType
    rcases h.cls c hc with e | e <;> rw [e] <;> decide
  intro f hf
  unfold Line.middle at hf
  have : l.ttl = some f ∨ l.cls = some f := by
    split at hf <;> rcases List.mem_append.mp hf with hf | hf <;> simp at hf <;> tauto
  rcases this with h | h
  · exact t1 f h
  · exact t2 f h

theorem line_typeIndex (l : Line) (h : Shaped l) :
    typeIndex (l.owner :: (l.middle ++ l.type :: l.rdata)) = some (l.middle.length + 1) := by
  unfold typeIndex
  rw [List.findIdx?_cons]
  have ho : isTypeField l.owner = false := by
    rw [Bool.eq_false_iff, Ne, looksLike_iff]
    exact h.owner
  rw [ho, if_neg (by simp), List.findIdx?_append]
  have hm : List.findIdx? isTypeField l.middle = none := List.findIdx?_eq_none_iff.mpr (middle_not_type l h)
  rw [hm, List.findIdx?_cons, if_pos ((looksLike_iff _).mpr h.type)]
  simp

/-- The fields of a standard line as the parser sees them. -/
def lineState (l : Line) (d : Defaults) : FState where
  name := l.owner
  rdata := (l.rdata.map (fun x => x ++ [' '])).flatten
  cls := if l.cls.map toUpper = some "CH".toList then 3 else 1
  ttl := l.ttlValue d
  defName := if l.owner = [] then d.owner else stringToLabels l.owner
  defTtl := if d.ttl = 0 then l.ttlValue d else d.ttl

theorem line_fieldLoop (l : Line) (h : l.Standard) (d : Defaults) :
    fieldLoop (l.middle.length + 1) 0 (l.owner :: (l.middle ++ l.type :: l.rdata)) { ttl := d.ttl, defName := d.owner, defTtl := d.ttl } =
      .ok (lineState l d, true) := by
  rw [fieldLoop_owner _ _ _ _ (by omega)]
  have e0 : (if l.owner = [] then ({ ttl := d.ttl, defName := d.owner, defTtl := d.ttl } : FState)
      else { name := l.owner, ttl := d.ttl, defName := stringToLabels l.owner, defTtl := d.ttl }) =
      { name := l.owner, ttl := d.ttl, defName := if l.owner = [] then d.owner else stringToLabels l.owner, defTtl := d.ttl } := by
    by_cases ho : l.owner = []
    · rw [if_pos ho, if_pos ho, ho]
    · rw [if_neg ho, if_neg ho]
  rw [e0]
  have hz : (if d.ttl = 0 then d.ttl else d.ttl) = d.ttl := by split <;> rfl
  have hcl := h.cls
  have htt := h.ttl
  unfold lineState Line.ttlValue Line.middle
  rcases l with ⟨o, t, c, b, ty, rd⟩
  dsimp only at hcl htt ⊢
  generalize (if o = [] then d.owner else stringToLabels o) = dn
  rcases t with _ | t <;> rcases c with _ | c
  · rcases b <;> simp only [Option.toList_none, List.append_nil, List.nil_append, List.length_nil, if_true, if_false, Bool.false_eq_true] <;>
      rw [fieldLoop_type, fieldLoop_rdata _ _ _ _ (by omega)] <;> simp
  · have hc := hcl c rfl
    rcases b <;> simp only [Option.toList_none, Option.toList_some, List.append_nil, List.nil_append, List.length_cons, List.length_nil,
        if_true, if_false, Bool.false_eq_true, List.cons_append] <;>
      rw [fieldLoop_cls _ _ _ _ _ (by omega) (by omega) hc, fieldLoop_type, fieldLoop_rdata _ _ _ _ (by omega)] <;> simp
  · obtain ⟨h1, h2⟩ := htt t rfl
    rcases b <;> simp only [Option.toList_none, Option.toList_some, List.append_nil, List.nil_append, List.length_cons, List.length_nil,
        if_true, if_false, Bool.false_eq_true, List.cons_append] <;>
      rw [fieldLoop_ttl _ _ _ _ _ (by omega) (by omega) h1 h2, fieldLoop_type, fieldLoop_rdata _ _ _ _ (by omega)] <;> simp
  · have hc := hcl c rfl
    obtain ⟨h1, h2⟩ := htt t rfl
    rcases b <;> simp only [Option.toList_some, List.append_nil, List.nil_append, List.length_cons, List.length_nil,
        if_true, if_false, Bool.false_eq_true, List.cons_append]
    · rw [fieldLoop_cls _ _ _ _ _ (by omega) (by omega) hc, fieldLoop_ttl _ _ _ _ _ (by omega) (by omega) h1 h2, fieldLoop_type,
        fieldLoop_rdata _ _ _ _ (by omega)]
      simp
    · rw [fieldLoop_ttl _ _ _ _ _ (by omega) (by omega) h1 h2, fieldLoop_cls _ _ _ _ _ (by omega) (by omega) hc, fieldLoop_type,
        fieldLoop_rdata _ _ _ _ (by omega)]
      simp

/-- The defaults of a parser state. -/
def Parser.PState.defaults (st : PState) : Defaults := ⟨st.suffix, st.defName, st.defTtl⟩

/-- The state with other defaults, after having found an SOA record or not. -/
def withDefaults (st : PState) (d : Defaults) (soa : Bool) : PState :=
  { st with suffix := d.suffix, defName := d.owner, defTtl := d.ttl, foundSOA := soa }

theorem endsDot_iff (s : Str) : endsDot s = true ↔ s.getLast? = some '.' := by
  unfold endsDot
  rw [beq_iff_eq]

theorem present_endsDot (n : Name) : (present n).getLast? = some '.' := by
  unfold present
  split
  · rfl
  · rename_i h
    obtain ⟨l, n', rfl⟩ := List.exists_cons_of_ne_nil h
    simp

theorem line_complete (l : Line) (st : PState) :
    complete st (toUpper l.type) (lineState l st.defaults) =
      (withDefaults st (l.next st.defaults) (st.foundSOA || decide (l.owner ≠ [] ∧ toUpper l.type = "SOA".toList)), l.record st.defaults) := by
  have habs : ∀ suffix s : Str, (if (!endsDot s) = true then s ++ ['.'] ++ suffix else s) = absolute suffix s := by
    intro suffix s
    unfold absolute
    by_cases h : s.getLast? = some '.'
    · rw [if_pos h, (endsDot_iff s).mpr h]; rfl
    · rw [if_neg h, if_pos]
      rw [Bool.not_eq_true', Bool.eq_false_iff, Ne, endsDot_iff]
      exact h
  have hrd : ∀ suffix : Str, (if (toUpper l.type = "NS".toList ∨ toUpper l.type = "CNAME".toList ∨ toUpper l.type = "DNAME".toList ∨
      toUpper l.type = "MX".toList) ∧ (!endsDot (List.intercalate [' '] l.rdata)) = true then List.intercalate [' '] l.rdata ++ ['.'] ++ suffix
      else List.intercalate [' '] l.rdata) =
      if toUpper l.type ∈ ["NS", "CNAME", "DNAME", "MX"].map String.toList then absolute suffix (List.intercalate [' '] l.rdata)
      else List.intercalate [' '] l.rdata := by
    intro suffix
    have hm : toUpper l.type ∈ ["NS", "CNAME", "DNAME", "MX"].map String.toList ↔ (toUpper l.type = "NS".toList ∨ toUpper l.type = "CNAME".toList ∨
        toUpper l.type = "DNAME".toList ∨ toUpper l.type = "MX".toList) := by
      simp only [List.map_cons, List.map_nil, List.mem_cons, List.not_mem_nil, or_false]
    by_cases h : toUpper l.type = "NS".toList ∨ toUpper l.type = "CNAME".toList ∨ toUpper l.type = "DNAME".toList ∨ toUpper l.type = "MX".toList
    · rw [if_pos (hm.mpr h), ← habs]
      by_cases h2 : (!endsDot (List.intercalate [' '] l.rdata)) = true
      · rw [if_pos ⟨h, h2⟩, if_pos h2]
      · rw [if_neg (fun h3 => h2 h3.2), if_neg h2]
    · rw [if_neg (fun h3 => h h3.1), if_neg (fun h3 => h (hm.mp h3))]
  unfold complete
  dsimp only
  have hdl : (lineState l st.defaults).rdata.dropLast = List.intercalate [' '] l.rdata := flatten_dropLast l.rdata
  rw [hdl]
  by_cases ho : l.owner = []
  · have hname : (lineState l st.defaults).name.length = 0 := by
      show l.owner.length = 0
      rw [ho]; rfl
    have hdn : (lineState l st.defaults).defName = st.defName := by
      show (if l.owner = [] then _ else _) = _
      rw [if_pos ho]; rfl
    have hot : l.ownerText st.defaults = present st.defName := by
      unfold Line.ownerText; rw [if_pos ho]; rfl
    have hsx : l.suffix st.defaults = st.suffix := by
      unfold Line.suffix; rw [if_neg (by rintro ⟨-, h, -⟩; exact h ho)]; rfl
    rw [if_pos hname, hdn, labelsToString_eq]
    dsimp only
    have hed : endsDot (present st.defName) = true := (endsDot_iff _).mpr (present_endsDot _)
    rw [hed]
    simp only [Bool.not_true, Bool.false_eq_true, if_false]
    rw [hrd]
    have hab : absolute st.suffix (present st.defName) = present st.defName := by
      unfold absolute; rw [if_pos (present_endsDot _)]
    ext1
    · unfold withDefaults Line.next
      rw [hot, if_pos (present_endsDot _), if_pos ho, hsx]
      simp [ho, lineState, PState.defaults]
    · unfold Line.record mkRR
      rw [hot, hsx, hab]
      rfl
  · have hname : ¬ (lineState l st.defaults).name.length = 0 := by
      show ¬ l.owner.length = 0
      rwa [List.length_eq_zero_iff]
    have hdn : (lineState l st.defaults).defName = stringToLabels l.owner := by
      show (if l.owner = [] then _ else _) = _
      rw [if_neg ho]
    have hnm : (lineState l st.defaults).name = l.owner := rfl
    have hot : l.ownerText st.defaults = l.owner := by
      unfold Line.ownerText; rw [if_neg ho]
    rw [if_neg hname, hdn, hnm]
    by_cases hsoa : toUpper l.type = "SOA".toList
    · have hsx : l.suffix st.defaults = if st.suffix.length = 0 then l.owner else st.suffix := by
        unfold Line.suffix
        by_cases hs : st.suffix = []
        · rw [if_pos ⟨hsoa, ho, hs⟩, if_pos (by rw [hs]; rfl)]
        · rw [if_neg (fun h => hs h.2.2), if_neg (by rwa [List.length_eq_zero_iff])]; rfl
      rw [if_pos hsoa]
      dsimp only
      rw [← hsx]
      by_cases hed : endsDot l.owner = true
      · have hg := (endsDot_iff _).mp hed
        rw [hed]
        simp only [Bool.not_true, Bool.false_eq_true, if_false]
        rw [hrd]
        have hab : absolute (l.suffix st.defaults) l.owner = l.owner := by unfold absolute; rw [if_pos hg]
        ext1
        · unfold withDefaults Line.next
          rw [hot, if_pos hg, if_neg ho]
          simp [ho, lineState, hsoa, PState.defaults]
        · unfold Line.record mkRR
          rw [hot, hab]
          rfl
      · have hg : ¬ l.owner.getLast? = some '.' := fun h => hed ((endsDot_iff _).mpr h)
        rw [Bool.eq_false_iff.mpr hed]
        simp only [Bool.not_false, if_true]
        rw [hrd]
        have hab : absolute (l.suffix st.defaults) l.owner = l.owner ++ ['.'] ++ l.suffix st.defaults := by unfold absolute; rw [if_neg hg]
        ext1
        · unfold withDefaults Line.next
          rw [hot, if_neg hg, hab]
          simp [ho, lineState, hsoa, PState.defaults]
        · unfold Line.record mkRR
          rw [hot, hab]
          rfl
    · have hsx : l.suffix st.defaults = st.suffix := by
        unfold Line.suffix; rw [if_neg (fun h => hsoa h.1)]; rfl
      have hd : decide (l.owner ≠ [] ∧ toUpper l.type = "SOA".toList) = false := decide_eq_false (fun h => hsoa h.2)
      rw [if_neg hsoa]
      dsimp only
      by_cases hed : endsDot l.owner = true
      · have hg := (endsDot_iff _).mp hed
        rw [hed]
        simp only [Bool.not_true, Bool.false_eq_true, if_false]
        rw [hrd]
        have hab : absolute (l.suffix st.defaults) l.owner = l.owner := by unfold absolute; rw [if_pos hg]
        ext1
        · unfold withDefaults Line.next
          rw [hot, if_pos hg, if_neg ho, hsx, hd, Bool.or_false]
          simp [lineState, PState.defaults]
        · unfold Line.record mkRR
          rw [hot, hab, hsx]
          rfl
      · have hg : ¬ l.owner.getLast? = some '.' := fun h => hed ((endsDot_iff _).mpr h)
        rw [Bool.eq_false_iff.mpr hed]
        simp only [Bool.not_false, if_true]
        rw [hrd]
        have hab : absolute (l.suffix st.defaults) l.owner = l.owner ++ ['.'] ++ l.suffix st.defaults := by unfold absolute; rw [if_neg hg]
        ext1
        · unfold withDefaults Line.next
          rw [hot, if_neg hg, hab, hsx, hd, Bool.or_false]
          simp [lineState, PState.defaults]
        · unfold Line.record mkRR
          rw [hot, hab, hsx]
          rfl

theorem line_process (thr : Nat) (l : Line) (h : l.Standard) (st : PState) :
    processRecord thr { st with cur := l.owner :: (l.middle ++ l.type :: l.rdata) } =
      addRR thr (withDefaults { st with cur := l.owner :: (l.middle ++ l.type :: l.rdata) } (l.next st.defaults)
        (st.foundSOA || decide (l.owner ≠ [] ∧ toUpper l.type = "SOA".toList))) (l.record st.defaults) >>= fun st' =>
        .ok { st' with cur := [] } := by
  unfold processRecord
  dsimp only
  rw [line_typeIndex l h.shaped]
  dsimp only
  have hlen : l.middle.length ≤ 2 := by
    unfold Line.middle
    rcases l.ttl with _ | _ <;> rcases l.cls with _ | _ <;> split <;> simp
  rw [if_neg (by omega)]
  have hf := line_fieldLoop l h st.defaults
  change fieldLoop _ _ _ { ttl := st.defTtl, defName := st.defName, defTtl := st.defTtl } = _ at hf
  rw [hf, Res.ok_bind]
  dsimp only
  rw [if_neg (by simp)]
  have hty : (l.owner :: (l.middle ++ l.type :: l.rdata)).getD (l.middle.length + 1) [] = l.type := by
    rw [List.getD_cons_succ, List.getD_eq_getElem?_getD, List.getElem?_append_right (Nat.le_refl _)]
    simp
  rw [hty]
  have hc := line_complete l { st with cur := l.owner :: (l.middle ++ l.type :: l.rdata) }
  change complete _ _ (lineState l st.defaults) = (withDefaults _ (l.next st.defaults) _, l.record st.defaults) at hc
  rw [hc]

/-- A TTL that does not fit an `int` stops the program. -/
theorem line_process_throw (thr : Nat) (l : Line) (h : Shaped l) {t : Str} (ht : l.ttl = some t) (hv : ¬ Fitting (numeralValue t)) (st : PState) :
    processRecord thr { st with cur := l.owner :: (l.middle ++ l.type :: l.rdata) } = .throw := by
  unfold processRecord
  dsimp only
  rw [line_typeIndex l h]
  dsimp only
  have hlen : l.middle.length ≤ 2 := by
    unfold Line.middle
    rcases l.ttl with _ | _ <;> rcases l.cls with _ | _ <;> split <;> simp
  rw [if_neg (by omega), fieldLoop_owner _ _ _ _ (by omega)]
  generalize (if l.owner = [] then ({ ttl := st.defTtl, defName := st.defName, defTtl := st.defTtl } : FState) else _) = f
  have hn := h.ttl t ht
  have hs := stoi_unfitting hn hv
  have hcl := h.cls
  have : fieldLoop (l.middle.length + 1) 1 (l.middle ++ l.type :: l.rdata) f = .throw := by
    unfold Line.middle
    rw [ht]
    cases hc : l.cls with
    | none =>
      simp only [Option.toList_none, Option.toList_some, List.append_nil, List.nil_append, List.cons_append, ite_self, List.length_cons, List.length_nil]
      rw [fieldLoop_number _ _ _ _ _ (by omega) (by omega) hn, hs]; rfl
    | some c =>
      cases hb : l.ttlFirst
      · simp only [Option.toList_some, List.append_nil, List.nil_append, List.cons_append, List.length_cons, List.length_nil, Bool.false_eq_true, if_false]
        rw [fieldLoop_cls _ _ _ _ _ (by omega) (by omega) (hcl c hc), fieldLoop_number _ _ _ _ _ (by omega) (by omega) hn, hs]; rfl
      · simp only [Option.toList_some, List.append_nil, List.nil_append, List.cons_append, List.length_cons, List.length_nil, if_true]
        rw [fieldLoop_number _ _ _ _ _ (by omega) (by omega) hn, hs]; rfl
  rw [this]; rfl

/-- The default TTL after the words before a bad one. -/
theorem bad_loop (ti : Nat) (bad : Str) (rest : List Str) (hz : '\x00' ∉ bad) (hn : ¬ Numeral bad)
    (hb : ¬ (toUpper bad = "IN".toList ∨ toUpper bad = "CH".toList)) (pre : List Str)
    (hp : ∀ w ∈ pre, (toUpper w = "IN".toList ∨ toUpper w = "CH".toList) ∨ Numeral w ∧ Fitting (numeralValue w)) :
    ∀ (i : Nat) (f : FState), 0 < i → i + pre.length < ti → ∃ f', fieldLoop ti i (pre ++ bad :: rest) f = .ok (f', false) ∧ f'.defName = f.defName ∧
      f'.defTtl = pre.foldl (fun d w => if d = 0 ∧ Numeral w then asTTL (numeralValue w) else d) f.defTtl := by
  induction pre with
  | nil => intro i f h0 hi; exact ⟨f, fieldLoop_bad ti i bad rest f (by simpa using hi) h0 hz hn hb, rfl, rfl⟩
  | cons w pre ih =>
    intro i f h0 hi
    rw [List.length_cons] at hi
    rw [List.cons_append, List.foldl_cons]
    have ih := ih (fun x hx => hp x (List.mem_cons_of_mem _ hx)) (i + 1)
    rcases hp w (by simp) with h | ⟨h1, h2⟩
    · have hnn : ¬ Numeral w := by
        intro hw
        have e1 := numeral_upper hw "IN" 'I' ['N'] (by decide) (by decide)
        have e2 := numeral_upper hw "CH" 'C' ['H'] (by decide) (by decide)
        have u1 : toUpper "CH".toList = "CH".toList := by decide
        have u2 : toUpper "IN".toList = "IN".toList := by decide
        unfold iequals at e1 e2
        rw [u2, beq_eq_false_iff_ne] at e1
        rw [u1, beq_eq_false_iff_ne] at e2
        exact h.elim e1 e2
      rw [fieldLoop_cls _ _ _ _ _ (by omega) h0 h]
      obtain ⟨f', e1, e2, e3⟩ := ih { f with cls := if toUpper w = "CH".toList then 3 else 1 } (by omega) (by omega)
      refine ⟨f', e1, e2, ?_⟩
      rw [if_neg (fun hh : f.defTtl = 0 ∧ Numeral w => hnn hh.2)]
      exact e3
    · rw [fieldLoop_ttl _ _ _ _ _ (by omega) h0 h1 h2]
      obtain ⟨f', e1, e2, e3⟩ := ih { f with ttl := asTTL (numeralValue w), defTtl := if f.defTtl = 0 then asTTL (numeralValue w) else f.defTtl } (by omega) (by omega)
      refine ⟨f', e1, e2, ?_⟩
      rw [e3]
      dsimp only
      congr 1
      by_cases hd : f.defTtl = 0
      · rw [if_pos hd, if_pos ⟨hd, h1⟩]
      · rw [if_neg hd, if_neg (fun hh => hd hh.1)]

/-- A record with a word before the type that is neither class nor number is dropped. -/
theorem bad_process (thr : Nat) (owner : Str) (pre : List Str) (bad : Str) (post : List Str) (type : Str) (rdata : List Str)
    (ho : ¬ LooksLikeType owner) (hz : '\x00' ∉ bad) (hn : ¬ Numeral bad)
    (hb : ¬ (toUpper bad = "IN".toList ∨ toUpper bad = "CH".toList)) (hbt : ¬ LooksLikeType bad) (hpt : ∀ w ∈ post, ¬ LooksLikeType w)
    (hp : ∀ w ∈ pre, (toUpper w = "IN".toList ∨ toUpper w = "CH".toList) ∨ Numeral w ∧ Fitting (numeralValue w)) (ht : LooksLikeType type)
    (hl : pre.length + post.length ≤ 1) (st : PState) :
    processRecord thr { st with cur := owner :: (pre ++ bad :: post ++ type :: rdata) } =
      .ok { st with
        cur := []
        defName := if owner = [] then st.defName else stringToLabels owner
        defTtl := pre.foldl (fun d w => if d = 0 ∧ Numeral w then asTTL (numeralValue w) else d) st.defTtl } := by
  have hi : typeIndex (owner :: (pre ++ bad :: post ++ type :: rdata)) = some ((pre ++ bad :: post).length + 1) := by
    unfold typeIndex
    rw [List.findIdx?_cons]
    have h1 : isTypeField owner = false := by rw [Bool.eq_false_iff, Ne, looksLike_iff]; exact ho
    rw [h1, if_neg (by simp), List.findIdx?_append]
    have hm : List.findIdx? isTypeField (pre ++ bad :: post) = none := by
      rw [List.findIdx?_eq_none_iff]
      intro w hw
      rcases List.mem_append.mp hw with hw | hw
      · rcases hp w hw with h | ⟨h, -⟩
        · rw [Bool.eq_false_iff, Ne, looksLike_iff]
          unfold LooksLikeType
          rcases h with e | e <;> rw [e] <;> decide
        · exact numeral_not_type h
      · rw [Bool.eq_false_iff, Ne, looksLike_iff]
        rcases List.mem_cons.mp hw with rfl | hw
        · exact hbt
        · exact hpt w hw
    rw [hm, List.findIdx?_cons, if_pos ((looksLike_iff _).mpr ht)]
    simp
  unfold processRecord
  dsimp only
  rw [hi]
  dsimp only
  have hlen : (pre ++ bad :: post).length ≤ 2 := by simp; omega
  rw [if_neg (by omega), fieldLoop_owner _ _ _ _ (by omega), List.append_assoc, List.cons_append]
  obtain ⟨f', e1, e2, e3⟩ := bad_loop ((pre ++ bad :: post).length + 1) bad (post ++ type :: rdata) hz hn hb pre hp 1
    (if owner = [] then ({ ttl := st.defTtl, defName := st.defName, defTtl := st.defTtl } : FState)
      else { name := owner, ttl := st.defTtl, defName := stringToLabels owner, defTtl := st.defTtl }) (by omega) (by simp; omega)
  rw [e1, Res.ok_bind]
  dsimp only
  rw [if_pos (show (!false) = true from rfl), e2, e3]
  by_cases h : owner = []
  · rw [if_pos h, if_pos h]
  · rw [if_neg h, if_neg h]

end Groot
