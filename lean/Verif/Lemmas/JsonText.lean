import Verif.Lemmas.Json
import Mathlib.Tactic.ByContra

/-!
# The text of a JSON value is read back as the value
-/

namespace Groot

open Spec Spec.JsonText

namespace Json

theorem skip_ws {c : Char} (h : isWs c = true) (s : Str) : skip (c :: s) = skip s := by
  unfold skip; rw [List.dropWhile_cons_of_pos h]

theorem skip_not {c : Char} (h : isWs c = false) (s : Str) : skip (c :: s) = c :: s := by
  unfold skip; rw [List.dropWhile_cons_of_neg (by rw [h]; decide)]

theorem skip_spaces (n : Nat) (s : Str) : skip (spaces n ++ s) = skip s := by
  induction n with
  | zero => rfl
  | succ n ih =>
    unfold spaces at ih ⊢
    rw [List.replicate_succ, List.cons_append, skip_ws (by decide), ih]

/-! ### Numbers -/

/-- The text does not go on with a digit. -/
def Stops (r : Str) : Prop := ∀ c ∈ r.head?, isDec c = false

theorem isDec_digit {n : Nat} (h : n < 10) : isDec (Char.ofNat (48 + n)) = true ∧ (Char.ofNat (48 + n)).toNat = 48 + n := by
  have : ∀ n, n < 10 → isDec (Char.ofNat (48 + n)) = true ∧ (Char.ofNat (48 + n)).toNat = 48 + n := by decide
  exact this n h

theorem decimal_append (a : Str) (c : Char) : decimal (a ++ [c]) = 10 * decimal a + (c.toNat - 48) := by
  unfold decimal
  rw [List.foldl_append]
  rfl

theorem digits_spec : ∀ (f n : Nat), n < f → (∀ c ∈ digits f n, isDec c = true) ∧ decimal (digits f n) = n ∧ digits f n ≠ [] ∧
    ((digits f n).head? = some '0' → n = 0 ∧ (digits f n).length = 1)
  | 0, n, h => by omega
  | f + 1, n, h => by
    unfold digits
    by_cases hn : n < 10
    · rw [if_pos hn]
      obtain ⟨h1, h2⟩ := isDec_digit hn
      refine ⟨by simpa using h1, ?_, by simp, ?_⟩
      · unfold decimal
        simp only [List.foldl_cons, List.foldl_nil, h2]
        omega
      · intro h0
        simp only [List.head?_cons, Option.some.injEq] at h0
        rw [h0] at h2
        have : ('0' : Char).toNat = 48 := by decide
        exact ⟨by omega, rfl⟩
    · rw [if_neg hn]
      obtain ⟨e1, e2, e3, e4⟩ := digits_spec f (n / 10) (by omega)
      obtain ⟨h1, h2⟩ := isDec_digit (n := n % 10) (by omega)
      refine ⟨?_, ?_, by simp, ?_⟩
      · intro c hc
        rcases List.mem_append.mp hc with hc | hc
        · exact e1 c hc
        · rw [List.mem_singleton.mp hc]; exact h1
      · rw [decimal_append, e2, h2]
        omega
      · intro h0
        rw [List.head?_append_of_ne_nil _ e3] at h0
        have := (e4 h0).1
        omega

theorem takeWhile_append_stop {p : Char → Bool} {a r : Str} (ha : ∀ c ∈ a, p c = true) (hr : ∀ c ∈ r.head?, p c = false) :
    (a ++ r).takeWhile p = a ∧ (a ++ r).dropWhile p = r := by
  induction a with
  | nil =>
    cases r with
    | nil => exact ⟨rfl, rfl⟩
    | cons c r =>
      have := hr c (by simp)
      exact ⟨by rw [List.nil_append, List.takeWhile_cons_of_neg (by rw [this]; decide)],
        by rw [List.nil_append, List.dropWhile_cons_of_neg (by rw [this]; decide)]⟩
  | cons c a ih =>
    have hc := ha c (by simp)
    obtain ⟨h1, h2⟩ := ih (fun c hc => ha c (by simp [hc]))
    exact ⟨by rw [List.cons_append, List.takeWhile_cons_of_pos hc, h1], by rw [List.cons_append, List.dropWhile_cons_of_pos hc, h2]⟩

theorem readNat_text (n : Nat) (r : Str) (hr : Stops r) : readNat (natText n ++ r) = some (n, r) := by
  obtain ⟨e1, e2, e3, e4⟩ := digits_spec (n + 1) n (by omega)
  obtain ⟨h1, h2⟩ := takeWhile_append_stop e1 hr
  unfold readNat natText
  dsimp only
  rw [h1, h2, e2, if_neg]
  rintro (h | h)
  · exact e3 h
  · exact h.2 (e4 h.1).2

theorem natText_head (n : Nat) : ∃ c t, natText n = c :: t ∧ isDec c = true := by
  obtain ⟨e1, -, e3, -⟩ := digits_spec (n + 1) n (by omega)
  unfold natText
  cases h : digits (n + 1) n with
  | nil => exact absurd h e3
  | cons c t => exact ⟨c, t, rfl, e1 c (by rw [h]; simp)⟩

/-! ### Strings -/

theorem hexValue_digit : ∀ n, n < 16 → hexValue (hexDigit n) = some n := by decide

theorem readChars_u (a b c d : Char) (s : Str) : readChars ('\\' :: 'u' :: a :: b :: c :: d :: s) =
    match hexValue a, hexValue b, hexValue c, hexValue d with
    | some a, some b, some c, some d =>
      if ((a * 16 + b) * 16 + c) * 16 + d < 128 then (readChars s).map (fun r => (Char.ofNat (((a * 16 + b) * 16 + c) * 16 + d) :: r.1, r.2)) else none
    | _, _, _, _ => none := by
  rw [readChars]
  rfl

theorem readChars_esc {e : Char} (he : e ≠ 'u') (s : Str) : readChars ('\\' :: e :: s) =
    match escaped e with
    | some c => (readChars s).map (fun r => (c :: r.1, r.2))
    | none => none := by
  rw [readChars]
  · rfl
  · intro a b c d s h
    exact absurd h he

theorem readChars_plain {c : Char} (h1 : c ≠ '"') (h2 : c ≠ '\\') (h3 : 32 ≤ c.toNat) (s : Str) :
    readChars (c :: s) = (readChars s).map (fun r => (c :: r.1, r.2)) := by
  rw [readChars]
  · rw [if_neg]
    rintro (h | h)
    · omega
    · exact h2 h
  · exact fun h => absurd h h1
  · exact fun a b c d s h => absurd h h2
  · exact fun e s h => absurd h h2

theorem readChars_text (s r : Str) : readChars (s.flatMap escape ++ '"' :: r) = some (s, r) := by
  induction s with
  | nil =>
    show readChars ('"' :: r) = _
    rw [readChars]
  | cons c s ih =>
    rw [List.flatMap_cons, List.append_assoc]
    revert ih
    generalize s.flatMap escape ++ '"' :: r = rest
    intro ih
    unfold escape
    split_ifs with h1 h2 h3 h4 h5 h6 h7 h8
    · show readChars ('\\' :: 'b' :: rest) = _
      rw [readChars_esc (by decide), ih, h1]; rfl
    · show readChars ('\\' :: 't' :: rest) = _
      rw [readChars_esc (by decide), ih, h2]; rfl
    · show readChars ('\\' :: 'n' :: rest) = _
      rw [readChars_esc (by decide), ih, h3]; rfl
    · show readChars ('\\' :: 'f' :: rest) = _
      rw [readChars_esc (by decide), ih, h4]; rfl
    · show readChars ('\\' :: 'r' :: rest) = _
      rw [readChars_esc (by decide), ih, h5]; rfl
    · show readChars ('\\' :: '"' :: rest) = _
      rw [readChars_esc (by decide), ih, h6]; rfl
    · show readChars ('\\' :: '\\' :: rest) = _
      rw [readChars_esc (by decide), ih, h7]; rfl
    · show readChars ('\\' :: 'u' :: '0' :: '0' :: hexDigit (c.toNat / 16) :: hexDigit (c.toNat % 16) :: rest) = _
      have e0 : hexValue '0' = some 0 := by decide
      rw [readChars_u, e0, hexValue_digit _ (by omega), hexValue_digit _ (by omega), ih]
      dsimp only
      have e : ((0 * 16 + 0) * 16 + c.toNat / 16) * 16 + c.toNat % 16 = c.toNat := by omega
      rw [e, if_pos (by omega), Char.ofNat_toNat]
      rfl
    · show readChars (c :: rest) = _
      rw [readChars_plain h6 h7 (by omega), ih]
      rfl

/-! ### Values -/

mutual

/-- A bound for the recursion depth needed to read a value. -/
def weight : Json → Nat
  | .arr l => 1 + weightArr l
  | .obj m => 1 + weightObj m
  | _ => 1

/-- A bound for the recursion depth needed to read the elements. -/
def weightArr : List Json → Nat
  | [] => 0
  | x :: xs => 1 + weight x + weightArr xs

/-- A bound for the recursion depth needed to read the members. -/
def weightObj : List (Str × Json) → Nat
  | [] => 0
  | (_, x) :: m => 1 + weight x + weightObj m

end

theorem weight_pos (j : Json) : 1 ≤ weight j := by
  cases j <;> simp only [weight] <;> omega

theorem intText_ne (n : Int) : intText n ≠ [] := by
  unfold intText
  split_ifs
  · simp
  · obtain ⟨c, t, h, -⟩ := natText_head n.natAbs
    rw [h]; simp

mutual

theorem weight_le : ∀ (j : Json) (ind : Nat), weight j ≤ (dump ind j).length
  | .null, ind => by simp only [weight, dump]; decide
  | .int n, ind => by simp only [weight, dump]; exact List.length_pos_iff.mpr (intText_ne n)
  | .str s, ind => by simp only [weight, dump, quoted]; simp
  | .arr [], ind => by simp only [weight, dump, weightArr]; decide
  | .arr (x :: xs), ind => by
    have h1 := weight_le x (ind + 4)
    have h2 := weightArr_le xs (ind + 4)
    simp only [weight, dump, weightArr, List.length_append]
    have e1 : "[\n".toList.length = 2 := rfl
    have e2 : "\n".toList.length = 1 := rfl
    omega
  | .obj [], ind => by simp only [weight, dump, weightObj]; decide
  | .obj ((k, x) :: m), ind => by
    have h1 := weight_le x (ind + 4)
    have h2 := weightObj_le m (ind + 4)
    simp only [weight, dump, weightObj, List.length_append]
    have e1 : "{\n".toList.length = 2 := rfl
    have e2 : "\n".toList.length = 1 := rfl
    omega

theorem weightArr_le : ∀ (l : List Json) (ind : Nat), weightArr l ≤ (dumpRest ind l).length
  | [], _ => by simp only [weightArr]; omega
  | x :: xs, ind => by
    have h1 := weight_le x ind
    have h2 := weightArr_le xs ind
    simp only [dumpRest, weightArr, List.length_append]
    have e1 : ",\n".toList.length = 2 := rfl
    omega

theorem weightObj_le : ∀ (l : List (Str × Json)) (ind : Nat), weightObj l ≤ (dumpMembers ind l).length
  | [], _ => by simp only [weightObj]; omega
  | (k, x) :: xs, ind => by
    have h1 := weight_le x ind
    have h2 := weightObj_le xs ind
    simp only [dumpMembers, weightObj, List.length_append]
    have e1 : ",\n".toList.length = 2 := rfl
    omega

end

/-- The first character of the text of a value. -/
theorem dump_head (ind : Nat) (j : Json) : ∃ c t, dump ind j = c :: t ∧ isWs c = false ∧ c ≠ ']' ∧ c ≠ '}' := by
  have hd : ∀ c, isDec c = true → isWs c = false ∧ c ≠ ']' ∧ c ≠ '}' := by
    intro c hc
    simp only [isDec, Bool.and_eq_true, decide_eq_true_eq] at hc
    refine ⟨?_, ?_, ?_⟩
    · by_contra h
      simp only [isWs, Bool.not_eq_false, Bool.or_eq_true, beq_iff_eq] at h
      rcases h with ((h | h) | h) | h <;> (rw [h] at hc; revert hc; decide)
    · rintro rfl; revert hc; decide
    · rintro rfl; revert hc; decide
  cases j with
  | null => exact ⟨'n', _, rfl, by decide, by decide, by decide⟩
  | int n =>
    simp only [dump, intText]
    obtain ⟨c, t, h, hc⟩ := natText_head n.natAbs
    split_ifs
    · exact ⟨'-', _, rfl, by decide, by decide, by decide⟩
    · exact ⟨c, t, h, hd c hc⟩
  | str s => exact ⟨'"', _, rfl, by decide, by decide, by decide⟩
  | arr l => cases l with
    | nil => exact ⟨'[', _, rfl, by decide, by decide, by decide⟩
    | cons x xs => simp only [dump, List.append_assoc]; exact ⟨'[', _, rfl, by decide, by decide, by decide⟩
  | obj l => cases l with
    | nil => exact ⟨'{', _, rfl, by decide, by decide, by decide⟩
    | cons x xs => simp only [dump, List.append_assoc]; exact ⟨'{', _, rfl, by decide, by decide, by decide⟩

theorem readValue_digit (n : Nat) {c : Char} (hc : isDec c = true) (s : Str) :
    readValue (n + 1) (c :: s) = (readNat (c :: s)).map (fun r => (.int r.1, r.2)) := by
  have hd : ∀ d : Char, isDec d = false → c ≠ d := by rintro d hd rfl; rw [hd] at hc; cases hc
  unfold readValue
  split
  · rename_i h; injection h with h; exact absurd h (hd _ (by decide))
  · rename_i h; injection h with h; exact absurd h (hd _ (by decide))
  · rename_i h; injection h with h; exact absurd h (hd _ (by decide))
  · rename_i h; injection h with h; exact absurd h (hd _ (by decide))
  · rename_i h; injection h with h; exact absurd h (hd _ (by decide))
  · rfl

theorem stops_cons {c : Char} (h : isDec c = false) (s : Str) : Stops (c :: s) := by
  intro d hd
  simp only [List.head?_cons, Option.mem_def, Option.some.injEq] at hd
  rw [← hd]; exact h

theorem skip_dump (ind : Nat) (j : Json) (r : Str) : skip (dump ind j ++ r) = dump ind j ++ r := by
  obtain ⟨c, t, h, hw, -, -⟩ := dump_head ind j
  rw [h, List.cons_append, skip_not hw]

theorem stops_rest (ind : Nat) (xs : List Json) {r : Str} (h : Stops r) : Stops (dumpRest ind xs ++ r) := by
  cases xs with
  | nil => exact h
  | cons x xs => simp only [dumpRest, List.append_assoc]; exact stops_cons (by decide) _

theorem stops_members (ind : Nat) (xs : List (Str × Json)) {r : Str} (h : Stops r) : Stops (dumpMembers ind xs ++ r) := by
  cases xs with
  | nil => exact h
  | cons x xs => simp only [dumpMembers, List.append_assoc]; exact stops_cons (by decide) _

theorem readElements_last {n : Nat} {s : Str} {x : Json} {s' r : Str} (h : readValue n (skip s) = some (x, s')) (h2 : skip s' = ']' :: r) :
    readElements (n + 1) s = some ([x], r) := by
  rw [readElements, h]
  simp only [Option.bind_eq_bind, Option.bind_some]
  rw [h2]
  rfl

theorem readElements_more {n : Nat} {s : Str} {x : Json} {s' s2 r : Str} {ys : List Json} (h : readValue n (skip s) = some (x, s'))
    (h2 : skip s' = ',' :: s2) (h3 : readElements n s2 = some (ys, r)) : readElements (n + 1) s = some (x :: ys, r) := by
  rw [readElements, h]
  simp only [Option.bind_eq_bind, Option.bind_some, h2, h3, Option.map_some]

theorem readMembers_last {n : Nat} {s k : Str} {x : Json} {s1 s2 s3 s4 r : Str} (h1 : skip s = '"' :: s1) (h2 : readChars s1 = some (k, s2))
    (h3 : skip s2 = ':' :: s3) (h : readValue n (skip s3) = some (x, s4)) (h4 : skip s4 = '}' :: r) :
    readMembers (n + 1) s = some ([(k, x)], r) := by
  unfold readMembers
  rw [h1]
  simp only [h2, Option.bind_eq_bind, Option.bind_some, h3, h, h4]

theorem readMembers_more {n : Nat} {s k : Str} {x : Json} {s1 s2 s3 s4 s5 r : Str} {ys : List (Str × Json)} (h1 : skip s = '"' :: s1)
    (h2 : readChars s1 = some (k, s2)) (h3 : skip s2 = ':' :: s3) (h : readValue n (skip s3) = some (x, s4)) (h4 : skip s4 = ',' :: s5)
    (h5 : readMembers n s5 = some (ys, r)) : readMembers (n + 1) s = some ((k, x) :: ys, r) := by
  unfold readMembers
  rw [h1]
  simp only [h2, Option.bind_eq_bind, Option.bind_some, h3, h, h4, h5, Option.map_some]

theorem readValue_arr {n : Nat} {s : Str} {c : Char} {t r : Str} {l : List Json} (h : skip s = c :: t) (hc : c ≠ ']')
    (h2 : readElements n (c :: t) = some (l, r)) : readValue (n + 1) ('[' :: s) = some (.arr l, r) := by
  rw [readValue, h]
  split
  · rename_i hx; injection hx with hx; exact absurd hx hc
  · rw [h2]; rfl

theorem readValue_obj {n : Nat} {s : Str} {c : Char} {t r : Str} {l : List (Str × Json)} (h : skip s = c :: t) (hc : c ≠ '}')
    (h2 : readMembers n (c :: t) = some (l, r)) : readValue (n + 1) ('{' :: s) = some (.obj l, r) := by
  rw [readValue, h]
  split
  · rename_i hx; injection hx with hx; exact absurd hx hc
  · rw [h2]; rfl

theorem lit1 : "[\n".toList = ['[', '\n'] := rfl
theorem lit2 : "{\n".toList = ['{', '\n'] := rfl
theorem lit3 : "\n".toList = ['\n'] := rfl
theorem lit4 : "]".toList = [']'] := rfl
theorem lit5 : "}".toList = ['}'] := rfl
theorem lit6 : ",\n".toList = [',', '\n'] := rfl
theorem lit7 : ": ".toList = [':', ' '] := rfl
theorem lit8 : "\n]".toList = ['\n', ']'] := rfl

mutual

theorem readValue_dump : ∀ (j : Json) (n ind : Nat) (r : Str), weight j ≤ n → Stops r → readValue n (dump ind j ++ r) = some (j, r)
  | j, 0, ind, r, h, _ => by have := weight_pos j; omega
  | .null, n + 1, ind, r, _, _ => by simp only [dump]; rfl
  | .int i, n + 1, ind, r, _, hr => by
    simp only [dump, intText]
    obtain ⟨c, t, h, hc⟩ := natText_head i.natAbs
    have hn := readNat_text i.natAbs r hr
    split_ifs with hi
    · show readValue (n + 1) ('-' :: (natText i.natAbs ++ r)) = _
      have : readValue (n + 1) ('-' :: (natText i.natAbs ++ r)) = (readNat (natText i.natAbs ++ r)).map (fun r => (.int (-(r.1 : Int)), r.2)) := by
        rw [readValue]
      rw [this, hn]
      simp only [Option.map_some, Option.some.injEq, Prod.mk.injEq, and_true, Json.int.injEq]
      omega
    · rw [h, List.cons_append] at hn ⊢
      rw [readValue_digit n hc, hn]
      simp only [Option.map_some, Option.some.injEq, Prod.mk.injEq, and_true, Json.int.injEq]
      omega
  | .str s, n + 1, ind, r, _, _ => by
    simp only [dump, quoted, List.cons_append, List.append_assoc, List.nil_append]
    have : readValue (n + 1) ('"' :: (s.flatMap escape ++ '"' :: r)) = (readChars (s.flatMap escape ++ '"' :: r)).map (fun r => (.str r.1, r.2)) := by
      rw [readValue]
    rw [this, readChars_text]
    rfl
  | .arr [], n + 1, ind, r, _, _ => by simp only [dump]; rfl
  | .arr (x :: xs), n + 1, ind, r, h, _ => by
    simp only [dump, weight, lit1, lit3, lit4, List.append_assoc, List.cons_append, List.nil_append] at h ⊢
    have hs : skip ('\n' :: (spaces ind ++ (']' :: r))) = ']' :: r := by
      rw [skip_ws (by decide), skip_spaces]
      exact skip_not (by decide) _
    have hst : Stops ('\n' :: (spaces ind ++ (']' :: r))) := stops_cons (by decide) _
    have hh := readElements_dump x xs n (ind + 4) [] _ r (by omega) (fun s => rfl) hs hst
    obtain ⟨c, t, hd, hw, hc, -⟩ := dump_head (ind + 4) x
    rw [hd, List.nil_append, List.cons_append] at hh
    rw [hd, List.cons_append]
    refine readValue_arr ?_ hc hh
    rw [skip_ws (by decide), skip_spaces, skip_not hw]
  | .obj [], n + 1, ind, r, _, _ => by simp only [dump]; rfl
  | .obj ((k, x) :: xs), n + 1, ind, r, h, _ => by
    simp only [dump, weight, lit2, lit3, lit5, List.append_assoc, List.cons_append, List.nil_append] at h ⊢
    have hs : skip ('\n' :: (spaces ind ++ ('}' :: r))) = '}' :: r := by
      rw [skip_ws (by decide), skip_spaces]
      exact skip_not (by decide) _
    have hst : Stops ('\n' :: (spaces ind ++ ('}' :: r))) := stops_cons (by decide) _
    have hh := readMembers_dump k x xs n (ind + 4) [] _ r (by omega) (fun s => rfl) hs hst
    unfold quoted at hh ⊢
    rw [List.nil_append, List.cons_append] at hh
    rw [List.cons_append]
    refine readValue_obj ?_ (by decide) hh
    rw [skip_ws (by decide), skip_spaces, skip_not (by decide)]

theorem readElements_dump : ∀ (x : Json) (xs : List Json) (n ind : Nat) (s0 t r : Str), weightArr (x :: xs) ≤ n → (∀ s, skip (s0 ++ s) = skip s) →
    skip t = ']' :: r → Stops t → readElements n (s0 ++ (dump ind x ++ (dumpRest ind xs ++ t))) = some (x :: xs, r)
  | x, xs, 0, _, _, _, _, h, _, _, _ => by simp only [weightArr] at h; omega
  | x, [], n + 1, ind, s0, t, r, h, h0, ht, hst => by
    simp only [weightArr] at h
    refine readElements_last (s' := t) ?_ ht
    rw [h0, skip_dump]
    simp only [dumpRest, List.nil_append]
    exact readValue_dump x n ind t (by omega) hst
  | x, y :: ys, n + 1, ind, s0, t, r, h, h0, ht, hst => by
    simp only [weightArr] at h
    have ih := readElements_dump y ys n ind ('\n' :: spaces ind) t r (by simp only [weightArr]; omega)
      (fun s => by rw [List.cons_append, skip_ws (by decide), skip_spaces]) ht hst
    refine readElements_more (s' := dumpRest ind (y :: ys) ++ t) ?_ ?_ ih
    · rw [h0, skip_dump]
      exact readValue_dump x n ind _ (by omega) (stops_rest _ _ hst)
    · simp only [dumpRest, lit6, List.append_assoc, List.cons_append, List.nil_append]
      exact skip_not (by decide) _

theorem readMembers_dump : ∀ (k : Str) (x : Json) (xs : List (Str × Json)) (n ind : Nat) (s0 t r : Str), weightObj ((k, x) :: xs) ≤ n →
    (∀ s, skip (s0 ++ s) = skip s) → skip t = '}' :: r → Stops t →
    readMembers n (s0 ++ (quoted k ++ (": ".toList ++ (dump ind x ++ (dumpMembers ind xs ++ t))))) = some ((k, x) :: xs, r)
  | k, x, xs, 0, _, _, _, _, h, _, _, _ => by simp only [weightObj] at h; omega
  | k, x, [], n + 1, ind, s0, t, r, h, h0, ht, hst => by
    simp only [weightObj] at h
    refine readMembers_last (s1 := k.flatMap escape ++ '"' :: (": ".toList ++ (dump ind x ++ (dumpMembers ind [] ++ t)))) ?_
      (readChars_text _ _) (s3 := ' ' :: (dump ind x ++ (dumpMembers ind [] ++ t))) (skip_not (by decide) _) (s4 := t) ?_ ht
    · rw [h0]
      unfold quoted
      rw [List.cons_append, skip_not (by decide), List.append_assoc]
      rfl
    · rw [skip_ws (by decide), skip_dump]
      simp only [dumpMembers, List.nil_append]
      exact readValue_dump x n ind t (by omega) hst
  | k, x, (l, y) :: ys, n + 1, ind, s0, t, r, h, h0, ht, hst => by
    simp only [weightObj] at h
    have ih := readMembers_dump l y ys n ind ('\n' :: spaces ind) t r (by simp only [weightObj]; omega)
      (fun s => by rw [List.cons_append, skip_ws (by decide), skip_spaces]) ht hst
    refine readMembers_more (s1 := k.flatMap escape ++ '"' :: (": ".toList ++ (dump ind x ++ (dumpMembers ind ((l, y) :: ys) ++ t)))) ?_
      (readChars_text _ _) (s3 := ' ' :: (dump ind x ++ (dumpMembers ind ((l, y) :: ys) ++ t))) (skip_not (by decide) _)
      (s4 := dumpMembers ind ((l, y) :: ys) ++ t) ?_ ?_ ih
    · rw [h0]
      unfold quoted
      rw [List.cons_append, skip_not (by decide), List.append_assoc]
      rfl
    · rw [skip_ws (by decide), skip_dump]
      exact readValue_dump x n ind _ (by omega) (stops_members _ _ hst)
    · simp only [dumpMembers, lit6, List.append_assoc, List.cons_append, List.nil_append]
      exact skip_not (by decide) _

end

/-- A text that is a dumped value is read as the value. -/
theorem parse_dump (j : Json) : parse (dump 0 j) = some j := by
  unfold parse
  have h := readValue_dump j ((dump 0 j).length + 1) 0 [] (by have := weight_le j 0; omega) (by intro c hc; cases hc)
  have hs := skip_dump 0 j []
  rw [List.append_nil] at h hs
  rw [hs, h]
  rfl

/-- The list of dumped values, in the layout of the output file, is read as the array of the values. -/
theorem parse_list (js : List Json) : parse ("[\n".toList ++ List.intercalate ",\n".toList (js.map (dump 0)) ++ "\n]".toList) = some (.arr js) := by
  cases js with
  | nil => decide +kernel
  | cons x xs =>
    have e : ∀ (xs : List Json) (x : Json), List.intercalate ",\n".toList ((x :: xs).map (dump 0)) = dump 0 x ++ dumpRest 0 xs := by
      intro xs
      induction xs with
      | nil => intro x; simp [List.intercalate, dumpRest]
      | cons y ys ih =>
        intro x
        have : List.intercalate ",\n".toList ((x :: y :: ys).map (dump 0)) =
            dump 0 x ++ (",\n".toList ++ List.intercalate ",\n".toList ((y :: ys).map (dump 0))) := by
          simp [List.intercalate, List.intersperse]
        rw [this, ih y]
        simp only [dumpRest, spaces, List.replicate_zero, List.append_assoc, List.nil_append]
    rw [e]
    have hst : Stops "\n]".toList := stops_cons (by decide) _
    have hh := readElements_dump x xs ("[\n".toList ++ (dump 0 x ++ dumpRest 0 xs) ++ "\n]".toList).length 0 [] "\n]".toList []
      (by
        have h1 := weight_le x 0
        have h2 := weightArr_le xs 0
        simp only [weightArr, List.length_append]
        have e1 : "[\n".toList.length = 2 := rfl
        omega) (fun s => rfl) rfl hst
    unfold parse
    obtain ⟨c, t, hd, hw, hc, -⟩ := dump_head 0 x
    have hsk : skip ("[\n".toList ++ (dump 0 x ++ dumpRest 0 xs) ++ "\n]".toList) = '[' :: '\n' :: (dump 0 x ++ (dumpRest 0 xs ++ "\n]".toList)) := by
      simp only [List.append_assoc]
      exact skip_not (by decide) _
    rw [hsk]
    rw [List.nil_append] at hh
    generalize ("[\n".toList ++ (dump 0 x ++ dumpRest 0 xs) ++ "\n]".toList).length = n at hh ⊢
    rw [hd, List.cons_append] at hh ⊢
    rw [readValue_arr (c := c) (r := []) (l := x :: xs) _ hc hh]
    · rfl
    · rw [skip_ws (by decide), skip_not hw]

end Json

end Groot
