import Verif.Lemmas.JsonFile

/-!
# The reader of JSON texts and texts that go on
-/

namespace Groot.Json

open Spec JsonText

theorem skip_append {s : Str} {c : Char} {r : Str} (h : skip s = c :: r) (t : Str) : skip (s ++ t) = c :: (r ++ t) := by
  induction s with
  | nil => cases h
  | cons d s ih =>
    by_cases hw : isWs d = true
    · rw [skip_ws hw] at h
      rw [List.cons_append, skip_ws hw]
      exact ih h
    · have hw' : isWs d = false := by simpa using hw
      rw [skip_not hw'] at h
      rw [List.cons_append, skip_not hw']
      injection h with h1 h2
      rw [h1, h2]

theorem readNat_append {s : Str} {n : Nat} {r : Str} (h : readNat s = some (n, r)) (hr : r ≠ []) (t : Str) : readNat (s ++ t) = some (n, r ++ t) := by
  unfold readNat at h ⊢
  dsimp only at h ⊢
  have key : s.dropWhile isDec ≠ [] → (s ++ t).takeWhile isDec = s.takeWhile isDec ∧ (s ++ t).dropWhile isDec = s.dropWhile isDec ++ t := by
    induction s with
    | nil => intro h; exact absurd rfl h
    | cons c s ih =>
      intro hne
      by_cases hc : isDec c = true
      · rw [List.dropWhile_cons_of_pos hc] at hne ⊢
        have : ∀ h, _ := fun h => ih h
        rw [List.cons_append, List.takeWhile_cons_of_pos hc, List.dropWhile_cons_of_pos hc, List.takeWhile_cons_of_pos hc]
        have ih' : (s ++ t).takeWhile isDec = s.takeWhile isDec ∧ (s ++ t).dropWhile isDec = s.dropWhile isDec ++ t := by
          clear h this ih hr
          induction s with
          | nil => exact absurd rfl hne
          | cons d s ih =>
            by_cases hd : isDec d = true
            · rw [List.dropWhile_cons_of_pos hd] at hne ⊢
              rw [List.cons_append, List.takeWhile_cons_of_pos hd, List.dropWhile_cons_of_pos hd, List.takeWhile_cons_of_pos hd]
              exact ⟨by rw [(ih hne).1], (ih hne).2⟩
            · rw [List.cons_append, List.takeWhile_cons_of_neg hd, List.dropWhile_cons_of_neg hd, List.takeWhile_cons_of_neg hd,
                List.dropWhile_cons_of_neg hd]
              exact ⟨rfl, rfl⟩
        exact ⟨by rw [ih'.1], ih'.2⟩
      · rw [List.cons_append, List.takeWhile_cons_of_neg hc, List.dropWhile_cons_of_neg hc, List.takeWhile_cons_of_neg hc,
          List.dropWhile_cons_of_neg hc]
        exact ⟨rfl, rfl⟩
  by_cases hc : s.takeWhile isDec = [] ∨ ((s.takeWhile isDec).head? = some '0' ∧ (s.takeWhile isDec).length ≠ 1)
  · rw [if_pos hc] at h; cases h
  · rw [if_neg hc] at h
    injection h with h
    injection h with h1 h2
    have := key (by rw [h2]; exact hr)
    rw [this.1, this.2, if_neg hc, h1, h2]

theorem readChars_append : ∀ (k : Nat) (s : Str), s.length ≤ k → ∀ (x r t : Str), readChars s = some (x, r) → readChars (s ++ t) = some (x, r ++ t)
  | 0, s, hk, x, r, t, h => by
    rw [List.length_eq_zero_iff.mp (Nat.le_zero.mp hk)] at h
    rw [readChars] at h
    cases h
  | k + 1, [], _, x, r, t, h => by rw [readChars] at h; cases h
  | k + 1, c :: s, hk, x, r, t, h => by
    simp only [List.length_cons] at hk
    by_cases h1 : c = '"'
    · subst h1
      rw [readChars] at h
      rw [List.cons_append, readChars]
      injection h with h
      injection h with e1 e2
      rw [← e1, ← e2]
    by_cases h2 : c = '\\'
    · subst h2
      cases s with
      | nil =>
        rw [readChars] at h
        · rw [if_pos (.inr rfl)] at h; cases h
        · exact fun h => absurd h (by decide)
        · intro a b c d s _ h; cases h
        · intro e s _ h; cases h
      | cons e s =>
        by_cases he : e = 'u'
        · subst he
          match s, hk, h with
          | a :: b :: c :: d :: s, hk, h =>
            simp only [List.cons_append] at hk ⊢
            rw [readChars_u] at h ⊢
            generalize hexValue a = va at h ⊢
            generalize hexValue b = vb at h ⊢
            generalize hexValue c = vc at h ⊢
            generalize hexValue d = vd at h ⊢
            cases va with
            | none => cases h
            | some va => cases vb with
              | none => cases h
              | some vb => cases vc with
                | none => cases h
                | some vc => cases vd with
                  | none => cases h
                  | some vd =>
                    dsimp only at h ⊢
                    by_cases hn : ((va * 16 + vb) * 16 + vc) * 16 + vd < 128
                    · rw [if_pos hn] at h ⊢
                      obtain ⟨y, hy, e⟩ := Option.map_eq_some_iff.mp h
                      rw [readChars_append k s (by simp only [List.length_cons] at hk; omega) y.1 y.2 t hy, Option.map_some]
                      injection e with e1 e2
                      rw [← e1, ← e2]
                    · rw [if_neg hn] at h; cases h
          | [], hk, h => exact absurd h (by rw [readChars] <;> simp [escaped])
          | [a], hk, h => exact absurd h (by rw [readChars] <;> simp [escaped])
          | [a, b], hk, h => exact absurd h (by rw [readChars] <;> simp [escaped])
          | [a, b, c], hk, h => exact absurd h (by rw [readChars] <;> simp [escaped])
        · rw [List.cons_append, List.cons_append]
          rw [readChars_esc he] at h ⊢
          cases hx : escaped e with
          | none => rw [hx] at h; cases h
          | some c =>
            rw [hx] at h
            dsimp only at h ⊢
            obtain ⟨y, hy, e⟩ := Option.map_eq_some_iff.mp h
            rw [readChars_append k s (by simp only [List.length_cons] at hk; omega) y.1 y.2 t hy, Option.map_some]
            injection e with e1 e2
            rw [← e1, ← e2]
    by_cases h3 : 32 ≤ c.toNat
    · rw [readChars_plain h1 h2 h3] at h
      rw [List.cons_append, readChars_plain h1 h2 h3]
      obtain ⟨y, hy, e⟩ := Option.map_eq_some_iff.mp h
      rw [readChars_append k s (by omega) y.1 y.2 t hy, Option.map_some]
      injection e with e1 e2
      rw [← e1, ← e2]
    · rw [readChars] at h
      · rw [if_pos (.inl (by omega))] at h; cases h
      · exact fun h => absurd h h1
      · exact fun a b c d s h => absurd h h2
      · exact fun e s h => absurd h h2

theorem readNat_head {s : Str} {x : Nat × Str} (h : readNat s = some x) : ∃ c t, s = c :: t ∧ isDec c = true := by
  cases s with
  | nil => cases h
  | cons c t =>
    refine ⟨c, t, rfl, ?_⟩
    by_contra hc
    unfold readNat at h
    dsimp only at h
    rw [List.takeWhile_cons_of_neg hc, if_pos (.inl rfl)] at h
    cases h

mutual

theorem readValue_append : ∀ (n m : Nat) (s r t : Str) (v : Json), n ≤ m → readValue n s = some (v, r) → (r ≠ [] ∨ ∀ k, v ≠ .int k) →
    readValue m (s ++ t) = some (v, r ++ t)
  | 0, _, _, _, _, _, _, h, _ => by cases h
  | n + 1, 0, _, _, _, _, hm, _, _ => by omega
  | n + 1, m + 1, s, r, t, v, hm, h, hv => by
    rw [readValue.eq_def] at h
    dsimp only at h
    split at h
    · injection h with h
      injection h with e1 e2
      simp only [List.cons_append]
      rw [readValue, ← e1, ← e2]
    · obtain ⟨y, hy, e⟩ := Option.map_eq_some_iff.mp h
      injection e with e1 e2
      rw [List.cons_append, readValue, readChars_append _ _ (Nat.le_refl _) y.1 y.2 t hy, Option.map_some, ← e1, ← e2]
    · obtain ⟨y, hy, e⟩ := Option.map_eq_some_iff.mp h
      injection e with e1 e2
      have hr : y.2 ≠ [] := by
        rcases hv with hv | hv
        · rw [e2]; exact hv
        · exact absurd e1.symm (hv _)
      rw [List.cons_append, readValue, readNat_append hy hr, Option.map_some, ← e1, ← e2]
    · rename_i s
      cases hs : skip s with
      | nil =>
        rw [hs] at h
        dsimp only at h
        obtain ⟨y, hy, e⟩ := Option.map_eq_some_iff.mp h
        obtain ⟨n, rfl⟩ : ∃ k, n = k + 1 := by cases n with | zero => cases hy | succ n => exact ⟨n, rfl⟩
        rw [readElements] at hy
        have : skip [] = [] := rfl
        rw [this, readValue_nil] at hy
        cases hy
      | cons c u =>
        have hs' := skip_append hs t
        rw [hs] at h
        by_cases hc : c = ']'
        · subst hc
          injection h with h
          injection h with e1 e2
          rw [List.cons_append, readValue, hs', ← e1, ← e2]
          rfl
        · have h' : (readElements n (c :: u)).map (fun r => (Json.arr r.1, r.2)) = some (v, r) := by
            split at h
            · rename_i hx; injection hx with hx; exact absurd hx hc
            · exact h
          obtain ⟨y, hy, e⟩ := Option.map_eq_some_iff.mp h'
          injection e with e1 e2
          rw [List.cons_append, ← e1, ← e2]
          refine readValue_arr hs' hc ?_
          exact readElements_append n m (c :: u) y.2 t y.1 (by omega) hy
    · rename_i s
      cases hs : skip s with
      | nil =>
        rw [hs] at h
        dsimp only at h
        obtain ⟨y, hy, e⟩ := Option.map_eq_some_iff.mp h
        obtain ⟨n, rfl⟩ : ∃ k, n = k + 1 := by cases n with | zero => cases hy | succ n => exact ⟨n, rfl⟩
        rw [readMembers] at hy
        have : skip [] = [] := rfl
        rw [this] at hy
        cases hy
      | cons c u =>
        have hs' := skip_append hs t
        rw [hs] at h
        by_cases hc : c = '}'
        · subst hc
          injection h with h
          injection h with e1 e2
          rw [List.cons_append, readValue, hs', ← e1, ← e2]
          rfl
        · have h' : (readMembers n (c :: u)).map (fun r => (Json.obj r.1, r.2)) = some (v, r) := by
            split at h
            · rename_i hx; injection hx with hx; exact absurd hx hc
            · exact h
          obtain ⟨y, hy, e⟩ := Option.map_eq_some_iff.mp h'
          injection e with e1 e2
          rw [List.cons_append, ← e1, ← e2]
          refine readValue_obj hs' hc ?_
          exact readMembers_append n m (c :: u) y.2 t y.1 (by omega) hy
    · obtain ⟨y, hy, e⟩ := Option.map_eq_some_iff.mp h
      injection e with e1 e2
      have hr : y.2 ≠ [] := by
        rcases hv with hv | hv
        · rw [e2]; exact hv
        · exact absurd e1.symm (hv _)
      obtain ⟨c, u, rfl, hc⟩ := readNat_head hy
      have := readNat_append hy hr t
      rw [List.cons_append] at this ⊢
      rw [readValue_digit m hc, this, Option.map_some, ← e1, ← e2]

theorem readElements_append : ∀ (n m : Nat) (s r t : Str) (v : List Json), n ≤ m → readElements n s = some (v, r) →
    readElements m (s ++ t) = some (v, r ++ t)
  | 0, _, _, _, _, _, _, h => by cases h
  | n + 1, 0, _, _, _, _, hm, _ => by omega
  | n + 1, m + 1, s, r, t, v, hm, h => by
    rw [readElements] at h
    simp only [Option.bind_eq_bind] at h
    obtain ⟨x, hx, h⟩ := Option.bind_eq_some_iff.mp h
    have hsk : skip (s ++ t) = skip s ++ t := by
      cases hs : skip s with
      | nil => rw [hs, readValue_nil] at hx; cases hx
      | cons c u => rw [skip_append hs t]; rfl
    split at h
    · rename_i s' hs'
      injection h with h
      injection h with e1 e2
      have hne : x.2 ≠ [] := by intro h0; rw [h0] at hs'; cases hs'
      rw [← e1, ← e2]
      refine readElements_last (s' := x.2 ++ t) ?_ (skip_append hs' t)
      rw [hsk]
      exact readValue_append n m (skip s) x.2 t x.1 (by omega) hx (.inl hne)
    · rename_i s' hs'
      obtain ⟨y, hy, e⟩ := Option.map_eq_some_iff.mp h
      injection e with e1 e2
      have hne : x.2 ≠ [] := by intro h0; rw [h0] at hs'; cases hs'
      rw [← e1, ← e2]
      refine readElements_more (s' := x.2 ++ t) ?_ (skip_append hs' t) (readElements_append n m s' y.2 t y.1 (by omega) hy)
      rw [hsk]
      exact readValue_append n m (skip s) x.2 t x.1 (by omega) hx (.inl hne)
    · cases h

theorem readMembers_append : ∀ (n m : Nat) (s r t : Str) (v : List (Str × Json)), n ≤ m → readMembers n s = some (v, r) →
    readMembers m (s ++ t) = some (v, r ++ t)
  | 0, _, _, _, _, _, _, h => by cases h
  | n + 1, 0, _, _, _, _, hm, _ => by omega
  | n + 1, m + 1, s, r, t, v, hm, h => by
    rw [readMembers] at h
    split at h
    · rename_i s1 hs1
      simp only [Option.bind_eq_bind] at h
      obtain ⟨k, hk, h⟩ := Option.bind_eq_some_iff.mp h
      split at h
      · rename_i s3 hs3
        obtain ⟨x, hx, h⟩ := Option.bind_eq_some_iff.mp h
        have hsk : skip (s3 ++ t) = skip s3 ++ t := by
          cases hs : skip s3 with
          | nil => rw [hs, readValue_nil] at hx; cases hx
          | cons c u => rw [skip_append hs t]; rfl
        split at h
        · rename_i s' hs'
          injection h with h
          injection h with e1 e2
          have hne : x.2 ≠ [] := by intro h0; rw [h0] at hs'; cases hs'
          rw [← e1, ← e2]
          refine readMembers_last (skip_append hs1 t) (readChars_append _ _ (Nat.le_refl _) k.1 k.2 t hk) (skip_append hs3 t) (s4 := x.2 ++ t) ?_
            (skip_append hs' t)
          rw [hsk]
          exact readValue_append n m (skip s3) x.2 t x.1 (by omega) hx (.inl hne)
        · rename_i s' hs'
          obtain ⟨y, hy, e⟩ := Option.map_eq_some_iff.mp h
          injection e with e1 e2
          have hne : x.2 ≠ [] := by intro h0; rw [h0] at hs'; cases hs'
          rw [← e1, ← e2]
          refine readMembers_more (skip_append hs1 t) (readChars_append _ _ (Nat.le_refl _) k.1 k.2 t hk) (skip_append hs3 t) (s4 := x.2 ++ t) ?_
            (skip_append hs' t) (readMembers_append n m s' y.2 t y.1 (by omega) hy)
          rw [hsk]
          exact readValue_append n m (skip s3) x.2 t x.1 (by omega) hx (.inl hne)
        · cases h
      · cases h
    · cases h

end

/-- A text that can be read to its end as a list, and not a character less: no proper beginning of it can be read. -/
theorem parse_prefix {s p t : Str} {js : List Json} (hs : s = '[' :: s.tail) (hread : readValue (s.length + 1) s = some (.arr js, []))
    (hp : s = p ++ t) (ht : t ≠ []) : parse p = none := by
  cases p with
  | nil => rfl
  | cons c p =>
    have hc : c = '[' := by rw [hp] at hs; injection hs with h _
    subst hc
    unfold parse
    rw [skip_not (by decide)]
    cases h : readValue (('[' :: p).length + 1) ('[' :: p) with
    | none => rfl
    | some x =>
      exfalso
      obtain ⟨v, r⟩ := x
      have hv : ∀ k, v ≠ .int k := by
        rintro k rfl
        rw [readValue] at h
        split at h
        · injection h with h; injection h with h; cases h
        · obtain ⟨y, -, e⟩ := Option.map_eq_some_iff.mp h
          injection e with e; cases e
      have := readValue_append _ (s.length + 1) _ _ t _ (by rw [hp]; simp) h (.inr hv)
      rw [← hp, hread] at this
      injection this with this
      injection this with _ this
      exact ht (List.append_eq_nil_iff.mp this.symm).2

theorem listFile_read (js : List Json) : ∃ s, listFile (js.map (dump 0)) = '[' :: s ∧
    readValue ((listFile (js.map (dump 0))).length + 1) (listFile (js.map (dump 0))) = some (.arr js, []) := by
  refine ⟨_, rfl, ?_⟩
  cases js with
  | nil => rfl
  | cons x xs =>
    unfold listFile
    rw [intercalate_dump]
    have hst : Stops "\n]".toList := stops_cons (by decide) _
    have hh := readElements_dump x xs ("[\n".toList ++ (dump 0 x ++ dumpRest 0 xs) ++ "\n]".toList).length 0 [] "\n]".toList []
      (by
        have h1 := weight_le x 0
        have h2 := weightArr_le xs 0
        simp only [weightArr, List.length_append]
        have e1 : "[\n".toList.length = 2 := rfl
        omega) (fun s => rfl) rfl hst
    obtain ⟨c, t, hd, hw, hc, -⟩ := dump_head 0 x
    generalize ("[\n".toList ++ (dump 0 x ++ dumpRest 0 xs) ++ "\n]".toList).length = n at hh ⊢
    have hsk : "[\n".toList ++ (dump 0 x ++ dumpRest 0 xs) ++ "\n]".toList = '[' :: '\n' :: (dump 0 x ++ (dumpRest 0 xs ++ "\n]".toList)) := by
      simp only [List.append_assoc]
      rfl
    rw [hsk]
    rw [List.nil_append] at hh
    rw [hd, List.cons_append] at hh ⊢
    exact readValue_arr (c := c) (r := []) (l := x :: xs) (by rw [skip_ws (by decide), skip_not hw]) hc hh

/-- A list of JSON values as the program writes it cannot be read before its closing bracket is written. -/
theorem parse_listFile_prefix (js : List Json) {p t : Str} (hp : listFile (js.map (dump 0)) = p ++ t) (ht : t ≠ []) : parse p = none := by
  obtain ⟨s, hs, hr⟩ := listFile_read js
  exact parse_prefix (by rw [hs]; rfl) hr hp ht

end Groot.Json
