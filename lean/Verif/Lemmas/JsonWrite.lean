import Verif.Lemmas.Json
import Verif.Lemmas.JsonInj
import Verif.Props.Driver
import Mathlib.Tactic.Push
import Mathlib.Tactic.ByContra

/-!
# Writing the violations: when it ends, and that the file is UTF-8
-/

namespace Groot

open Spec

namespace Json

/-- The keys and the string of an entry are UTF-8. -/
def Good (p : List JStep × Json) : Prop := (∀ k, JStep.key k ∈ p.1 → Utf8 k) ∧ ∀ s, p.2 = .str s → Utf8 s

theorem leaves_ne : ∀ j : Json, leaves j ≠ []
  | .null => by simp [leaves]
  | .int _ => by simp [leaves]
  | .str _ => by simp [leaves]
  | .arr [] => by simp [leaves]
  | .arr (x :: xs) => by
    have := leaves_ne x
    simp [leaves, leavesArr, this]
  | .obj [] => by simp [leaves]
  | .obj ((k, x) :: xs) => by
    have := leaves_ne x
    simp [leaves, leavesObj, this]

mutual

theorem textOk_iff : ∀ j : Json, textOk j = true ↔ ∀ p ∈ leaves j, Good p
  | .null => by simp [textOk, leaves, Good]
  | .int _ => by simp [textOk, leaves, Good]
  | .str s => by
    rw [textOk, utf8Ok_iff]
    simp [leaves, Good]
  | .arr [] => by simp [textOk, textOkArr, leaves, Good]
  | .arr (x :: xs) => by
    rw [textOk, leaves]
    exact textOkArr_iff (x :: xs) 0
  | .obj [] => by simp [textOk, textOkObj, leaves, Good]
  | .obj (x :: xs) => by
    rw [textOk, leaves]
    exact textOkObj_iff (x :: xs)

theorem textOkArr_iff : ∀ (l : List Json) (i : Nat), textOkArr l = true ↔ ∀ p ∈ leavesArr i l, Good p
  | [], i => by simp [textOkArr, leavesArr]
  | x :: xs, i => by
    have h1 := textOk_iff x
    have h2 := textOkArr_iff xs (i + 1)
    rw [textOkArr, leavesArr, Bool.and_eq_true, h1, h2, List.forall_mem_append]
    refine and_congr ?_ Iff.rfl
    constructor
    · intro h p hp
      obtain ⟨q, hq, rfl⟩ := List.mem_map.mp hp
      exact ⟨fun k hk => (h q hq).1 k (by simpa using hk), (h q hq).2⟩
    · intro h q hq
      have := h _ (List.mem_map_of_mem hq)
      exact ⟨fun k hk => this.1 k (by simp [hk]), this.2⟩

theorem textOkObj_iff : ∀ (l : List (Str × Json)), textOkObj l = true ↔ ∀ p ∈ leavesObj l, Good p
  | [] => by simp [textOkObj, leavesObj]
  | (k, x) :: xs => by
    have h1 := textOk_iff x
    have h2 := textOkObj_iff xs
    rw [textOkObj, leavesObj, Bool.and_eq_true, Bool.and_eq_true, h1, h2, utf8Ok_iff, List.forall_mem_append]
    refine and_congr ?_ Iff.rfl
    constructor
    · rintro ⟨hk, hx⟩ p hp
      obtain ⟨q, hq, rfl⟩ := List.mem_map.mp hp
      refine ⟨fun k' hk' => ?_, (hx q hq).2⟩
      rcases List.mem_cons.mp hk' with h | h
      · injection h with h; rw [h]; exact hk
      · exact (hx q hq).1 k' h
    · intro h
      constructor
      · obtain ⟨q, hq⟩ := List.exists_mem_of_ne_nil _ (leaves_ne x)
        exact (h _ (List.mem_map_of_mem hq)).1 k (by simp)
      · intro q hq
        have := h _ (List.mem_map_of_mem hq)
        exact ⟨fun k' hk' => this.1 k' (by simp [hk']), this.2⟩

end

/-! ### The keys are ASCII -/

/-- All keys are ASCII. -/
def Keys (l : List (List JStep × Json)) : Prop := ∀ p ∈ l, ∀ k, JStep.key k ∈ p.1 → ∀ c ∈ k, c.toNat < 128

theorem Keys.append {a b : List (List JStep × Json)} (ha : Keys a) (hb : Keys b) : Keys (a ++ b) := fun p hp => by
  rcases List.mem_append.mp hp with h | h
  · exact ha p h
  · exact hb p h

theorem Keys.nil : Keys [] := fun _ h => nomatch h

theorem Keys.cons {p : List JStep × Json} {b : List (List JStep × Json)} (ha : ∀ k, JStep.key k ∈ p.1 → ∀ c ∈ k, c.toNat < 128) (hb : Keys b) :
    Keys (p :: b) := fun q hq => by
  rcases List.mem_cons.mp hq with h | h
  · rw [h]; exact ha
  · exact hb q h

theorem keys_field {k : String} {s : Str} (h : ∀ c ∈ k.toList, c.toNat < 128) : ∀ k', JStep.key k' ∈ (field k s).1 → ∀ c ∈ k', c.toNat < 128 := by
  intro k' hk'
  simp only [field, List.mem_singleton, JStep.key.injEq] at hk'
  rw [hk']; exact h

theorem keys_two {k1 k2 : Str} (h1 : ∀ c ∈ k1, c.toNat < 128) (h2 : ∀ c ∈ k2, c.toNat < 128) :
    ∀ k', JStep.key k' ∈ [JStep.key k1, JStep.key k2] → ∀ c ∈ k', c.toNat < 128 := by
  intro k' hk'
  simp only [List.mem_cons, JStep.key.injEq, List.not_mem_nil, or_false] at hk'
  rcases hk' with h | h
  · rw [h]; exact h1
  · rw [h]; exact h2

theorem keys_listed {k : Str} (l : List Str) (h : ∀ c ∈ k, c.toNat < 128) : Keys (listed k l) := by
  intro p hp k' hk'
  unfold listed at hp
  obtain ⟨q, -, rfl⟩ := List.mem_map.mp hp
  simp only [List.mem_cons, JStep.key.injEq, List.not_mem_nil, or_false, reduceCtorEq] at hk'
  rw [hk']; exact h

theorem keys_within {k : String} {i : Nat} {l : List (List JStep × Json)} (h : ∀ c ∈ k.toList, c.toNat < 128) (hl : Keys l) : Keys (inElement k i l) := by
  intro p hp k' hk'
  unfold inElement at hp
  obtain ⟨q, hq, rfl⟩ := List.mem_map.mp hp
  simp only [List.mem_cons, JStep.key.injEq, reduceCtorEq, false_or] at hk'
  rcases hk' with hk' | hk'
  · rw [hk']; exact h
  · exact hl q hq k' hk'

theorem keys_orNull {α : Type} {k : String} {l : List α} {e : List (List JStep × Json)} (h : ∀ c ∈ k.toList, c.toNat < 128) (he : Keys e) : Keys (orNull k l e) := by
  unfold orNull
  split
  · exact Keys.cons (keys_field (s := []) h) Keys.nil
  · exact he

theorem keys_flatMap {α : Type} {l : List α} {f : α → List (List JStep × Json)} (h : ∀ a ∈ l, Keys (f a)) : Keys (l.flatMap f) := by
  intro p hp
  obtain ⟨a, ha, hp⟩ := List.mem_flatMap.mp hp
  exact h a ha p hp

theorem ascii_append {a b : Str} (ha : ∀ c ∈ a, c.toNat < 128) (hb : ∀ c ∈ b, c.toNat < 128) : ∀ c ∈ a ++ b, c.toNat < 128 := by
  intro c hc
  rcases List.mem_append.mp hc with h | h
  · exact ha c h
  · exact hb c h

theorem keys_pair {p : PairDiff} (h : (p.roleA, p.roleB) ∈ roles) : Keys (pairEntries p) := by
  have h2 : (∀ c ∈ p.roleA, c.toNat < 128) ∧ ∀ c ∈ p.roleB, c.toNat < 128 := by
    have : ∀ r ∈ roles, (∀ c ∈ r.1, c.toNat < 128) ∧ ∀ c ∈ r.2, c.toNat < 128 := by decide +kernel
    exact this _ h
  unfold pairEntries
  have one : ∀ k : Str, ∀ s : Json, (∀ c ∈ k, c.toNat < 128) → ∀ k', JStep.key k' ∈ [JStep.key k] → ∀ c ∈ k', c.toNat < 128 := by
    intro k _ hk k' hk'
    simp only [List.mem_singleton, JStep.key.injEq] at hk'
    rw [hk']; exact hk
  refine .append (.append (.append (.append (.append (.append (.cons (one _ .null ?_) (.cons (one _ .null ?_) .nil)) (keys_listed _ ?_)) (keys_listed _ ?_))
    (keys_listed _ ?_)) (keys_listed _ ?_)) (keys_listed _ ?_)) (keys_listed _ ?_)
  · exact ascii_append h2.1 (by decide)
  · exact ascii_append h2.2 (by decide)
  · decide +kernel
  · exact ascii_append (ascii_append (by decide) h2.1) (by decide)
  · exact ascii_append (ascii_append (by decide) h2.2) (by decide)
  · decide +kernel
  · exact ascii_append (ascii_append (by decide) h2.1) (by decide)
  · exact ascii_append (ascii_append (by decide) h2.2) (by decide)

theorem digits_ascii (n : Nat) : ∀ c ∈ Nat.toDigits 10 n, c.toNat < 128 := by
  intro c hc
  have h := (digits_spec (n + 1) n (by omega)).1 c (by
    have := natText_eq n
    unfold natText at this
    rw [this]; exact hc)
  simp only [JsonText.isDec, Bool.and_eq_true, decide_eq_true_eq] at h
  omega

theorem keys_entries (ord : List Str → List Str) (v : Violation) (hv : RolesOk v) : Keys (entries ord v) := by
  cases v with
  | loop nodes =>
    refine .append (keys_orNull (by decide) (keys_flatMap (fun n _ => keys_within (by decide) (.append ?_ (.cons (keys_field (by decide)) (.cons (keys_field (by decide)) .nil))))))
      (.cons (keys_field (by decide)) .nil)
    cases n.1.tag with
    | none => exact Keys.nil
    | some t => exact .cons (keys_field (k := "AnswerTag") (s := []) (by decide)) .nil
  | responseValue e ms =>
    exact .cons (keys_field (by decide)) (.append (keys_orNull (by decide) (keys_flatMap (fun n _ => keys_within (by decide)
      (.cons (keys_field (by decide)) (.cons (keys_field (by decide)) (.cons (keys_field (by decide)) .nil)))))) (.cons (keys_field (by decide)) .nil))
  | infiniteDname q1 q2 used =>
    refine .append (.cons (keys_field (by decide)) (.cons (keys_field (by decide)) (.cons (keys_field (by decide)) .nil))) ?_
    intro p hp
    obtain ⟨r, -, rfl⟩ := List.mem_map.mp hp
    refine keys_two (by decide) ?_
    intro c hc
    rcases List.mem_cons.mp hc with rfl | hc
    · decide
    rcases List.mem_cons.mp hc with rfl | hc
    · decide
    exact digits_ascii _ c hc
  | structural d pairs =>
    refine .cons (keys_field (by decide)) (.append (keys_orNull (by decide) (keys_flatMap (fun n hn => keys_within (by decide) (keys_pair (hv n.1 ?_)))))
      (.cons (keys_field (by decide)) .nil))
    have := List.mem_map_of_mem (f := Prod.fst) hn
    rwa [List.zipIdx_map_fst] at this
  | allAliases groups =>
    refine .append (keys_orNull (by decide) (keys_flatMap (fun n _ => keys_within (by decide) (.append ?_ (.cons (keys_field (by decide)) .nil)))))
      (.cons (keys_field (by decide)) .nil)
    split_ifs
    · exact .cons (keys_field (k := "Aliases") (s := []) (by decide)) .nil
    · exact keys_listed _ (by decide)
  | responseConsistency q => exact .cons (keys_field (by decide)) (.cons (keys_field (by decide)) .nil)
  | «alias» q c => exact .cons (keys_field (by decide)) (.cons (keys_field (by decide)) (.cons (keys_field (by decide)) .nil))
  | delegation q n1 n2 g => exact .cons (keys_field (by decide)) (.cons (keys_field (by decide)) (.cons (keys_two (by decide) (by decide))
      (.cons (keys_two (by decide) (by decide)) (.cons (keys_two (by decide) (by decide)) .nil))))
  | queryRewrite q t ns a => exact .cons (keys_field (by decide)) (.cons (keys_field (by decide)) (.cons (keys_two (by decide) (by decide))
      (.cons (keys_two (by decide) (by decide)) (.cons (keys_two (by decide) (by decide)) .nil))))
  | _ => exact .cons (keys_field (by decide)) (.cons (keys_field (by decide)) (.cons (keys_two (by decide) (by decide))
      (.cons (keys_two (by decide) (by decide)) .nil)))

/-- The object of a violation can be dumped if and only if its strings are UTF-8. -/
theorem textOk_toJson (ord : List Str → List Str) (hord : ∀ l, (ord l).Perm l) (v : Violation) (hv : RolesOk v) :
    textOk (v.toJson ord) = true ↔ TextEntries (entries ord v) := by
  rw [textOk_iff]
  have hp := toJson_leaves ord hord v hv
  constructor
  · intro h p hp'
    exact (h p (hp.mem_iff.mpr hp')).2
  · intro h p hp'
    have := hp.mem_iff.mp hp'
    exact ⟨fun k hk => Spec.Utf8.ascii (keys_entries ord v hv p this k hk), h p this⟩

theorem utf8_high {n : Nat} (hn : ¬ n < 128) : ∀ b ∈ utf8 n, 128 ≤ b := by
  intro b hb
  unfold utf8 at hb
  rw [if_neg hn] at hb
  split_ifs at hb <;> simp only [List.mem_cons, List.not_mem_nil, or_false] at hb <;> omega

theorem escape_high {c : Char} (h : 128 ≤ c.toNat) : escape c = [c] := by
  have ne : ∀ d : Char, d.toNat < 128 → c ≠ d := fun d hd e => by rw [e] at h; omega
  unfold escape
  rw [if_neg (ne _ (by decide)), if_neg (ne _ (by decide)), if_neg (ne _ (by decide)), if_neg (ne _ (by decide)), if_neg (ne _ (by decide)),
    if_neg (ne _ (by decide)), if_neg (ne _ (by decide)), if_neg (by omega)]

theorem hexDigit_ascii : ∀ n, n < 16 → (hexDigit n).toNat < 128 := by decide

theorem escape_low {c : Char} (h : c.toNat < 128) : ∀ d ∈ escape c, d.toNat < 128 := by
  unfold escape
  split_ifs
  · decide
  · decide
  · decide
  · decide
  · decide
  · decide
  · decide
  · intro d hd
    have h1 := hexDigit_ascii (c.toNat / 16) (by omega)
    have h2 := hexDigit_ascii (c.toNat % 16) (by omega)
    simp only [List.mem_cons, List.not_mem_nil, or_false] at hd
    rcases hd with rfl | rfl | rfl | rfl | rfl | rfl
    · decide
    · decide
    · decide
    · decide
    · exact h1
    · exact h2
  · intro d hd
    rw [List.mem_singleton.mp hd]; exact h

theorem escape_utf8 {s : Str} (h : Utf8 s) : Utf8 (s.flatMap escape) := by
  obtain ⟨cs, h1, h2⟩ := h
  induction cs generalizing s with
  | nil =>
    rw [List.flatMap_nil, List.map_eq_nil_iff] at h2
    subst h2
    exact Spec.Utf8.ascii (by simp)
  | cons n cs ih =>
    rw [List.flatMap_cons] at h2
    obtain ⟨pre, t, rfl, hp, ht⟩ := List.map_eq_append_iff.mp h2
    rw [List.flatMap_append]
    refine Spec.Utf8.append ?_ (ih (fun c hc => h1 c (by simp [hc])) ht)
    by_cases hn : n < 128
    · refine Spec.Utf8.ascii (fun d hd => ?_)
      obtain ⟨c, hc, hd⟩ := List.mem_flatMap.mp hd
      refine escape_low ?_ d hd
      have := List.mem_map_of_mem (f := Char.toNat) hc
      rw [hp, utf8_one hn, List.mem_singleton] at this
      omega
    · have : pre.flatMap escape = pre := by
        have hh : ∀ c ∈ pre, escape c = [c] := fun c hc => escape_high (utf8_high hn _ (hp ▸ List.mem_map_of_mem (f := Char.toNat) hc))
        clear hp h2
        induction pre with
        | nil => rfl
        | cons c pre ih2 => rw [List.flatMap_cons, hh c (by simp), ih2 (fun d hd => hh d (by simp [hd]))]; rfl
      rw [this]
      exact ⟨[n], by simpa using h1 n (by simp), by simpa using hp⟩

theorem quoted_utf8 {s : Str} (h : Utf8 s) : Utf8 (quoted s) :=
  Spec.Utf8.append (a := ['"']) (Spec.Utf8.ascii (by decide)) (Spec.Utf8.append (escape_utf8 h) (Spec.Utf8.ascii (by decide)))

theorem spaces_utf8 (n : Nat) : Utf8 (spaces n) := Spec.Utf8.ascii (fun c hc => by
  rw [(List.mem_replicate.mp hc).2]; decide)

theorem intText_utf8 (n : Int) : Utf8 (intText n) := by
  have h : ∀ n, Utf8 (natText n) := fun n => Spec.Utf8.ascii (fun c hc => by
    rw [natText_eq] at hc
    exact digits_ascii n c hc)
  unfold intText
  split_ifs
  · exact Spec.Utf8.append (a := ['-']) (Spec.Utf8.ascii (by decide)) (h _)
  · exact h _

mutual

theorem dump_utf8 : ∀ (j : Json) (ind : Nat), textOk j = true → Utf8 (dump ind j)
  | .null, ind, _ => by rw [dump]; exact Spec.Utf8.ascii (by decide)
  | .int n, ind, _ => by rw [dump]; exact intText_utf8 n
  | .str s, ind, h => by rw [textOk, utf8Ok_iff] at h; rw [dump]; exact quoted_utf8 h
  | .arr [], ind, _ => by rw [dump]; exact Spec.Utf8.ascii (by decide)
  | .arr (x :: xs), ind, h => by
    rw [textOk, textOkArr, Bool.and_eq_true] at h
    rw [dump]
    exact .append (.append (.append (.append (.append (.append (.ascii (by decide)) (spaces_utf8 _)) (dump_utf8 x _ h.1)) (dumpRest_utf8 xs _ h.2))
      (.ascii (by decide))) (spaces_utf8 _)) (.ascii (by decide))
  | .obj [], ind, _ => by rw [dump]; exact Spec.Utf8.ascii (by decide)
  | .obj ((k, x) :: xs), ind, h => by
    rw [textOk, textOkObj, Bool.and_eq_true, Bool.and_eq_true, utf8Ok_iff] at h
    rw [dump]
    exact .append (.append (.append (.append (.append (.append (.append (.append (.ascii (by decide)) (spaces_utf8 _)) (quoted_utf8 h.1.1)) (.ascii (by decide)))
      (dump_utf8 x _ h.1.2)) (dumpMembers_utf8 xs _ h.2)) (.ascii (by decide))) (spaces_utf8 _)) (.ascii (by decide))

theorem dumpRest_utf8 : ∀ (l : List Json) (ind : Nat), textOkArr l = true → Utf8 (dumpRest ind l)
  | [], ind, _ => by rw [dumpRest]; exact Spec.Utf8.ascii (by decide)
  | x :: xs, ind, h => by
    rw [textOkArr, Bool.and_eq_true] at h
    rw [dumpRest]
    exact .append (.append (.append (.ascii (by decide)) (spaces_utf8 _)) (dump_utf8 x _ h.1)) (dumpRest_utf8 xs _ h.2)

theorem dumpMembers_utf8 : ∀ (l : List (Str × Json)) (ind : Nat), textOkObj l = true → Utf8 (dumpMembers ind l)
  | [], ind, _ => by rw [dumpMembers]; exact Spec.Utf8.ascii (by decide)
  | (k, x) :: xs, ind, h => by
    rw [textOkObj, Bool.and_eq_true, Bool.and_eq_true, utf8Ok_iff] at h
    rw [dumpMembers]
    exact .append (.append (.append (.append (.append (.ascii (by decide)) (spaces_utf8 _)) (quoted_utf8 h.1.1)) (.ascii (by decide)))
      (dump_utf8 x _ h.1.2)) (dumpMembers_utf8 xs _ h.2)

end

theorem intercalate_utf8 {sep : Str} (hs : Utf8 sep) : ∀ (l : List Str), (∀ s ∈ l, Utf8 s) → Utf8 (List.intercalate sep l)
  | [], _ => Spec.Utf8.ascii (by simp [List.intercalate])
  | [x], h => by simpa [List.intercalate] using h x (by simp)
  | x :: y :: ys, h => by
    have e : List.intercalate sep (x :: y :: ys) = x ++ (sep ++ List.intercalate sep (y :: ys)) := by
      simp [List.intercalate, List.intersperse]
    rw [e]
    exact .append (h x (by simp)) (.append hs (intercalate_utf8 hs (y :: ys) (fun s hs' => h s (by simp [hs']))))

theorem listFile_utf8 {l : List Str} (h : ∀ s ∈ l, Utf8 s) : Utf8 (listFile l) :=
  Spec.Utf8.append (Spec.Utf8.append (Spec.Utf8.ascii (by decide)) (intercalate_utf8 (Spec.Utf8.ascii (by decide)) l h)) (Spec.Utf8.ascii (by decide))

end Json

namespace Driver

open Json

/-- What the loop writes. -/
def chunks : Nat → List Json → Str
  | _, [] => []
  | c, j :: js => (if c ≠ 0 then ",\n".toList else []) ++ dump 0 j ++ chunks (c + 1) js

theorem chunks_succ (c : Nat) (js : List Json) : chunks (c + 1) js = (js.map (fun j => ",\n".toList ++ dump 0 j)).flatten := by
  induction js generalizing c with
  | nil => rfl
  | cons j js ih => rw [chunks, if_pos (by omega), ih]; rfl

theorem chunks_zero (js : List Json) : chunks 0 js = List.intercalate ",\n".toList (js.map (dump 0)) := by
  cases js with
  | nil => rfl
  | cons j js =>
    rw [chunks, if_neg (by simp), chunks_succ, List.nil_append]
    induction js generalizing j with
    | nil => simp [List.intercalate]
    | cons k js ih =>
      have e : List.intercalate ",\n".toList ((j :: k :: js).map (dump 0)) =
          dump 0 j ++ (",\n".toList ++ List.intercalate ",\n".toList ((k :: js).map (dump 0))) := by
        simp [List.intercalate, List.intersperse]
      rw [e, ← ih k]
      simp only [List.map_cons, List.flatten_cons, List.append_assoc]

theorem writeLoop_good (js rest : List Json) (h : ∀ j ∈ js, textOk j = true) (out : Str) (c : Nat) :
    writeLoop out c (js ++ rest) = writeLoop (out ++ chunks c js) (c + js.length) rest := by
  induction js generalizing out c with
  | nil => simp [chunks]
  | cons j js ih =>
    rw [List.cons_append, writeLoop, dump?, if_pos (h j (by simp))]
    dsimp only
    rw [ih (fun x hx => h x (by simp [hx])), chunks, List.length_cons]
    congr 1
    · split_ifs <;> simp [List.append_assoc]
    · omega

theorem writeLoop_done (js : List Json) (h : ∀ j ∈ js, textOk j = true) (out : Str) : writeLoop out 0 js =
    (out ++ List.intercalate ",\n".toList (js.map (dump 0)), true) := by
  have := writeLoop_good js [] h out 0
  rw [List.append_nil] at this
  rw [this, writeLoop, chunks_zero]

theorem writeLoop_stops (js rest : List Json) (h : ∀ j ∈ js, textOk j = true) (j : Json) (hj : textOk j = false) (out : Str) :
    writeLoop out 0 (js ++ j :: rest) =
      (out ++ List.intercalate ",\n".toList (js.map (dump 0)) ++ (if js = [] then [] else ",\n".toList), false) := by
  rw [writeLoop_good js _ h, writeLoop, dump?, if_neg (by simp [hj]), chunks_zero]
  dsimp only
  cases js with
  | nil => simp
  | cons a as => simp

theorem writeLoop_iff (js : List Json) (out : Str) : (writeLoop out 0 js).2 = true ↔ ∀ j ∈ js, textOk j = true := by
  constructor
  · intro h
    by_contra hc
    push Not at hc
    obtain ⟨j, hj, hb⟩ := hc
    -- the first bad one
    have : ∃ pre j rest, js = pre ++ j :: rest ∧ (∀ x ∈ pre, textOk x = true) ∧ textOk j = false := by
      clear h
      induction js with
      | nil => cases hj
      | cons x xs ih =>
        by_cases hx : textOk x = true
        · have hj' : j ∈ xs := by
            rcases List.mem_cons.mp hj with e | e
            · rw [e] at hb; exact absurd hx hb
            · exact e
          obtain ⟨pre, k, rest, e1, e2, e3⟩ := ih hj'
          exact ⟨x :: pre, k, rest, by rw [e1]; rfl, by simpa [hx] using e2, e3⟩
        · exact ⟨[], x, xs, rfl, by simp, by simpa using hx⟩
    obtain ⟨pre, k, rest, rfl, e2, e3⟩ := this
    rw [writeLoop_stops pre rest e2 k e3] at h
    cases h
  · intro h
    rw [writeLoop_done js h]

end Driver

end Groot
