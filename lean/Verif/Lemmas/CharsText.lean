import Verif.Lemmas.CharsMain
import Verif.Lemmas.JsonWrite

/-!
# The strings of the output files, and the kinds of text
-/

namespace Groot

open Spec Driver

section

variable {K : Str → Prop}

theorem strEntries_inElement {k : String} {i : Nat} {l : List (List JStep × Json)} (h : StrEntries K l) : StrEntries K (inElement k i l) := by
  intro p hp s hs
  obtain ⟨q, hq, rfl⟩ := List.mem_map.mp hp
  exact h q hq s hs

theorem strEntries_orNull {k : String} {α : Type} {l : List α} {e : List (List JStep × Json)} (h : StrEntries K e) : StrEntries K (orNull k l e) := by
  unfold orNull
  split
  · intro p hp s hs
    rw [List.mem_singleton.mp hp] at hs
    cases hs
  · exact h

theorem strEntries_map {α : Type} {l : List α} {f : α → List JStep × Json} (h : ∀ a ∈ l, ∀ s, (f a).2 = .str s → K s) : StrEntries K (l.map f) := by
  intro p hp s hs
  obtain ⟨a, ha, rfl⟩ := List.mem_map.mp hp
  exact h a ha s hs

theorem mem_of_zipIdx {α : Type} {l : List α} {n : Nat} {p : α × Nat} (h : p ∈ l.zipIdx n) : p.1 ∈ l := by
  have := List.mem_map_of_mem (f := Prod.fst) h
  rwa [List.zipIdx_map_fst] at this

theorem strEntries_listed {k : Str} {l : List Str} (h : ∀ s ∈ l, K s) : StrEntries K (listed k l) := by
  refine strEntries_map (fun a ha s hs => ?_)
  injection hs with hs
  rw [← hs]
  exact h _ (mem_of_zipIdx ha)

theorem strEntries_zip {α : Type} {k : String} {l : List α} {f : α → List (List JStep × Json)} (h : ∀ a ∈ l, StrEntries K (f a)) :
    StrEntries K (orNull k l (l.zipIdx.flatMap (fun n => inElement k n.2 (f n.1)))) :=
  strEntries_orNull (strEntries_flatMap (fun p hp => strEntries_inElement (h _ (mem_of_zipIdx hp))))

theorem strEntries_pair {p : PairDiff} (h : CleanPair K p) : StrEntries K (pairEntries p) := by
  obtain ⟨-, h1, h2, h3, h4⟩ := h
  unfold pairEntries
  refine strEntries_append (strEntries_append (strEntries_append (strEntries_append (strEntries_append (strEntries_append
    (strEntries_cons h1 (strEntries_cons h2 strEntries_nil)) ?_) ?_) ?_) ?_) ?_) ?_
  · exact strEntries_listed (fun s hs => h3 s (by simp [hs]))
  · exact strEntries_listed (fun s hs => h3 s (by simp [hs]))
  · exact strEntries_listed (fun s hs => h3 s (by simp [hs]))
  all_goals
    refine strEntries_listed (fun s hs => ?_)
    cases hg : p.glueDiff with
    | none => rw [hg] at hs; cases hs
    | some g =>
      rw [hg] at hs
      exact h4 g hg s (by simp only [Option.map_some, Option.getD_some] at hs; simp [hs])

theorem field_has (hk : TextLike K) {k : String} (t : String) (h : t.toList.all (fun c => c.toNat < 128) = true) {l : List (List JStep × Json)}
    (hl : StrEntries K l) : StrEntries K (field k t.toList :: l) := strEntries_cons (has_ascii hk h) hl

/-- All strings of the object of a violation are of the kind `K`. -/
theorem entries_has (hk : TextLike K) {ord : List Str → List Str} (hord : ∀ l, (ord l).Perm l) {v : Violation} (h : Clean K v) :
    StrEntries K (entries ord v) := by
  cases v with
  | loop ns =>
    refine strEntries_append (strEntries_zip (f := fun n : LoopNode => (n.tag.map (fun t => ([JStep.key "AnswerTag".toList], Json.int (tagNumber t)))).toList ++
      [field "NS" n.ns, field "Query" n.query]) (fun n hn => ?_)) (field_has hk _ (by decide) strEntries_nil)
    refine strEntries_append ?_ (strEntries_cons (h n hn).1 (strEntries_cons (h n hn).2 strEntries_nil))
    cases n.tag with
    | none => exact strEntries_nil
    | some t => exact strEntries_int strEntries_nil
  | responseReturned q t ns =>
    exact field_has hk _ (by decide) (strEntries_cons h.1 (strEntries_cons h.2.2 (strEntries_cons h.2.1 strEntries_nil)))
  | responseValue e ms =>
    refine strEntries_append (strEntries_cons h.1 (strEntries_zip (f := fun m : Str × Str × Str => [field "Found" m.1, field "Nameserver" m.2.2, field "Query" m.2.1])
      (fun m hm => ?_))) (field_has hk _ (by decide) strEntries_nil)
    exact strEntries_cons (h.2 m hm).1 (strEntries_cons (h.2 m hm).2.2 (strEntries_cons (h.2 m hm).2.1 strEntries_nil))
  | responseConsistency q => exact field_has hk _ (by decide) (strEntries_cons h strEntries_nil)
  | zeroTTL q ns r => exact field_has hk _ (by decide) (strEntries_cons h.1 (strEntries_cons h.2.1 (strEntries_cons h.2.2 strEntries_nil)))
  | «alias» q c => exact strEntries_cons h.2 (field_has hk _ (by decide) (strEntries_cons h.1 strEntries_nil))
  | infiniteDname q1 q2 used =>
    refine strEntries_append (field_has hk _ (by decide) (strEntries_cons h.1 (strEntries_cons h.2.1 strEntries_nil))) (strEntries_map (fun a ha s hs => ?_))
    injection hs with hs
    rw [← hs]
    have := mem_of_zipIdx ha
    split_ifs at this
    · cases this
    · exact h.2.2 _ ((hord used).mem_iff.mp this)
  | delegation q n1 n2 glue =>
    refine field_has hk _ (by decide) (strEntries_cons h.1 (strEntries_cons ?_ (strEntries_cons h.2.1 (strEntries_cons h.2.2 strEntries_nil))))
    split_ifs
    · exact has_ascii hk (by decide)
    · exact has_ascii hk (by decide)
  | lame q n1 n2 => exact field_has hk _ (by decide) (strEntries_cons h.1 (strEntries_cons h.2.1 (strEntries_cons h.2.2 strEntries_nil)))
  | dnameLength q t ns => exact field_has hk _ (by decide) (strEntries_cons h.1 (strEntries_cons h.2.2 (strEntries_cons h.2.1 strEntries_nil)))
  | nsContact q ns a => exact field_has hk _ (by decide) (strEntries_cons h.1 (strEntries_cons h.2.2 (strEntries_cons h.2.1 strEntries_nil)))
  | hops q n m => exact field_has hk _ (by decide) (strEntries_cons h (strEntries_int (strEntries_int strEntries_nil)))
  | rewrites q n m => exact field_has hk _ (by decide) (strEntries_cons h (strEntries_int (strEntries_int strEntries_nil)))
  | queryRewrite q t ns a =>
    exact field_has hk _ (by decide) (strEntries_cons h.1 (strEntries_cons h.2.2.2 (strEntries_cons h.2.2.1 (strEntries_cons h.2.1 strEntries_nil))))
  | blackhole q t ns => exact field_has hk _ (by decide) (strEntries_cons h.1 (strEntries_cons h.2.2 (strEntries_cons h.2.1 strEntries_nil)))
  | structural d pairs =>
    exact strEntries_append (strEntries_cons h.1 (strEntries_zip (fun p hp => strEntries_pair (h.2 p hp)))) (field_has hk _ (by decide) strEntries_nil)
  | allAliases gs =>
    refine strEntries_append (strEntries_zip (f := fun g : Str × List Str => (if g.2 = [] then [([JStep.key "Aliases".toList], .arr [])]
          else listed "Aliases".toList g.2) ++ [field "Canonical Name" g.1]) (fun g hg => ?_)) (field_has hk _ (by decide) strEntries_nil)
    refine strEntries_append ?_ (strEntries_cons (h g hg).1 strEntries_nil)
    split_ifs
    · intro p hp s hs
      rw [List.mem_singleton.mp hp] at hs
      cases hs
    · exact strEntries_listed (h g hg).2

theorem issueEntries_has {file : Str} (hf : K file) {i : Parser.Issue} (h : IssueHas K i) : StrEntries K (issueEntries file i) := by
  unfold issueEntries
  refine strEntries_append (strEntries_append (strEntries_cons h.1 (strEntries_cons hf (strEntries_int strEntries_nil))) ?_) (strEntries_cons h.2.1 strEntries_nil)
  split_ifs
  · exact strEntries_nil
  · exact strEntries_cons h.2.2 strEntries_nil

theorem glueEntries_has (hk : TextLike K) {i : Zone.GlueIssue} (h : K i.server ∧ K i.zone ∧ K i.record) : StrEntries K (glueEntries i) :=
  strEntries_cons h.2.2 (strEntries_cons h.1 (field_has hk _ (by decide) (strEntries_cons h.2.1 strEntries_nil)))

end

/-! ## Kinds of text -/

theorem toNat_ofNat {n : Nat} (h : n < 55296) : (Char.ofNat n).toNat = n := by
  have hv : n.isValidChar := .inl h
  rw [Char.ofNat, dif_pos hv]; rfl

theorem lowerChar_toNat (c : Char) : (lowerChar c).toNat = if 65 ≤ c.toNat ∧ c.toNat ≤ 90 then c.toNat + 32 else c.toNat := by
  unfold lowerChar
  have e : ('A' ≤ c ∧ c ≤ 'Z') ↔ (65 ≤ c.toNat ∧ c.toNat ≤ 90) := Iff.rfl
  by_cases h : 65 ≤ c.toNat ∧ c.toNat ≤ 90
  · rw [if_pos (e.mpr h), if_pos h]
    exact toNat_ofNat (by omega)
  · rw [if_neg (fun hh => h (e.mp hh)), if_neg h]

/-- Texts made of characters that are ASCII or satisfy `P`. -/
theorem textLike_chars (P : Char → Prop) : TextLike (fun s => ∀ c ∈ s, c.toNat < 128 ∨ P c) where
  ascii s h c hc := .inl (h c hc)
  append a b ha hb c hc := by
    rcases List.mem_append.mp hc with h | h
    · exact ha c h
    · exact hb c h
  split a c b _ h := ⟨fun d hd => h d (by simp [hd]), fun d hd => h d (by simp [hd])⟩
  lower s h c hc := by
    obtain ⟨d, hd, rfl⟩ := List.mem_map.mp hc
    have e := lowerChar_toNat d
    by_cases hu : 65 ≤ d.toNat ∧ d.toNat ≤ 90
    · rw [if_pos hu] at e
      left; omega
    · rcases h d hd with h | h
      · rw [if_neg hu] at e
        left; omega
      · right
        unfold lowerChar
        rw [if_neg (fun hh : 'A' ≤ d ∧ d ≤ 'Z' => hu hh)]
        exact h

theorem utf8_nonempty (n : Nat) : utf8 n ≠ [] := by
  unfold utf8
  split_ifs <;> simp

/-- UTF-8 can be cut at any ASCII character. -/
theorem utf8_split : ∀ (cs : List Nat) (a : List Nat) (c : Nat) (b : List Nat), c < 128 → a ++ c :: b = cs.flatMap utf8 →
    ∃ ca cb, cs = ca ++ c :: cb ∧ a = ca.flatMap utf8 ∧ b = cb.flatMap utf8
  | [], a, c, b, _, h => by simp at h
  | n :: cs, a, c, b, hc, h => by
    rw [List.flatMap_cons] at h
    rcases List.append_eq_append_iff.mp h with ⟨x, h1, h2⟩ | ⟨x, h1, h2⟩
    · -- utf8 n = a ++ x, c :: b = x ++ rest
      cases x with
      | nil =>
        rw [List.append_nil] at h1
        rw [List.nil_append] at h2
        obtain ⟨ca, cb, e1, e2, e3⟩ := utf8_split cs [] c b hc h2
        refine ⟨n :: ca, cb, by rw [e1]; rfl, ?_, e3⟩
        rw [List.flatMap_cons, ← e2, List.append_nil, h1]
      | cons d x =>
        rw [List.cons_append] at h2
        injection h2 with h3 h4
        subst h3
        by_cases hn : n < 128
        · rw [Json.utf8_one hn] at h1
          cases a with
          | nil =>
            rw [List.nil_append] at h1
            injection h1 with h5 h6
            subst h6
            exact ⟨[], cs, by rw [h5]; rfl, rfl, by simpa using h4⟩
          | cons y a => simp at h1
        · have := Json.utf8_high hn c (by rw [h1]; simp)
          omega
    · -- a = utf8 n ++ x
      obtain ⟨ca, cb, e1, e2, e3⟩ := utf8_split cs x c b hc h2.symm
      refine ⟨n :: ca, cb, by rw [e1]; rfl, ?_, e3⟩
      rw [List.flatMap_cons, ← e2, h1]

/-- The lower case of a code point. -/
def lowerNat (n : Nat) : Nat := if 65 ≤ n ∧ n ≤ 90 then n + 32 else n

theorem utf8_lower (n : Nat) : (utf8 n).map lowerNat = utf8 (lowerNat n) := by
  by_cases hn : n < 128
  · rw [Json.utf8_one hn, Json.utf8_one (by unfold lowerNat; split_ifs <;> omega)]
    rfl
  · have e : lowerNat n = n := by unfold lowerNat; rw [if_neg (by omega)]
    rw [e]
    have : ∀ m ∈ utf8 n, lowerNat m = m := fun m hm => by
      have := Json.utf8_high hn m hm
      unfold lowerNat; rw [if_neg (by omega)]
    rw [List.map_congr_left this, List.map_id']

/-- UTF-8 is a kind of text. -/
theorem textLike_utf8 : TextLike Utf8 where
  ascii s h := Spec.Utf8.ascii h
  append a b ha hb := Spec.Utf8.append ha hb
  split a c b hc h := by
    obtain ⟨cs, h1, h2⟩ := h
    rw [List.map_append, List.map_cons] at h2
    obtain ⟨ca, cb, e1, e2, e3⟩ := utf8_split cs _ _ _ hc h2
    exact ⟨⟨ca, fun x hx => h1 x (by rw [e1]; simp [hx]), e2⟩, cb, fun x hx => h1 x (by rw [e1]; simp [hx]), e3⟩
  lower s h := by
    obtain ⟨cs, h1, h2⟩ := h
    refine ⟨cs.map lowerNat, fun x hx => ?_, ?_⟩
    · obtain ⟨n, hn, rfl⟩ := List.mem_map.mp hx
      have := h1 n hn
      unfold lowerNat
      split_ifs
      · left; omega
      · exact this
    · have e : (toLower s).map Char.toNat = (s.map Char.toNat).map lowerNat := by
        unfold toLower
        rw [List.map_map, List.map_map]
        exact List.map_congr_left (fun c _ => lowerChar_toNat c)
      rw [e, h2, List.map_flatMap, List.flatMap_map]
      refine congrArg (fun f => cs.flatMap f) (funext (fun n => utf8_lower n))

end Groot
