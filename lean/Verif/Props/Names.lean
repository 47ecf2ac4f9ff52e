import Verif.Lemmas.Compare

/-!
# C01–C07: names, types, record comparison, equality
-/

namespace Groot
open Spec

/-- A concrete name with an escaped dot, used below: `a\.b.example.com.` -/
def sampleName : Name := ["com".toList, "example".toList, "a\\.b".toList]

/-- Label equality on concrete characters, for the examples. -/
theorem sampleName_legal : LegalName sampleName := by
  have h := parse_legal "a\\.b.example.com".toList
  have e : stringToLabels "a\\.b.example.com".toList = sampleName := by decide
  rwa [e] at h

/-- **C01** Printing a name and parsing it back yields the same name. -/
theorem C01_print_parse (n : Name) (h : LegalName n) : stringToLabels (labelsToString n) = n := by
  rw [labelsToString_eq]; exact parse_present n h

/-- **C01** The printed form is the usual presentation format. -/
theorem C01_print_is_presentation (n : Name) : labelsToString n = present n := labelsToString_eq n

example : LegalName sampleName ∧ sampleName.length = 3 ∧ labelsToString sampleName = "a\\.b.example.com.".toList :=
  ⟨sampleName_legal, by decide, by decide⟩

/-- **C02** Parsing any byte string yields only legal labels. -/
theorem C02_parse_legal (s : Str) : LegalName (stringToLabels s) := parse_legal s

/-- **C02** The printed form of a parsed name parses to the same name. -/
theorem C02_parse_canonical (s : Str) : stringToLabels (labelsToString (stringToLabels s)) = stringToLabels s :=
  C01_print_parse _ (parse_legal s)

/-- **C02** A missing final dot makes no difference. -/
theorem C02_final_dot (s : Str) (h : s.getLast? ≠ some '.') (h0 : s ≠ []) :
    stringToLabels (s ++ ['.']) = stringToLabels s := by
  unfold stringToLabels
  have h1 : s.length ≠ 0 := by simpa using h0
  rw [if_neg (by simp), if_neg h1]
  simp [h]

example : "www.example.com".toList.getLast? ≠ some '.' ∧ "www.example.com".toList ≠ [] := by decide

/-- **C02** Every legal name is the parse of some string, so the parser's range is exactly the legal names. -/
theorem C02_range (n : Name) : LegalName n ↔ ∃ s, stringToLabels s = n :=
  ⟨fun h => ⟨_, C01_print_parse n h⟩, fun ⟨s, hs⟩ => hs ▸ parse_legal s⟩

/-- **C02** Both spellings of the root parse to the empty name. -/
theorem C02_root : stringToLabels [] = [] ∧ stringToLabels ['.'] = [] := by decide

/-- **C02** What any text is parsed to is exactly the name it stands for; so every text stands for exactly one name. -/
theorem C02_reads (s : Str) (n : Name) : stringToLabels s = n ↔ Reads s n := reads_iff s n

example : Reads "a\\.b.example..com".toList [".com".toList, "example".toList, "a\\.b".toList] := by
  rw [← C02_reads]; decide

/-- **C03** The sub-domain test is the ancestor-or-self relation. -/
theorem C03_subdomain (d s : Name) : subDomainCheck d s = true ↔ AtOrBelow d s := subDomainCheck_iff d s

/-- **C03** The list form holds iff some listed domain is an ancestor-or-self. -/
theorem C03_subdomain_list (ds : List Name) (s : Name) :
    subDomainCheckAny ds s = true ↔ ∃ d ∈ ds, AtOrBelow d s := subDomainCheckAny_iff ds s

/-- **C03** Reflexive, transitive, antisymmetric. -/
theorem C03_order :
    (∀ a, subDomainCheck a a = true) ∧
    (∀ a b c, subDomainCheck a b = true → subDomainCheck b c = true → subDomainCheck a c = true) ∧
    (∀ a b, subDomainCheck a b = true → subDomainCheck b a = true → a = b) := by
  simp only [subDomainCheck_iff]
  refine ⟨fun a => ⟨[], by simp⟩, ?_, ?_⟩
  · rintro a b c ⟨r, rfl⟩ ⟨t, rfl⟩; exact ⟨r ++ t, by simp⟩
  · rintro a b ⟨r, rfl⟩ ⟨t, ht⟩
    have h1 : r ++ t = [] := by simpa using ht
    have : r = [] := (List.append_eq_nil_iff.mp h1).1
    simp [this]

example : subDomainCheck ["com".toList] sampleName = true ∧ subDomainCheck sampleName ["com".toList] = false ∧
    subDomainCheck ["co".toList] sampleName = false := by decide

/-- **C04** A name is accepted iff every label has at most 63 bytes and the printed form at most 253. -/
theorem C04_length_check (n : Name) :
    (lengthCheck n).1 = true ↔ (∀ l ∈ n, l.length ≤ 63) ∧ (present n).length ≤ 253 := lengthCheck_iff n

/-- **C04** The label returned is the first over-long label, or empty if there is none. -/
theorem C04_length_check_label (n : Name) :
    (lengthCheck n).2 = ((n.find? (fun l => decide (l.length > 63))).getD []) := lengthCheckLoop_label n 0

example : (lengthCheck [List.replicate 63 'a']).1 = true ∧ (lengthCheck [List.replicate 64 'a']).1 = false ∧
    (lengthCheck (List.replicate 4 (List.replicate 63 'a'))).1 = false ∧
    (lengthCheck (List.replicate 3 (List.replicate 63 'a') ++ [List.replicate 60 'a'])).1 = true := by decide

/-- **C05** Type names round-trip for every supported type. -/
theorem C05_type_names (t : RRType) (ht : t ≠ .N) :
    ∃ m, mnemonic t = some m ∧ typeToString t = .ok m.toList ∧ stringToType m.toList = t := by
  obtain ⟨m, hm⟩ := mnemonic_some t ht
  exact ⟨m, hm, mnemonic_round t m hm⟩

/-- **C05** Every string that is not the mnemonic of a supported type maps to the unsupported value. -/
theorem C05_unknown_types (s : Str) :
    stringToType s = .N ↔ ¬ ∃ t m, mnemonic t = some m ∧ s = m.toList := by
  constructor
  · rintro h ⟨t, m, hm, rfl⟩
    have := (mnemonic_round t m hm).2
    rw [h] at this
    subst this
    simp [mnemonic] at hm
  · intro h
    by_contra hn
    obtain ⟨m, h1, h2⟩ := stringToType_mnemonic s _ rfl hn
    exact h ⟨_, m, h1, h2⟩

/-- **C05** The printed form of a type set lists the mnemonics of its members, each once, sorted, separated
by blanks. -/
theorem C05_types_to_string (ts : TypeSet) :
    ∃ L : List Str, L.Pairwise StrLt ∧
      (∀ s, s ∈ L ↔ ∃ t m, Member ts t ∧ mnemonic t = some m ∧ s = m.toList) ∧
      typesToString ts = [' '].intercalate L :=
  ⟨typeNameSet ts, (typeNameSet_spec ts).1, (typeNameSet_spec ts).2, typesToString_eq ts⟩

example : typesToString (TypeSet.add (TypeSet.add (TypeSet.single .NS) .MX) .A) = "A MX NS".toList ∧
    stringToType "DS".toList = .N := by decide

/-- **C05** Sets of types: no two types share a place; adding a type adds exactly that type, removing it removes exactly it, and the count is the
number of members. -/
theorem C05_sets (ts : TypeSet) (t u : RRType) (ht : t ≠ .N) :
    (Member (ts.add t) u ↔ u = t ∨ Member ts u) ∧ (Member (ts.remove t) u ↔ u ≠ t ∧ Member ts u) ∧ (Member (TypeSet.single t) u ↔ u = t) ∧
      ¬ Member 0 u ∧ (ts.has t = true ↔ Member ts t) ∧ ∃ l : List RRType, l.Nodup ∧ (∀ x, x ∈ l ↔ Member ts x) ∧ ts.count = l.length := by
  have hidx : ∀ a b : RRType, a.idx = b.idx → a = b := by
    intro a b; cases a <;> cases b <;> decide
  have hlt : ∀ a : RRType, a ≠ .N → a.idx < 13 := by intro a; cases a <;> decide
  have hsingle : ∀ x : RRType, x ≠ .N → (BitVec.getLsbD (TypeSet.single t) x.idx = true ↔ x = t) := by
    intro x hx
    unfold TypeSet.single
    rw [BitVec.getLsbD_twoPow]
    have h1 := hlt t ht
    constructor
    · intro h
      simp only [Bool.and_eq_true, decide_eq_true_eq] at h
      exact (hidx _ _ h.2).symm
    · rintro rfl; simp [h1]
  refine ⟨?_, ?_, ?_, ?_, ?_, RRType.supported.filter (fun x => ts.has x), ?_, ?_, rfl⟩
  · unfold Member TypeSet.add
    rw [BitVec.getLsbD_or, Bool.or_eq_true]
    constructor
    · rintro ⟨h1, h2 | h2⟩
      · exact Or.inr ⟨h1, h2⟩
      · exact Or.inl ((hsingle u h1).mp h2)
    · rintro (rfl | ⟨h1, h2⟩)
      · exact ⟨ht, Or.inr ((hsingle u ht).mpr rfl)⟩
      · exact ⟨h1, Or.inl h2⟩
  · unfold Member TypeSet.remove
    rw [BitVec.getLsbD_and, BitVec.getLsbD_not, Bool.and_eq_true]
    constructor
    · rintro ⟨h1, h2, h3⟩
      refine ⟨?_, h1, h2⟩
      rintro rfl
      rw [(hsingle u ht).mpr rfl] at h3
      simp at h3
    · rintro ⟨h1, h2, h3⟩
      refine ⟨h2, h3, ?_⟩
      have h4 : BitVec.getLsbD (TypeSet.single t) u.idx = false := by
        rw [Bool.eq_false_iff]; intro e; exact h1 ((hsingle u h2).mp e)
      rw [h4]; simp [hlt u h2]
  · unfold Member
    constructor
    · rintro ⟨h1, h2⟩; exact (hsingle u h1).mp h2
    · rintro rfl; exact ⟨ht, (hsingle u ht).mpr rfl⟩
  · rintro ⟨_, h⟩; simp at h
  · unfold Member TypeSet.has; simp [ht]
  · exact (List.filter_sublist).nodup (by decide)
  · intro x
    rw [List.mem_filter]
    unfold Member TypeSet.has
    constructor
    · rintro ⟨h1, h2⟩; exact ⟨by rintro rfl; revert h1; decide, h2⟩
    · rintro ⟨h1, h2⟩; exact ⟨by revert h1; cases x <;> decide, h2⟩

example : Member (TypeSet.add (TypeSet.single .NS) .MX) .MX ∧ ¬ Member (TypeSet.remove (TypeSet.add (TypeSet.single .NS) .MX) .NS) .NS ∧
    TypeSet.count (TypeSet.add (TypeSet.single .NS) .MX) = 2 := by decide

/-- **C06** The comparison splits both lists: `A` is a permutation of common and only-A; `B` is common and
only-B up to order and record identity; the two difference lists consist of elements of the inputs and share
no record. -/
theorem C06_compare (a b c oa ob : List RR) (h : compareRRs a b = (c, oa, ob)) :
    a.Perm (c ++ oa) ∧ SameRecords b (c ++ ob) ∧ oa.Sublist a ∧ ob.Sublist b ∧
      ∀ x ∈ oa, ∀ y ∈ ob, key x ≠ key y := by
  have := compareRRs_spec a b
  rw [h] at this
  exact this

/-- **C06** Nothing differs iff the two lists hold the same records with the same multiplicities. -/
theorem C06_compare_equal (a b : List RR) :
    ((compareRRs a b).2.1 = [] ∧ (compareRRs a b).2.2 = []) ↔ SameRecords a b := compareRRs_diff_nil a b

/-- **C06** The verdict does not depend on the order of the records, nor on the order of the arguments. -/
theorem C06_order_irrelevant (a a' b b' : List RR) (ha : SameRecords a a') (hb : SameRecords b b') :
    (((compareRRs a b).2.1 = [] ∧ (compareRRs a b).2.2 = []) ↔
      ((compareRRs b' a').2.1 = [] ∧ (compareRRs b' a').2.2 = [])) := by
  rw [compareRRs_diff_nil, compareRRs_diff_nil]
  constructor
  · intro h; exact sameRecords_trans (sameRecords_symm hb) (sameRecords_trans (sameRecords_symm h) ha)
  · intro h; exact sameRecords_trans ha (sameRecords_trans (sameRecords_symm h) (sameRecords_symm hb))

/-- Two records that differ only in TTL, and a third one. -/
def sampleRR (d : String) (ttl : Nat) : RR := mkRR "x.org.".toList "A".toList 1 ttl d.toList

example : compareRRs [sampleRR "1" 5, sampleRR "2" 5, sampleRR "1" 5] [sampleRR "3" 5, sampleRR "1" 7] =
    ([sampleRR "1" 5], [sampleRR "2" 5, sampleRR "1" 5], [sampleRR "3" 5]) := by decide

/-- **C07** Record equality compares exactly owner, type and data. -/
theorem C07_record_eq (a b : RR) :
    a.eqv b = true ↔ a.name = b.name ∧ a.type = b.type ∧ a.rdata = b.rdata := by
  rw [eqv_iff]; simp [key]

/-- **C07** Hence it is an equivalence relation. -/
theorem C07_record_equivalence : Equivalence (fun a b : RR => a.eqv b = true) := by
  simp only [eqv_iff]
  exact ⟨fun _ => rfl, fun h => h.symm, fun h h' => h.trans h'⟩

/-- **C07** Equal records have equal hashes. -/
theorem C07_hash (a b : RR) (h : a.eqv b = true) : rrHash a = rrHash b := by
  rw [C07_record_eq] at h
  simp [rrHash, h.1]

/-- **C07** Query equality compares name, types and whether there is an exclusion set. -/
theorem C07_query_eq (a b : EC) :
    a.eqv b = true ↔ a.name = b.name ∧ a.types = b.types ∧ (a.excluded.isSome ↔ b.excluded.isSome) := by
  unfold EC.eqv
  cases ha : a.excluded <;> cases hb : b.excluded <;> by_cases h1 : a.name = b.name <;>
    by_cases h2 : a.types = b.types <;> simp [h1, h2]

/-- **C07** Query equality is an equivalence relation. -/
theorem C07_query_equivalence : Equivalence (fun a b : EC => a.eqv b = true) := by
  simp only [C07_query_eq]
  refine ⟨fun _ => ⟨rfl, rfl, Iff.rfl⟩, fun h => ⟨h.1.symm, h.2.1.symm, h.2.2.symm⟩, ?_⟩
  intro x y z h h'
  exact ⟨h.1.trans h'.1, h.2.1.trans h'.2.1, h.2.2.trans h'.2.2⟩

example : (sampleRR "1" 5).eqv (sampleRR "1" 7) = true ∧ (sampleRR "1" 5).eqv (sampleRR "2" 5) = false := by
  decide

end Groot
