import Verif.Lemmas.Case
import Verif.Spec.Case
import Verif.Props.Lexer

/-!
# C63: zone data is case-insensitive
-/

namespace Groot

open Groot.Spec Groot.Parser Groot.Lexer

/-- **C63** Lower-casing turns each capital letter into its small one, upper-casing the other way round, and both leave everything else alone. -/
theorem C63_letters (s : Str) :
    toLower s = s.map (fun c => ((letterPairs.lookup c).getD c)) ∧
    toUpper s = s.map (fun c => (((letterPairs.map Prod.swap).lookup c).getD c)) := by
  have h1 : ∀ c, lowerChar c = (letterPairs.lookup c).getD c := by
    intro c
    by_cases h : c.toNat < 128
    · have hall : ∀ n : Fin 128, lowerChar (Char.ofNat n.val) = (letterPairs.lookup (Char.ofNat n.val)).getD (Char.ofNat n.val) := by decide +kernel
      have := hall ⟨c.toNat, h⟩
      rwa [Char.ofNat_toNat] at this
    · have hno : letterPairs.lookup c = none := by
        rw [List.lookup_eq_none_iff]
        intro p hp
        have hall : ∀ p ∈ letterPairs, p.1.toNat < 128 := by decide +kernel
        have := hall p hp
        rw [bne_iff_ne]
        rintro rfl
        exact h this
      rw [hno]
      unfold lowerChar
      rw [if_neg]
      · rfl
      · rintro ⟨_, h2⟩
        have h2 : c.toNat ≤ 90 := h2
        omega
  have h2 : ∀ c, upperChar c = ((letterPairs.map Prod.swap).lookup c).getD c := by
    intro c
    by_cases h : c.toNat < 128
    · have hall : ∀ n : Fin 128, upperChar (Char.ofNat n.val) = ((letterPairs.map Prod.swap).lookup (Char.ofNat n.val)).getD (Char.ofNat n.val) := by
        decide +kernel
      have := hall ⟨c.toNat, h⟩
      rwa [Char.ofNat_toNat] at this
    · have hno : (letterPairs.map Prod.swap).lookup c = none := by
        rw [List.lookup_eq_none_iff]
        intro p hp
        have hall : ∀ p ∈ letterPairs.map Prod.swap, p.1.toNat < 128 := by decide +kernel
        have := hall p hp
        rw [bne_iff_ne]
        rintro rfl
        exact h this
      rw [hno]
      unfold upperChar
      rw [if_neg]
      · rfl
      · rintro ⟨_, h2⟩
        have h2 : c.toNat ≤ 122 := h2
        omega
  exact ⟨List.map_congr_left (fun c _ => h1 c), List.map_congr_left (fun c _ => h2 c)⟩

example : toLower "Ab-Z1".toList = "ab-z1".toList ∧ toUpper "Ab-z1".toList = "AB-Z1".toList := by decide +kernel

/-- The specification of letters and the model's lower-casing agree. -/
theorem sameLetter_iff (a b : Char) : SameLetter a b ↔ lowerChar a = lowerChar b := by
  have hup : ∀ c : Char, 'A' ≤ c ∧ c ≤ 'Z' → (c, lowerChar c) ∈ letterPairs := by
    intro c h
    have h1 : 65 ≤ c.toNat := h.1
    have h2 : c.toNat ≤ 90 := h.2
    have hall : ∀ n : Fin 91, 65 ≤ n.val → (Char.ofNat n.val, lowerChar (Char.ofNat n.val)) ∈ letterPairs := by decide +kernel
    have := hall ⟨c.toNat, by omega⟩ h1
    rwa [Char.ofNat_toNat] at this
  have hpairs : ∀ p ∈ letterPairs, lowerChar p.1 = lowerChar p.2 := by decide +kernel
  constructor
  · rintro (h | h | h)
    · rw [h]
    · exact hpairs _ h
    · exact (hpairs _ h).symm
  · intro h
    by_cases ha : 'A' ≤ a ∧ a ≤ 'Z'
    · by_cases hb : 'A' ≤ b ∧ b ≤ 'Z'
      · left
        have h1 : 65 ≤ a.toNat := ha.1
        have h2 : a.toNat ≤ 90 := ha.2
        have h3 : 65 ≤ b.toNat := hb.1
        have h4 : b.toNat ≤ 90 := hb.2
        have hall : ∀ n m : Fin 91, 65 ≤ n.val → 65 ≤ m.val → lowerChar (Char.ofNat n.val) = lowerChar (Char.ofNat m.val) → n = m := by
          decide +kernel
        have := hall ⟨a.toNat, by omega⟩ ⟨b.toNat, by omega⟩ h1 h3 (by simpa [Char.ofNat_toNat] using h)
        have : a.toNat = b.toNat := by simpa using this
        rw [← Char.ofNat_toNat a, ← Char.ofNat_toNat b, this]
      · right; left
        have : lowerChar b = b := by unfold lowerChar; rw [if_neg hb]
        rw [← this, ← h]; exact hup a ha
    · have ea : lowerChar a = a := by unfold lowerChar; rw [if_neg ha]
      by_cases hb : 'A' ≤ b ∧ b ≤ 'Z'
      · right; right
        rw [← ea, h]; exact hup b hb
      · left
        have : lowerChar b = b := by unfold lowerChar; rw [if_neg hb]
        rw [← ea, ← this, h]

theorem sameText_iff (s t : Str) : SameText s t ↔ toLower s = toLower t := by
  unfold SameText toLower
  induction s generalizing t with
  | nil =>
    cases t with
    | nil => exact ⟨fun _ => rfl, fun _ => .nil⟩
    | cons _ _ => exact ⟨(fun h => nomatch h), (fun h => nomatch h)⟩
  | cons a s ih =>
    cases t with
    | nil => exact ⟨(fun h => nomatch h), (fun h => nomatch h)⟩
    | cons b t => rw [List.forall₂_cons, List.map_cons, List.map_cons, List.cons.injEq, sameLetter_iff, ih]

/-- The texts of the tokens stand at the same places of the two files. -/
theorem token_places (ts ts' : List Tok) (h : ts.map lowerTok = ts'.map lowerTok) (i : Nat) (t t' : Tok) (hi : ts[i]? = some t)
    (hi' : ts'[i]? = some t') :
    ∃ p, (∃ r, (ts.map (·.text)).flatten.drop p = t.text ++ r) ∧ ∃ r', (ts'.map (·.text)).flatten.drop p = t'.text ++ r' := by
  induction i generalizing ts ts' with
  | zero =>
    match ts, ts', hi, hi' with
    | a :: ts, b :: ts', hi, hi' =>
      have hi : a = t := by simpa using hi
      have hi' : b = t' := by simpa using hi'
      subst hi hi'
      exact ⟨0, ⟨_, rfl⟩, _, rfl⟩
  | succ i ih =>
    match ts, ts', hi, hi' with
    | a :: ts, b :: ts', hi, hi' =>
      rw [List.map_cons, List.map_cons] at h
      injection h with h1 h2
      obtain ⟨p, ⟨r, h3⟩, r', h4⟩ := ih ts ts' h2 (by simpa using hi) (by simpa using hi')
      have hlen : a.text.length = b.text.length := by
        have := congrArg (fun x : Tok => x.text.length) h1
        simpa [lowerTok, toLower] using this
      refine ⟨a.text.length + p, ⟨r, ?_⟩, r', ?_⟩
      · rw [List.map_cons, List.flatten_cons, List.drop_length_add_append, h3]
      · rw [hlen, List.map_cons, List.flatten_cons, List.drop_length_add_append, h4]

/-- Control words at the same places: the same tokens are control words. -/
theorem controls_of_same {s s' : Str} (hs : SameText s s') (hc : SameControls s s') (i : Nat) (t t' : Tok)
    (hi : (tokens s)[i]? = some t) (hi' : (tokens s')[i]? = some t') : ∀ c ∈ controls, t.text = c ↔ t'.text = c := by
  have hlow := (sameText_iff s s').mp hs
  have ht : (tokens s).map lowerTok = (tokens s').map lowerTok := by rw [← tokens_lower, ← tokens_lower, hlow]
  obtain ⟨p, ⟨r, h1⟩, r', h2⟩ := token_places _ _ ht i t t' hi hi'
  rw [C60_lossless] at h1 h2
  have hlen : t.text.length = t'.text.length := by
    have h3 : ((tokens s).map lowerTok)[i]? = some (lowerTok t) := by rw [List.getElem?_map, hi]; rfl
    rw [ht, List.getElem?_map, hi'] at h3
    have := congrArg (fun x : Option Tok => x.map (fun y => y.text.length)) h3
    simpa [lowerTok, toLower] using this.symm
  intro c hcm
  have hpl := hc c hcm p
  rw [h1, h2] at hpl
  constructor
  · intro e
    have := hpl.mp (e ▸ List.prefix_append _ _)
    have hle : c.length = t'.text.length := by rw [← e, hlen]
    have hp := List.prefix_of_prefix_length_le this (List.prefix_append t'.text r') (by omega)
    exact (List.IsPrefix.eq_of_length hp hle).symm
  · intro e
    have := hpl.mpr (e ▸ List.prefix_append _ _)
    have hle : c.length = t.text.length := by rw [← e, hlen]
    have hp := List.prefix_of_prefix_length_le this (List.prefix_append t.text r) (by omega)
    exact (List.IsPrefix.eq_of_length hp hle).symm

/-- **C63** Changing the case of letters anywhere in a zone file, or in its origin, changes nothing in what is loaded — zones,
label graph, issues, counts, or the way loading stops — as long as the control words are left alone. -/
theorem C63_file (thr : Nat) (lint : Bool) (d : Loaded) (file ns s s' origin origin' : Str) (hs : SameText s s')
    (ho : SameText origin origin') (hc : SameControls s s') :
    loadZone thr lint d file s ns origin = loadZone thr lint d file s' ns origin' :=
  loadZone_alike thr lint d file s s' ns origin origin' ((sameText_iff _ _).mp hs) ((sameText_iff _ _).mp ho)
    (controls_of_same hs hc)

theorem sameControls_of_no_dollar {s s' : Str} (hs : SameText s s') (hd : '$' ∉ s) : SameControls s s' := by
  have hd' : '$' ∉ s' := by
    intro h
    have h1 : lowerChar '$' ∈ toLower s' := List.mem_map_of_mem h
    rw [← (sameText_iff _ _).mp hs] at h1
    obtain ⟨x, hx, e⟩ := List.mem_map.mp h1
    have : lowerChar x = '$' := e.trans (by decide)
    rw [lowerChar_eq_iff (by decide)] at this
    exact hd (this ▸ hx)
  have key : ∀ u : Str, '$' ∉ u → ∀ c ∈ controlWords, ∀ i, ¬ c <+: u.drop i := by
    intro u hu c hc i hp
    have hm : '$' ∈ c := by
      have : ∀ c ∈ controlWords, '$' ∈ c := by decide +kernel
      exact this c hc
    exact hu (List.mem_of_mem_drop (hp.subset hm))
  exact fun c hc i => ⟨fun h => absurd h (key s hd c hc i), fun h => absurd h (key s' hd' c hc i)⟩

/-- **C63** A file without a dollar sign may be changed anywhere. -/
theorem C63_no_control (thr : Nat) (lint : Bool) (d : Loaded) (file ns s s' origin : Str) (hs : SameText s s') (hd : '$' ∉ s) :
    loadZone thr lint d file s ns origin = loadZone thr lint d file s' ns origin :=
  C63_file thr lint d file ns s s' origin origin hs ((sameText_iff _ _).mpr rfl) (sameControls_of_no_dollar hs hd)

theorem sameOption_lower {a b : Option Str} (h : SameOption a b) : toLower (a.getD []) = toLower (b.getD []) := by
  match a, b, h with
  | none, none, _ => rfl
  | some s, some t, h => exact (sameText_iff _ _).mp h

theorem sanityCheck_same (ex : Str → Bool) (m m' : Driver.Meta) (h : SameMeta m m') : Driver.sanityCheck ex m = Driver.sanityCheck ex m' := by
  obtain ⟨t, z⟩ := m
  obtain ⟨t', z'⟩ := m'
  obtain ⟨h1, h2⟩ := h
  dsimp only at h1 h2
  have hz : ∀ a b : List Driver.UZone, List.Forall₂ SameEntry a b → Driver.zoneServers ex a = Driver.zoneServers ex b := by
    intro a b hab
    induction hab with
    | nil => rfl
    | @cons x y xs ys hxy _ ih =>
      obtain ⟨e1, e2, e3⟩ := hxy
      unfold Driver.zoneServers
      rw [e1, ih]
      match x.nameServer, y.nameServer, e2 with
      | none, none, _ => rfl
      | some p, some q, e2 =>
        have := (sameText_iff _ _).mp e2
        dsimp only
        rw [this]
  match t, t', h1 with
  | none, none, _ => rfl
  | some a, some b, h1 =>
    match z, z', h2 with
    | none, none, _ => rfl
    | some x, some y, h2 =>
      have ha : a.map toLower = b.map toLower := by
        induction h1 with
        | nil => rfl
        | cons e _ ih => rw [List.map_cons, List.map_cons, ih, (sameText_iff _ _).mp e]
      unfold Driver.sanityCheck
      dsimp only
      rw [hz x y h2, ha]

/-- **C63** The whole context: zone files, origins, server names and top servers may all be written in any case. -/
theorem C63_context (thr : Nat) (lint : Bool) (read read' : Str → Str) (ex : Str → Bool) (m m' : Driver.Meta) (hm : SameMeta m m')
    (hr : ∀ f, SameText (read f) (read' f) ∧ SameControls (read f) (read' f)) :
    setContext thr lint read ex m = setContext thr lint read' ex m' := by
  unfold setContext
  rw [sanityCheck_same ex m m' hm]
  obtain ⟨t, z⟩ := m
  obtain ⟨t', z'⟩ := m'
  obtain ⟨h1, h2⟩ := hm
  dsimp only at h1 h2 ⊢
  have ht : (t.getD []).map toLower = (t'.getD []).map toLower := by
    match t, t', h1 with
    | none, none, _ => rfl
    | some a, some b, h1 =>
      show a.map toLower = b.map toLower
      induction h1 with
      | nil => rfl
      | cons e _ ih => rw [List.map_cons, List.map_cons, ih, (sameText_iff _ _).mp e]
  rw [ht]
  congr 1
  funext _
  have key : ∀ a b : List Driver.UZone, List.Forall₂ SameEntry a b → ∀ d : Loaded,
      a.foldlM (fun d z => loadZone thr lint d (z.fileName.getD []) (read (z.fileName.getD [])) (toLower (z.nameServer.getD []))
        (toLower (z.origin.getD []))) d =
      b.foldlM (fun d z => loadZone thr lint d (z.fileName.getD []) (read' (z.fileName.getD [])) (toLower (z.nameServer.getD []))
        (toLower (z.origin.getD []))) d := by
    intro a b hab
    induction hab with
    | nil => intro d; rfl
    | @cons x y xs ys hxy _ ih =>
      intro d
      obtain ⟨e1, e2, e3⟩ := hxy
      rw [List.foldlM_cons, List.foldlM_cons, e1, sameOption_lower e2, sameOption_lower e3,
        C63_file thr lint d _ _ _ _ _ _ (hr _).1 ((sameText_iff _ _).mpr rfl) (hr _).2]
      congr 1
      funext d'
      exact ih d'
  match z, z', h2 with
  | none, none, _ => rfl
  | some a, some b, h2 => exact key a b h2 _

/-- Two spellings of one file meet the hypotheses of `C63_file`, and the file gives a zone. -/
example : SameText "$TTL 5\nX. SOA a\nB.x. cname c\n".toList "$TTL 5\nx. soa A\nb.X. CName C\n".toList ∧
    SameControls "$TTL 5\nX. SOA a\nB.x. cname c\n".toList "$TTL 5\nx. soa A\nb.X. CName C\n".toList := by
  constructor
  · rw [sameText_iff]; decide +kernel
  · intro c hc i
    by_cases hi : i < 40
    · have : ∀ c ∈ controlWords, ∀ i < 40, c <+: "$TTL 5\nX. SOA a\nB.x. cname c\n".toList.drop i ↔
        c <+: "$TTL 5\nx. soa A\nb.X. CName C\n".toList.drop i := by decide +kernel
      exact this c hc i hi
    · rw [List.drop_eq_nil_of_le (by simp; omega), List.drop_eq_nil_of_le (by simp; omega)]

example : (match loadZone 500 false {} "f".toList "$TTL 5\nx. soa A\nb.X. CName C\n".toList "s.".toList [] with
    | .ok d => d.ctx.zones.length == 1 && d.rrCount == 2 | _ => false) = true := by decide +kernel

/-- **C63** (disagreement) The control words are recognised in capitals only: a file with `$ttl` is read differently from
the same file with `$TTL`. -/
theorem C63_disagreement_control : SameText "$TTL 5\nx. SOA a\n".toList "$ttl 5\nx. SOA a\n".toList ∧
    recordsRead "" "$TTL 5\nx. SOA a\n" = some [⟨["x".toList], .SOA, 1, 5, "a".toList⟩] ∧
    recordsRead "" "$ttl 5\nx. SOA a\n" ≠ some [⟨["x".toList], .SOA, 1, 5, "a".toList⟩] := by
  refine ⟨?_, ?_, ?_⟩
  · rw [sameText_iff]; decide +kernel
  · decide +kernel
  · decide +kernel

end Groot
