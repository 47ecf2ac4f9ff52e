import Verif.Lemmas.Checks2
import Verif.Lemmas.Show

/-!
# C39–C52: the property checks are exact

Each theorem says which violations a check reports for one path (or one list of end nodes) of an arbitrary graph,
and at the same time that the check runs to completion (its outcome is `.ok`): no absent answer is read.
The hypothesis `ResolutionPath` (`Answered` for end nodes) is shown in C38 to hold for every graph the program
builds.
-/

namespace Groot
open Spec

/-- A small graph for the examples: start node, a referral, a server rewriting by a DNAME-like record, a server
answering NXDOMAIN, and a server refusing. -/
def sampleIG : IG :=
  let q (s : String) : EC := { name := stringToLabels s.toList, types := TypeSet.add (TypeSet.single .A) .NS }
  let ns : RR := { name := stringToLabels "example.com".toList, type := .NS, cls := 1, ttl := 300, rdata := "ns.example.com.".toList }
  let ns' : RR := { name := stringToLabels "example.com".toList, type := .NS, cls := 1, ttl := 300, rdata := "ns2.example.com.".toList }
  let a : RR := { name := stringToLabels "ns.example.com".toList, type := .A, cls := 1, ttl := 0, rdata := "1.1.1.1".toList }
  let cn : RR := { name := stringToLabels "example.com".toList, type := .CNAME, cls := 1, ttl := 0, rdata := "example.org.".toList }
  { verts := [
      { ns := [], query := q "example.com" },
      { ns := "a.root.".toList, query := q "example.com", answer := some [⟨.REF, TypeSet.single .NS, [ns, a]⟩] },
      { ns := "ns.example.com.".toList, query := q "example.com", answer := some [⟨.REWRITE, TypeSet.single .CNAME, [cn]⟩] },
      { ns := "ns.example.com.".toList, query := q "example.org", answer := some [⟨.NX, TypeSet.single .A, []⟩] },
      { ns := "ns.example.org.".toList, query := q "example.com", answer := some [⟨.REFUSED, TypeSet.single .A, []⟩] },
      { ns := "ns.example.org.".toList, query := q "example.com", answer := some [⟨.ANS, TypeSet.single .NS, [ns']⟩] },
      { ns := "ns.example.org.".toList, query := q "example.org", answer := some [⟨.YX, TypeSet.single .NS, []⟩] },
      { ns := "ns.example.org.".toList, query := q "example.org", answer := some [⟨.REWRITE, TypeSet.single .CNAME, [cn]⟩] }],
    edges := [], nsMap := [] }

instance (g : IG) (v : Nat) : Decidable (Answered g v) := by unfold Answered; infer_instance

theorem resolutionPath_cons {g : IG} {v0 : Nat} {rest : List Nat} (h1 : (g.vtx v0).ns = []) (h2 : (g.vtx v0).answer = none)
    (h3 : ∀ v ∈ rest, Server g v ∧ firstAns g v ≠ none) : ResolutionPath g (v0 :: rest) := ⟨v0, rest, rfl, h1, h2, h3⟩

theorem sampleIG_path : ResolutionPath sampleIG [0, 1, 2, 3] :=
  resolutionPath_cons (by decide +kernel) (by decide +kernel) (by decide +kernel)

/-! ### C39, C40 -/

/-- **C39** A violation is reported iff the bound is not negative and the number of maximal runs of the same server
along the path exceeds it; it carries that number. -/
theorem C39_hops (g : IG) (n : Int) (v0 : Nat) (rest : List Nat) (h : ResolutionPath g (v0 :: rest)) :
    Check.hops g n (v0 :: rest) = .ok (
      if 0 ≤ n ∧ n < runs (servers g (v0 :: rest)) then
        [.hops (showQuery (g.vtx v0).query) (runs (servers g (v0 :: rest))) n] else []) := by
  rw [← toStr_fun]
  obtain ⟨s, h1, h2⟩ := hopServers_eq (v0 :: rest) h.answered []
  simp only [List.getLast?_nil, List.length_nil, Nat.zero_add] at h2
  unfold Check.hops
  rw [h1]
  simp only [Res.ok_bind, h2, gt_iff_lt]
  split <;> rfl

example : ResolutionPath sampleIG [0, 1, 2, 3] ∧ runs (servers sampleIG [0, 1, 2, 3]) = 2 ∧
    Check.hops sampleIG 1 [0, 1, 2, 3] = .ok [.hops "example.com.".toList 2 1] ∧
    Check.hops sampleIG 2 [0, 1, 2, 3] = .ok [] := ⟨sampleIG_path, by decide +kernel⟩

/-- **C39** (disagreement with a reader's expectation) A negative bound is never exceeded. -/
theorem C39_negative_bound (g : IG) (n : Int) (hn : n < 0) (v0 : Nat) (rest : List Nat)
    (h : ResolutionPath g (v0 :: rest)) : Check.hops g n (v0 :: rest) = .ok [] := by
  rw [C39_hops g n v0 rest h, if_neg (by omega)]

/-- **C40** A violation is reported iff the number of rewriting servers on the path exceeds the bound; it carries
that number. -/
theorem C40_rewrites (g : IG) (n : Int) (v0 : Nat) (rest : List Nat) (h : ResolutionPath g (v0 :: rest)) :
    Check.rewrites g n (v0 :: rest) = .ok (
      if n < ((v0 :: rest).filter (fun v => decide (Answers g v .REWRITE))).length then
        [.rewrites (showQuery (g.vtx v0).query) ((v0 :: rest).filter (fun v => decide (Answers g v .REWRITE))).length n]
      else []) := by
  rw [← toStr_fun]
  unfold Check.rewrites
  rw [rewriteCount_eq _ h.answered]
  have e : (v0 :: rest).filter (fun v => decide (Server g v ∧ Answers g v .REWRITE)) =
      (v0 :: rest).filter (fun v => decide (Answers g v .REWRITE)) := by
    apply List.filter_congr
    intro v hv
    obtain ⟨w0, rest', e, h1, h2, h3⟩ := h
    cases e
    rcases List.mem_cons.mp hv with rfl | hv
    · simp [Answers, firstAns, h2]
    · simp [(h3 v hv).1]
  rw [e]
  simp only [Res.ok_bind, gt_iff_lt]
  split <;> rfl

example : Check.rewrites sampleIG 0 [0, 1, 2, 3] = .ok [.rewrites "example.com.".toList 1 0] ∧
    Check.rewrites sampleIG 1 [0, 1, 2, 3] = .ok [] := by decide +kernel

/-! ### C41, C42 -/

/-- **C41** One report for every pair of consecutive nodes of which the first rewrites the query and the second is
asked a name outside all allowed domains. -/
theorem C41_query_rewrite (g : IG) (allowed : List Name) (hd : allowed ≠ []) (p : List Nat) (h : ResolutionPath g p) :
    Check.queryRewrite g allowed p = .ok (((consecutive p).filter (fun x =>
        decide (Answers g x.1 .REWRITE ∧ Outside allowed (g.vtx x.2).query.name))).map (fun x =>
        .queryRewrite (showQuery (g.vtx x.1).query) (showQuery (g.vtx x.2).query) (g.vtx x.1).ns (printList allowed))) := by
  rw [← toStr_fun]
  exact queryRewrite_eq hd p h.answered

/-- **C41** In words: a report exists iff there is such a pair. -/
theorem C41_query_rewrite_iff (g : IG) (allowed : List Name) (hd : allowed ≠ []) (p : List Nat)
    (h : ResolutionPath g p) :
    (∃ vs, Check.queryRewrite g allowed p = .ok vs ∧ vs ≠ []) ↔
      ∃ a v u b, p = a ++ v :: u :: b ∧ Answers g v .REWRITE ∧ ∀ d ∈ allowed, ¬ AtOrBelow d (g.vtx u).query.name := by
  rw [C41_query_rewrite g allowed hd p h]
  simp only [Res.ok.injEq, exists_eq_left', ne_eq, List.map_eq_nil_iff, List.filter_eq_nil_iff, not_forall,
    decide_eq_true_eq, not_not]
  constructor
  · rintro ⟨x, hx, h1, h2⟩
    obtain ⟨a, b, e⟩ := mem_consecutive.mp hx
    exact ⟨a, x.1, x.2, b, e, h1, h2⟩
  · rintro ⟨a, v, u, b, e, h1, h2⟩
    exact ⟨(v, u), mem_consecutive.mpr ⟨a, b, e⟩, h1, h2⟩

example : Check.queryRewrite sampleIG [stringToLabels "com".toList] [0, 1, 2, 3] =
      .ok [.queryRewrite "example.com.".toList "example.org.".toList "ns.example.com.".toList "[com.]".toList] ∧
    Check.queryRewrite sampleIG [stringToLabels "com".toList, stringToLabels "org".toList] [0, 1, 2, 3] = .ok [] := by
  decide +kernel

/-- **C42** One report for every contacted server whose name lies outside all allowed domains. -/
theorem C42_ns_contact (g : IG) (allowed : List Name) (hd : allowed ≠ []) (p : List Nat) :
    Check.nsContact g allowed p = .ok ((p.filter (fun v =>
        decide (Server g v ∧ Outside allowed (stringToLabels (g.vtx v).ns)))).map (fun v =>
        .nsContact (showQuery (g.vtx v).query) (g.vtx v).ns (printList allowed))) := by
  rw [← toStr_fun]
  exact nsContact_eq hd p

example : Check.nsContact sampleIG [stringToLabels "com".toList] [0, 1, 2, 3] =
      .ok [.nsContact "example.com.".toList "a.root.".toList "[com.]".toList] := by
  decide +kernel

/-! ### C43, C44, C51 -/

/-- **C43** A violation is reported iff some node before the last one rewrites the query and the last node answers
NXDOMAIN; the first rewriting node is reported with the last node. -/
theorem C43_blackholing (g : IG) (p : List Nat) (last : Nat) (hl : p.getLast? = some last) (h : ResolutionPath g p) :
    Check.blackholing g p = .ok (match p.dropLast.find? (fun v => decide (Answers g v .REWRITE)) with
      | none => []
      | some v => if Answers g last .NX then
          [.blackhole (showQuery (g.vtx v).query) (showQuery (g.vtx last).query) (g.vtx last).ns] else []) := by
  rw [← toStr_fun]
  exact blackhole_eq h hl

/-- **C43** In words. -/
theorem C43_blackholing_iff (g : IG) (p : List Nat) (last : Nat) (hl : p.getLast? = some last)
    (h : ResolutionPath g p) :
    (∃ vs, Check.blackholing g p = .ok vs ∧ vs ≠ []) ↔
      (∃ v ∈ p.dropLast, Answers g v .REWRITE) ∧ Answers g last .NX := by
  rw [C43_blackholing g p last hl h]
  simp only [Res.ok.injEq, exists_eq_left']
  cases hf : p.dropLast.find? (fun v => decide (Answers g v .REWRITE)) with
  | none =>
    simp only [ne_eq, not_true_eq_false, false_iff, not_and]
    rintro ⟨v, hv, hr⟩
    have := List.find?_eq_none.mp hf v hv
    simp [hr] at this
  | some v =>
    have hv := List.mem_of_find?_eq_some hf
    have hr := List.find?_some hf
    simp only [decide_eq_true_eq] at hr
    by_cases hn : Answers g last .NX
    · simp only [hn, if_true, ne_eq, List.cons_ne_nil, not_false_eq_true, and_true, true_iff]
      exact ⟨v, hv, hr⟩
    · simp [hn]

example : Check.blackholing sampleIG [0, 1, 2, 3] =
      .ok [.blackhole "example.com.".toList "example.org.".toList "ns.example.com.".toList] ∧
    Check.blackholing sampleIG [0, 1, 3] = .ok [] ∧ Check.blackholing sampleIG [0, 1, 2] = .ok [] := by
  decide +kernel

/-- **C44** One report for every pair of consecutive nodes that answer REF and REFUSED, the second still being asked
the start name. -/
theorem C44_lame_delegation (g : IG) (v0 : Nat) (rest : List Nat) (h : ResolutionPath g (v0 :: rest)) :
    Check.lameDelegation g (v0 :: rest) = .ok (((consecutive (v0 :: rest)).filter (fun x =>
        decide (Answers g x.1 .REF ∧ Answers g x.2 .REFUSED ∧ (g.vtx x.2).query.name = (g.vtx v0).query.name))).map
        (fun x => .lame (showQuery (g.vtx v0).query) (g.vtx x.1).ns (g.vtx x.2).ns)) := by
  rw [← toStr_fun]
  have han := h.answered
  obtain ⟨w0, rest', e, h1, h2, h3⟩ := h
  cases e
  unfold Check.lameDelegation
  dsimp only
  by_cases hlen : (v0 :: rest).length > 2
  · rw [if_pos ⟨hlen, h1⟩, lameLoop_eq _ han]
  · rw [if_neg (fun x => hlen x.1)]
    have hv0 : ¬ Answers g v0 .REF := by simp [Answers, firstAns, h2]
    match rest, hlen with
    | [], _ => simp [consecutive]
    | [u], _ => simp [consecutive, hv0]
    | _ :: _ :: _, hlen => simp at hlen

example : ResolutionPath sampleIG [0, 1, 4] ∧ Check.lameDelegation sampleIG [0, 1, 4] =
      .ok [.lame "example.com.".toList "a.root.".toList "ns.example.org.".toList] ∧
    Check.lameDelegation sampleIG [0, 2, 4] = .ok [] :=
  ⟨resolutionPath_cons (by decide +kernel) (by decide +kernel) (by decide +kernel), by decide +kernel⟩

/-- **C51** A violation is reported iff the last node of the path says that the query exceeds the length limits
after rewriting. -/
theorem C51_dname_length (g : IG) (v0 : Nat) (rest : List Nat) (last : Nat)
    (hl : (v0 :: rest).getLast? = some last) (h : ResolutionPath g (v0 :: rest)) :
    Check.dnameLength g (v0 :: rest) = .ok (if Answers g last .YX then
      [.dnameLength (showQuery (g.vtx v0).query) (showQuery (g.vtx last).query) (g.vtx last).ns] else []) := by
  rw [← toStr_fun]
  unfold Check.dnameLength
  rw [hl]
  simp only [List.head?_cons]
  rw [answerIs_eq (h.answered last (List.mem_of_getLast? hl)).1]
  simp only [Res.ok_bind, decide_eq_true_eq]

example : Check.dnameLength sampleIG [0, 7, 6] =
      .ok [.dnameLength "example.com.".toList "example.org.".toList "ns.example.org.".toList] := by
  decide +kernel

/-! ### C45 -/

/-- **C45** Only the last delegation on the path is compared.  If the parent's and the child's NS records belong to
the same name, an NS violation is reported iff the NS record sets differ, and a glue violation iff the address
records differ, the parent's restricted to the child's domain. -/
theorem C45_delegation_consistency (g : IG) (v0 : Nat) (rest : List Nat) (h : ResolutionPath g (v0 :: rest)) :
    Check.delegationConsistency g (v0 :: rest) = .ok (
      match ((consecutive (v0 :: rest)).filter (fun x => decide (Delegates g (g.vtx v0).query.name x))).getLast? with
      | none => []
      | some (v, u) =>
        let P := ansRecords g v
        let C := ansRecords g u
        if ¬ SameOwner (nsOf P) (nsOf C) then [] else
          (if SameRecords (nsOf P) (nsOf C) then []
            else [.delegation (showQuery (g.vtx v0).query) (g.vtx v).ns (g.vtx u).ns false]) ++
          (if SameRecords (within (nsOf C) (addressesOf P)) (addressesOf C) then []
            else [.delegation (showQuery (g.vtx v0).query) (g.vtx v).ns (g.vtx u).ns true])) := by
  rw [← toStr_fun]
  have han := h.answered
  obtain ⟨w0, rest', e, h1, h2, h3⟩ := h
  cases e
  have hv0 : ∀ t, ¬ Answers g v0 t := by intro t; simp [Answers, firstAns, h2]
  unfold Check.delegationConsistency
  dsimp only
  by_cases hlen : (v0 :: rest).length > 2
  · rw [if_pos ⟨hlen, h1⟩, lastDelegation_eq _ han]
    simp only [Res.ok_bind, Option.or_none]
    cases hd : ((consecutive (v0 :: rest)).filter (fun x => decide (Delegates g (g.vtx v0).query.name x))).getLast? with
    | none => rfl
    | some x =>
      obtain ⟨v, u⟩ := x
      have hm := List.mem_of_getLast? hd
      rw [List.mem_filter, decide_eq_true_eq] at hm
      obtain ⟨hc, hdel⟩ := hm
      obtain ⟨a, b, e⟩ := mem_consecutive.mp hc
      have hsrv : ∀ w ∈ v0 :: rest, (∃ t, Answers g w t) → Server g w := by
        intro w hw ⟨t, ht⟩
        rcases List.mem_cons.mp hw with rfl | hw
        · exact absurd ht (hv0 t)
        · exact (h3 w hw).1
      have hvm : v ∈ v0 :: rest := by rw [e]; simp
      have hum : u ∈ v0 :: rest := by rw [e]; simp
      obtain ⟨av, f1, f2⟩ := (han v hvm).ans (hsrv v hvm ⟨_, hdel.1⟩)
      obtain ⟨au, f3, f4⟩ := (han u hum).ans (hsrv u hum ⟨_, hdel.2.1⟩)
      dsimp only
      rw [compareDelegation_eq f2 f4]
      simp only [ansRecords, f1, f3, Option.map_some, Option.getD_some]
  · rw [if_neg (fun x => hlen x.1)]
    have hnone : ∀ u, ¬ Delegates g (g.vtx v0).query.name (v0, u) := fun u x => hv0 _ x.1
    match rest, hlen with
    | [], _ => simp [consecutive]
    | [u], _ => simp [consecutive, hnone]
    | _ :: _ :: _, hlen => simp at hlen

example : ResolutionPath sampleIG [0, 1, 5] ∧ Check.delegationConsistency sampleIG [0, 1, 5] =
      .ok [.delegation "example.com.".toList "a.root.".toList "ns.example.org.".toList false,
           .delegation "example.com.".toList "a.root.".toList "ns.example.org.".toList true] :=
  ⟨resolutionPath_cons (by decide +kernel) (by decide +kernel) (by decide +kernel), by decide +kernel⟩

/-! ### C46–C49: end-node checks -/

/-- **C46** For the end nodes up to the first one that stands for non-existent names: one report for every
informative end node and every part of its answer that has no records although it covers a requested type. -/
theorem C46_response_returned (g : IG) (ts : TypeSet) (ends : List Nat) (h : ∀ v ∈ ends, Answered g v) :
    Check.responseReturned g ts ends = .ok (
      ((ends.takeWhile (fun v => !(g.vtx v).query.nonExistent)).filter (fun v => decide (Informative g ts v))).flatMap
        (fun v => (missingTypes g ts v).map (fun a =>
          .responseReturned (showQuery (g.vtx v).query) (showTypes (a.types &&& ts)) (g.vtx v).ns))) := by
  rw [← toStr_fun, ← typesToString_fun]
  exact responseReturned_eq ends h

/-- **C46** In words, for a class of existing names. -/
theorem C46_response_returned_iff (g : IG) (ts : TypeSet) (ends : List Nat) (h : ∀ v ∈ ends, Answered g v)
    (hex : ∀ v ∈ ends, (g.vtx v).query.nonExistent = false) :
    (∃ vs, Check.responseReturned g ts ends = .ok vs ∧ vs ≠ []) ↔
      ∃ v ∈ ends, Informative g ts v ∧ ∃ as, (g.vtx v).answer = some as ∧
        ∃ a ∈ as, a.rrs = [] ∧ ∃ t, Member a.types t ∧ Member ts t := by
  rw [C46_response_returned g ts ends h]
  have e : ends.takeWhile (fun v => !(g.vtx v).query.nonExistent) = ends := by
    clear h
    induction ends with
    | nil => rfl
    | cons v rest ih =>
      rw [List.takeWhile_cons_of_pos (by simp [hex v (by simp)]), ih (fun x hx => hex x (by simp [hx]))]
  rw [e]
  simp only [Res.ok.injEq, exists_eq_left', ne_eq, List.flatMap_eq_nil_iff, not_forall, List.mem_filter,
    decide_eq_true_eq, List.map_eq_nil_iff]
  constructor
  · rintro ⟨v, ⟨hv, hi⟩, hne⟩
    refine ⟨v, hv, hi, ?_⟩
    obtain ⟨a, ha⟩ := List.exists_mem_of_ne_nil _ hne
    unfold missingTypes at ha
    rw [List.mem_filter, decide_eq_true_eq] at ha
    cases hans : (g.vtx v).answer with
    | none => rw [hans] at ha; simp at ha
    | some as =>
      rw [hans] at ha
      obtain ⟨h1, h2, t, _, h3⟩ := ha
      exact ⟨as, rfl, a, h1, h2, t, h3⟩
  · rintro ⟨v, hv, hi, as, has, a, ha, h2, t, h3⟩
    refine ⟨v, ⟨hv, hi⟩, List.ne_nil_of_mem (a := a) ?_⟩
    unfold missingTypes
    rw [List.mem_filter, decide_eq_true_eq, has]
    exact ⟨ha, h2, t, (mem_supported t).mpr h3.1.1, h3⟩

example : (∀ v ∈ [3, 4, 5], Answered sampleIG v) ∧
    Check.responseReturned sampleIG (TypeSet.single .A) [3, 4, 5] =
      .ok [.responseReturned "example.org.".toList "A".toList "ns.example.com.".toList] := by decide +kernel

open Classical in
/-- **C47** One violation, listing every end node with a wrong value, iff there is such a node.  The values listed
for a node are the sorted set of its answer values of the requested types (empty for NXDOMAIN and over-long). -/
theorem C47_response_value (g : IG) (ts : TypeSet) (values : List Str) (hv : values.Pairwise StrLt) (ends : List Nat)
    (h : ∀ v ∈ ends, firstAns g v ≠ none) (hs : ∀ v ∈ ends, ∀ r ∈ ansRecords g v, r.type ≠ .N) :
    ∃ found : Nat → List Str,
      (∀ v ∈ ends, WrongValue g ts values v → (found v).Pairwise StrLt ∧ ∀ x, x ∈ found v ↔
        (¬ Answers g v .NX ∧ ¬ Answers g v .YX) ∧ ∃ r ∈ ansRecords g v, Member ts r.type ∧ r.rdata = x) ∧
      Check.responseValue g ts values ends = .ok (
        if ∃ v ∈ ends, WrongValue g ts values v then
          [.responseValue values.flatten ((ends.filter (fun v => decide (WrongValue g ts values v))).map
            (fun v => ((found v).flatten, (showQuery (g.vtx v).query), (g.vtx v).ns)))]
        else []) := by
  rw [← toStr_fun]
  obtain ⟨found, h1, h2⟩ := valueMismatches_eq hv ends h hs
  refine ⟨found, h1, ?_⟩
  unfold Check.responseValue
  rw [h2]
  simp only [Res.ok_bind]
  congr 1
  by_cases hw : ∃ v ∈ ends, WrongValue g ts values v
  · rw [if_pos hw, if_neg]
    obtain ⟨v, hv, hw⟩ := hw
    rw [List.isEmpty_iff, List.map_eq_nil_iff]
    exact List.ne_nil_of_mem (a := v) (by rw [List.mem_filter]; exact ⟨hv, by simpa using hw⟩)
  · rw [if_neg hw, if_pos]
    rw [List.isEmpty_iff, List.map_eq_nil_iff, List.filter_eq_nil_iff]
    intro v hv hc
    exact hw ⟨v, hv, by simpa using hc⟩

example : ["ns2.example.com.".toList].Pairwise StrLt ∧ (∀ v ∈ [3, 4, 5], firstAns sampleIG v ≠ none) ∧
    Check.responseValue sampleIG (TypeSet.single .NS) ["ns2.example.com.".toList] [4, 5] = .ok [] ∧
    Check.responseValue sampleIG (TypeSet.single .NS) ["ns3.".toList] [3, 5] =
      .ok [.responseValue "ns3.".toList [([], "example.org.".toList, "ns.example.com.".toList),
        ("ns2.example.com.".toList, "example.com.".toList, "ns.example.org.".toList)]] := by
  refine ⟨by simp, ?_⟩
  decide +kernel

/-- **C48** A violation is reported iff two informative end nodes return different record sets, or two of them that
are asked for CNAME differ in the kind of answer. -/
theorem C48_response_consistency (g : IG) (ts : TypeSet) (v0 : Nat) (rest : List Nat)
    (h : ∀ v ∈ v0 :: rest, Answered g v) :
    ∃ vs, Check.responseConsistency g ts (v0 :: rest) = .ok vs ∧
      (vs = [] ∨ vs = [.responseConsistency (showQuery (g.vtx v0).query)]) ∧
      (vs ≠ [] ↔ ∃ v ∈ v0 :: rest, ∃ u ∈ v0 :: rest, Informative g ts v ∧ Informative g ts u ∧
        (¬ SameRecords (ansRecords g v) (ansRecords g u) ∨
          (Member (g.vtx v).query.types .CNAME ∧ Member (g.vtx u).query.types .CNAME ∧
            ∃ t, Answers g v t ∧ ¬ Answers g u t))) := by
  rw [← toStr_fun]
  obtain ⟨d, h1, h2⟩ := sameLoop_eq (ts := ts) (v0 :: rest) h none false []
  have hinf : ∀ v, v ∈ informative g ts (v0 :: rest) ↔ v ∈ v0 :: rest ∧ Informative g ts v := by
    intro v; unfold informative; rw [List.mem_filter, decide_eq_true_eq]
  have hcn : ∀ v ∈ (informative g ts (v0 :: rest)).filter (fun v => decide (Member (g.vtx v).query.types .CNAME)),
      Answered g v ∧ Server g v := by
    intro v hv
    rw [List.mem_filter, hinf] at hv
    exact ⟨h v hv.1.1, hv.1.2.1⟩
  obtain ⟨d', h3, h4⟩ := cnameLoop_eq _ hcn none d
  have hres : Check.responseConsistency g ts (v0 :: rest) =
      .ok (if d' then [.responseConsistency (g.vtx v0).query.toStr] else []) := by
    unfold Check.responseConsistency
    rw [h1]
    simp only [Res.ok_bind, List.nil_append]
    rw [h3]
    simp only [Res.ok_bind]
    cases d' <;> rfl
  refine ⟨_, hres, by cases d' <;> simp, ?_⟩
  have hd' : ((if d' = true then [Violation.responseConsistency (g.vtx v0).query.toStr] else []) ≠ []) ↔ d' = true := by
    cases d' <;> simp
  rw [hd', h4, h2]
  simp only [Bool.false_eq_true, false_or]
  have hfirst : ∀ v, Informative g ts v → v ∈ v0 :: rest → ∃ a, firstAns g v = some a := by
    intro v hi hv
    obtain ⟨a, ha, _⟩ := (h v hv).ans hi.1
    exact ⟨a, ha⟩
  constructor
  · rintro (⟨w, hw, v, hv, hdiff⟩ | ⟨w, hw, v, hv, a, ha, hdiff⟩)
    · have hw := (hinf w).mp (List.mem_of_head? hw)
      have hv := (hinf v).mp hv
      exact ⟨v, hv.1, w, hw.1, hv.2, hw.2, Or.inl hdiff⟩
    · have hw := List.mem_of_head? hw
      rw [List.mem_filter, hinf, decide_eq_true_eq] at hw hv
      refine ⟨w, hw.1.1, v, hv.1.1, hw.1.2, hv.1.2, ?_⟩
      by_cases hs : SameRecords (ansRecords g w) (ansRecords g v)
      · refine Or.inr ⟨hw.2, hv.2, a.tag, by simp [Answers, ha], fun hc => hdiff ⟨hc, ?_⟩⟩
        have : ansRecords g w = a.rrs := by simp [ansRecords, ha]
        rw [this] at hs
        exact sameRecords_symm hs
      · exact Or.inl hs
  · rintro ⟨v, hv, u, hu, hiv, hiu, hd⟩
    have hvi := (hinf v).mpr ⟨hv, hiv⟩
    have hui := (hinf u).mpr ⟨hu, hiu⟩
    by_cases hs : SameRecords (ansRecords g v) (ansRecords g u)
    · rcases hd with hd | ⟨hcv, hcu, t, ht1, ht2⟩
      · exact absurd hs hd
      · right
        have hvc : v ∈ (informative g ts (v0 :: rest)).filter (fun v => decide (Member (g.vtx v).query.types .CNAME)) := by
          rw [List.mem_filter, decide_eq_true_eq]; exact ⟨hvi, hcv⟩
        have huc : u ∈ (informative g ts (v0 :: rest)).filter (fun v => decide (Member (g.vtx v).query.types .CNAME)) := by
          rw [List.mem_filter, decide_eq_true_eq]; exact ⟨hui, hcu⟩
        cases hh : ((informative g ts (v0 :: rest)).filter
            (fun v => decide (Member (g.vtx v).query.types .CNAME))).head? with
        | none => rw [List.head?_eq_none_iff] at hh; rw [hh] at hvc; simp at hvc
        | some w =>
          refine ⟨w, rfl, ?_⟩
          have hw := List.mem_of_head? hh
          rw [List.mem_filter, hinf, decide_eq_true_eq] at hw
          obtain ⟨a, ha⟩ := hfirst w hw.1.2 hw.1.1
          by_cases hta : t = a.tag
          · exact ⟨u, huc, a, ha, fun hc => ht2 (hta ▸ hc.1)⟩
          · refine ⟨v, hvc, a, ha, fun hc => hta ?_⟩
            have h5 := ht1
            have h6 := hc.1
            unfold Answers at h5 h6
            rw [h5] at h6
            exact Option.some.inj h6
    · left
      cases hh : (informative g ts (v0 :: rest)).head? with
      | none => rw [List.head?_eq_none_iff] at hh; rw [hh] at hvi; simp at hvi
      | some w =>
        refine ⟨w, rfl, ?_⟩
        by_contra hc
        push Not at hc
        exact hs (sameRecords_trans (hc v hvi) (sameRecords_symm (hc u hui)))

/-- **C48** The verdict does not depend on the order of the end nodes. -/
theorem C48_order_independent (g : IG) (ts : TypeSet) (ends ends' : List Nat) (hp : ends.Perm ends') (hne : ends ≠ [])
    (h : ∀ v ∈ ends, Answered g v) :
    ∃ vs vs', Check.responseConsistency g ts ends = .ok vs ∧ Check.responseConsistency g ts ends' = .ok vs' ∧
      (vs = [] ↔ vs' = []) := by
  cases ends with
  | nil => exact absurd rfl hne
  | cons v0 rest =>
    cases ends' with
    | nil => simp at hp
    | cons w0 rest' =>
      obtain ⟨vs, a1, _, a3⟩ := C48_response_consistency g ts v0 rest h
      obtain ⟨vs', b1, _, b3⟩ := C48_response_consistency g ts w0 rest' (fun v hv => h v (hp.mem_iff.mpr hv))
      refine ⟨vs, vs', a1, b1, ?_⟩
      rw [← not_iff_not]
      exact a3.trans (by simp only [hp.mem_iff]; exact b3.symm)

example : (∀ v ∈ [3, 4, 5], Answered sampleIG v) ∧
    Check.responseConsistency sampleIG (TypeSet.single .NS) [3, 4, 5] = .ok [.responseConsistency "example.org.".toList] ∧
    Check.responseConsistency sampleIG (TypeSet.single .NS) [4, 5] = .ok [] := by decide +kernel

/-- **C49** One report for every record with TTL zero in the (first) answer of an informative end node. -/
theorem C49_zero_ttl (g : IG) (ts : TypeSet) (v0 : Nat) (rest : List Nat) (h : ∀ v ∈ v0 :: rest, Answered g v)
    (hs : ∀ v ∈ v0 :: rest, ∀ r ∈ ansRecords g v, r.type ≠ .N) :
    Check.zeroTTL g ts (v0 :: rest) = .ok ((informative g ts (v0 :: rest)).flatMap (fun v =>
      ((ansRecords g v).filter (fun r => decide (r.ttl = 0))).map (fun r =>
        .zeroTTL (showQuery (g.vtx v0).query) (g.vtx v).ns (showRecord r)))) := by
  rw [← toStr_fun, ← str_fun]
  exact zeroLoop_eq (v0 :: rest) h hs

/-- **C49** (disagreement) The record reported need not be of a requested type: here NS is requested and a CNAME
record is reported. -/
theorem C49_disagreement_types_not_filtered :
    Check.zeroTTL sampleIG (TypeSet.single .NS) [2] =
      .ok [.zeroTTL "example.com.".toList "ns.example.com.".toList "example.com.   CNAME   example.org.".toList] := by
  decide +kernel

example : (∀ v ∈ [2, 5], Answered sampleIG v) ∧ (∀ v ∈ [2, 5], ∀ r ∈ ansRecords sampleIG v, r.type ≠ .N) := by
  decide +kernel

/-! ### C50, C52 -/

/-- **C50** An alias is reported iff a rewriting node of the path is followed, at any distance, by a node asked
exactly one of the canonical names. -/
theorem C50_all_aliases (g : IG) (names : List Name) (p : List Nat) (h : ResolutionPath g p) :
    ∃ vs, Check.allAliases g names p = .ok vs ∧
      ∀ w, w ∈ vs ↔ ∃ a v b u c, p = a ++ v :: b ++ u :: c ∧ Answers g v .REWRITE ∧
        (g.vtx u).query.name ∈ names ∧ (g.vtx u).query.excluded = none ∧
        w = .alias (showQuery (g.vtx v).query) (showQuery (g.vtx u).query) := by
  rw [← toStr_fun]
  exact allAliases_eq p h.answered

example : Check.allAliases sampleIG [stringToLabels "example.org".toList] [0, 1, 2, 3] =
      .ok [.alias "example.com.".toList "example.org.".toList] ∧
    Check.allAliases sampleIG [stringToLabels "com".toList] [0, 1, 2, 3] = .ok [] := by decide +kernel

/-- **C52** A violation is reported iff the same record is used by two rewriting nodes, with no use of it in
between, the later one having a name at least as long.  One report at most: it names the two queries of the first
such pair, and lists the records used before the second, each once. -/
theorem C52_infinite_dname (g : IG) (p : List Nat) (h : ResolutionPath g p)
    (hs : ∀ x ∈ uses g p, x.2.type ≠ .N) :
    ∃ vs, Check.infiniteDname g p = .ok vs ∧
      (vs ≠ [] ↔ ∃ x y, Regrowth g (uses g p) x y) ∧ vs.length ≤ 1 ∧
      ∀ w ∈ vs, ∃ pre x y post used, uses g p = pre ++ y :: post ∧ Regrowth g (pre ++ [y]) x y ∧
        (∀ a b, ¬ Regrowth g pre a b) ∧ used.Perm ((usedRecords pre).map showKey) ∧
        w = .infiniteDname (showQuery (g.vtx x.1).query) (showQuery (g.vtx y.1).query) used := by
  rw [← toStr_fun]
  unfold Check.infiniteDname
  rw [infiniteDname_uses p h.answered]
  have hn : ∀ a b, ¬ Regrowth g [] a b := by
    rintro a b ⟨p, q, c, e, _⟩; simp at e
  rcases dnameUses_spec (uses g p) [] [] hs (by simp) (by intro r; rfl) (by simp [usedRecords]) hn with
    ⟨h1, h2⟩ | ⟨pre, x, y, post, h1, h2, h3, h4⟩
  · refine ⟨[], h1, ?_, by simp, by simp⟩
    simp only [ne_eq, not_true_eq_false, false_iff, not_exists]
    simpa using h2
  · refine ⟨_, h4, ?_, by simp, ?_⟩
    · simp only [ne_eq, List.cons_ne_nil, not_false_eq_true, true_iff]
      refine ⟨x, y, ?_⟩
      rw [show uses g p = (pre ++ [y]) ++ post by simpa using h1]
      exact Regrowth.append h2
    · intro w hw
      exact ⟨pre, x, y, post, _, by simpa using h1, h2, h3, List.Perm.refl _, List.mem_singleton.mp hw⟩

example : ResolutionPath sampleIG [0, 2, 7] ∧ (∀ x ∈ uses sampleIG [0, 2, 7], x.2.type ≠ .N) ∧
    Check.infiniteDname sampleIG [0, 2, 7] = .ok [.infiniteDname "example.com.".toList "example.org.".toList
      ["example.com.   CNAME   example.org.".toList]] ∧
    Check.infiniteDname sampleIG [0, 2, 3] = .ok [] :=
  ⟨resolutionPath_cons (by decide +kernel) (by decide +kernel) (by decide +kernel), by decide +kernel⟩

end Groot
