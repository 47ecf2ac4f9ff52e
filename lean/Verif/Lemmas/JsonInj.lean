import Mathlib.Data.List.Nodup
import Verif.Lemmas.JsonEntries
import Verif.Lemmas.Utf8

/-!
# Different violations have different JSON objects
-/

namespace Groot

open Spec Json Violation

namespace Json

/-- The member with a given key. -/
def get (k : Str) : Json → Option Json
  | .obj m => m.lookup k
  | _ => none

theorem lookup_sorted {m : List (Str × Json)} (h : m.Pairwise (fun a b => StrLt a.1 b.1)) {k : Str} {v : Json} (hm : (k, v) ∈ m) : m.lookup k = some v := by
  induction m with
  | nil => cases hm
  | cons p m ih =>
    rw [List.pairwise_cons] at h
    rcases List.mem_cons.mp hm with rfl | hm
    · rw [List.lookup_cons, beq_self_eq_true]
    · have : k ≠ p.1 := fun he => StrLt_irrefl _ (he ▸ h.1 (k, v) hm)
      rw [List.lookup_cons, beq_eq_false_iff_ne.mpr this]
      exact ih h.2 hm

theorem lookup_none {m : List (Str × Json)} {k : Str} (hm : k ∉ m.map Prod.fst) : m.lookup k = none := by
  induction m with
  | nil => rfl
  | cons p m ih =>
    simp only [List.map_cons, List.mem_cons, not_or] at hm
    rw [List.lookup_cons, beq_eq_false_iff_ne.mpr hm.1]
    exact ih hm.2

theorem get_assigned {l : List (Str × Json)} (hnd : (l.map Prod.fst).Nodup) {k : Str} {v : Json} (hm : (k, v) ∈ l) : get k (assigned l) = some v := by
  obtain ⟨m, e1, e2, e3⟩ := assigned_spec l (List.ne_nil_of_mem hm) hnd
  rw [e1]
  exact lookup_sorted e3 (e2.mem_iff.mpr hm)

theorem get_assigned_none {l : List (Str × Json)} (hne : l ≠ []) (hnd : (l.map Prod.fst).Nodup) {k : Str} (hm : k ∉ l.map Prod.fst) :
    get k (assigned l) = none := by
  obtain ⟨m, e1, e2, -⟩ := assigned_spec l hne hnd
  rw [e1]
  exact lookup_none (fun h => hm ((e2.map Prod.fst).mem_iff.mp h))

theorem pushed_inj {a b : List Json} (h : pushed a = pushed b) : a = b := by
  cases a <;> cases b <;> first | rfl | (cases h; done) | (injection h)

theorem strs_inj {a b : List Str} (h : strs a = strs b) : a = b :=
  List.map_injective_iff.mpr (fun _ _ h => by injection h) h

end Json

/-- The value of "Property". -/
def propName : Violation → Str
  | .loop _ => "Cyclic Zone Dependency".toList
  | .responseReturned _ _ _ => "ResponseReturned".toList
  | .responseValue _ _ => "Response Value".toList
  | .responseConsistency _ => "Response Consistency".toList
  | .zeroTTL _ _ _ => "Zero TTL".toList
  | .alias _ _ => "All Aliases".toList
  | .infiniteDname _ _ _ => "Infinite DName Recursion".toList
  | .delegation _ _ _ _ => "Delegation Consistency".toList
  | .lame _ _ _ => "Lame Delegation".toList
  | .dnameLength _ _ _ => "DNAME Substitution exceeds length".toList
  | .nsContact _ _ _ => "Name Server Contact".toList
  | .hops _ _ _ => "Hops".toList
  | .rewrites _ _ _ => "Rewrites".toList
  | .queryRewrite _ _ _ _ => "Query Rewrite".toList
  | .blackhole _ _ _ => "Rewrite Blackholing".toList
  | .structural _ _ => "Structural Delegation Consistency".toList
  | .allAliases _ => "All Aliases".toList

theorem get_property (ord : List Str → List Str) (v : Violation) : get "Property".toList (v.toJson ord) = some (.str (propName v)) := by
  cases v with
  | infiniteDname q1 q2 used =>
    unfold Violation.toJson
    dsimp only
    split_ifs <;> rfl
  | _ => rfl

theorem tag_number_inj {a b : Tag} (h : a.number = b.number) : a = b := by
  cases a <;> cases b <;> first | rfl | (exact absurd h (by decide))

theorem loopNode_inj {a b : LoopNode} (h : loopNode a = loopNode b) : a = b := by
  obtain ⟨n1, q1, t1⟩ := a
  obtain ⟨n2, q2, t2⟩ := b
  have hq : ∀ n q t, get "Query".toList (loopNode ⟨n, q, t⟩) = some (.str q) := by intro n q t; cases t <;> rfl
  have hn : ∀ n q t, get "NS".toList (loopNode ⟨n, q, t⟩) = some (.str n) := by intro n q t; cases t <;> rfl
  have ht : ∀ n q t, get "AnswerTag".toList (loopNode ⟨n, q, t⟩) = t.map (fun t => Json.int t.number) := by intro n q t; cases t <;> rfl
  have e1 := congrArg (get "Query".toList) h
  have e2 := congrArg (get "NS".toList) h
  have e3 := congrArg (get "AnswerTag".toList) h
  rw [hq, hq] at e1
  rw [hn, hn] at e2
  rw [ht, ht] at e3
  injection e1 with e1
  injection e1 with e1
  injection e2 with e2
  injection e2 with e2
  subst e1 e2
  congr 1
  cases t1 <;> cases t2
  · rfl
  · cases e3
  · cases e3
  · injection e3 with e3
    injection e3 with e3
    rw [tag_number_inj e3]

theorem str_inj {a b : Str} (h : some (Json.str a) = some (Json.str b)) : a = b := by
  injection h with h
  injection h

theorem int_inj {a b : Int} (h : some (Json.int a) = some (Json.int b)) : a = b := by
  injection h with h
  injection h

theorem nat_inj {a b : Nat} (h : some (Json.int a) = some (Json.int b)) : a = b := by
  have := int_inj h
  omega

/-- The list under a key, empty if there is none. -/
def listAt (k : Str) (j : Json) : List Json :=
  match get k j with
  | some (.arr l) => l
  | _ => []

theorem mem_records_keys {k k' : Str} {x : List Str} (h : k ∈ (records k' x).map Prod.fst) : k = k' ∧ x ≠ [] := by
  unfold records at h
  split_ifs at h with hx
  · cases h
  · exact ⟨by simpa using h, hx⟩

/-- The keys and lists of a pair, in order. -/
def pairLists (p : PairDiff) : List (Str × List Str) :=
  [("Common NS Records".toList, p.nsDiff.1), ("Exclusive ".toList ++ p.roleA ++ " NS Records".toList, p.nsDiff.2.1),
   ("Exclusive ".toList ++ p.roleB ++ " NS Records".toList, p.nsDiff.2.2),
   ("Common Glue Records".toList, (p.glueDiff.map (·.1)).getD []),
   ("Exclusive ".toList ++ p.roleA ++ " Glue Records".toList, (p.glueDiff.map (·.2.1)).getD []),
   ("Exclusive ".toList ++ p.roleB ++ " Glue Records".toList, (p.glueDiff.map (·.2.2)).getD [])]

/-- The two keys of a pair that name the servers. -/
def pairBase (p : PairDiff) : List (Str × Json) := [(p.roleA ++ " NS".toList, .str p.serverA), (p.roleB ++ " NS".toList, .str p.serverB)]

theorem pairFields_eq (p : PairDiff) : pairFields p = pairBase p ++ (pairLists p).flatMap (fun r => records r.1 r.2) := by
  unfold pairFields pairBase pairLists
  simp only [List.flatMap_cons, List.flatMap_nil, List.append_nil, List.append_assoc]

theorem pair_distinct {p : PairDiff} (h : (p.roleA, p.roleB) ∈ roles) : ((pairBase p).map Prod.fst ++ (pairLists p).map Prod.fst).Nodup := by
  unfold pairBase pairLists
  unfold roles at h
  simp only [List.map_cons, List.map_nil]
  simp only [List.mem_cons, List.not_mem_nil, or_false, Prod.mk.injEq] at h
  rcases h with ⟨h1, h2⟩ | ⟨h1, h2⟩ | ⟨h1, h2⟩ <;> (rw [h1, h2]; decide +kernel)

theorem listAt_lists {base : List (Str × Json)} {recs : List (Str × List Str)} (hb : base ≠ [])
    (hd : (base.map Prod.fst ++ recs.map Prod.fst).Nodup) (hnd : ((base ++ recs.flatMap (fun r => records r.1 r.2)).map Prod.fst).Nodup)
    {r : Str × List Str} (hr : r ∈ recs) : listAt r.1 (assigned (base ++ recs.flatMap (fun r => records r.1 r.2))) = strs r.2 := by
  unfold listAt
  by_cases hx : r.2 = []
  · rw [get_assigned_none (by simp [hb]) hnd, hx]
    · rfl
    · intro hm
      rw [List.map_append, List.mem_append] at hm
      rcases hm with hm | hm
      · exact (List.nodup_append.mp hd).2.2 _ hm _ (List.mem_map_of_mem hr) rfl
      · obtain ⟨y, hy, he⟩ := List.mem_map.mp hm
        obtain ⟨r', hr', hy⟩ := List.mem_flatMap.mp hy
        have := mem_records_keys (List.mem_map_of_mem (f := Prod.fst) hy)
        rw [he] at this
        have hinj := List.inj_on_of_nodup_map (List.nodup_append.mp hd).2.1 hr hr' this.1
        rw [← hinj] at this
        exact this.2 hx
  · have : (r.1, pushed (strs r.2)) ∈ base ++ recs.flatMap (fun r => records r.1 r.2) :=
      List.mem_append_right _ (List.mem_flatMap.mpr ⟨r, hr, by unfold records; rw [if_neg hx]; simp⟩)
    rw [get_assigned hnd this]
    rw [pushed_ne (by unfold strs; simpa using hx)]

theorem pair_listAt {p : PairDiff} (hp : (p.roleA, p.roleB) ∈ roles) {r : Str × List Str} (hr : r ∈ pairLists p) :
    listAt r.1 (pairDiff p) = strs r.2 := by
  have nd := pairFields_nodup hp
  rw [pairDiff_eq]
  rw [pairFields_eq] at nd ⊢
  exact listAt_lists (by unfold pairBase; simp) (pair_distinct hp) nd hr

theorem pair_get {p : PairDiff} (hp : (p.roleA, p.roleB) ∈ roles) {r : Str × Json} (hr : r ∈ pairBase p) : get r.1 (pairDiff p) = some r.2 := by
  have nd := pairFields_nodup hp
  rw [pairDiff_eq]
  rw [pairFields_eq] at nd ⊢
  exact get_assigned nd (List.mem_append_left _ hr)

theorem pair_get_key {p : PairDiff} (hp : (p.roleA, p.roleB) ∈ roles) {k : Str} (h : get k (pairDiff p) ≠ none) :
    k ∈ (pairBase p).map Prod.fst ++ (pairLists p).map Prod.fst := by
  have nd := pairFields_nodup hp
  rw [pairDiff_eq] at h
  rw [pairFields_eq] at nd h
  by_contra hc
  refine h (get_assigned_none (by unfold pairBase; simp) nd (fun hm => hc ?_))
  rw [List.map_append, List.mem_append] at hm
  rcases hm with hm | hm
  · exact List.mem_append_left _ hm
  · obtain ⟨y, hy, he⟩ := List.mem_map.mp hm
    obtain ⟨r', hr', hy⟩ := List.mem_flatMap.mp hy
    have := mem_records_keys (List.mem_map_of_mem (f := Prod.fst) hy)
    rw [he] at this
    exact List.mem_append_right _ (List.mem_map.mpr ⟨r', hr', this.1.symm⟩)

/-- All keys a pair can have, by its roles. -/
def pairKeys (a b : Str) : List Str :=
  [a ++ " NS".toList, b ++ " NS".toList, "Common NS Records".toList, "Exclusive ".toList ++ a ++ " NS Records".toList,
   "Exclusive ".toList ++ b ++ " NS Records".toList, "Common Glue Records".toList, "Exclusive ".toList ++ a ++ " Glue Records".toList,
   "Exclusive ".toList ++ b ++ " Glue Records".toList]

theorem roles_apart : ∀ r ∈ roles, ∀ r' ∈ roles, r.1 ++ " NS".toList ∈ pairKeys r'.1 r'.2 → r = r' := by decide +kernel

theorem pair_roles {p q : PairDiff} (hp : (p.roleA, p.roleB) ∈ roles) (hq : (q.roleA, q.roleB) ∈ roles) (h : pairDiff p = pairDiff q) :
    p.roleA = q.roleA ∧ p.roleB = q.roleB := by
  have h1 : get (p.roleA ++ " NS".toList) (pairDiff p) = some (.str p.serverA) := pair_get hp (r := (_, _)) List.mem_cons_self
  rw [h] at h1
  have := roles_apart _ hp _ hq (pair_get_key hq (by rw [h1]; simp))
  exact ⟨congrArg Prod.fst this, congrArg Prod.snd this⟩

theorem pairLists_keys {p q : PairDiff} (h1 : p.roleA = q.roleA) (h2 : p.roleB = q.roleB) : (pairLists p).map Prod.fst = (pairLists q).map Prod.fst := by
  unfold pairLists
  rw [h1, h2]
  rfl

theorem lists_ext {a b : List (Str × List Str)} (hk : a.map Prod.fst = b.map Prod.fst) {f : Str → List Json}
    (ha : ∀ r ∈ a, f r.1 = strs r.2) (hb : ∀ r ∈ b, f r.1 = strs r.2) : a.map Prod.snd = b.map Prod.snd := by
  induction a generalizing b with
  | nil => cases b with
    | nil => rfl
    | cons => cases hk
  | cons x a ih => cases b with
    | nil => cases hk
    | cons y b =>
      rw [List.map_cons, List.map_cons] at hk
      injection hk with h1 h2
      have e := (ha x (by simp)).symm.trans ((congrArg f h1).trans (hb y (by simp)))
      rw [List.map_cons, List.map_cons, strs_inj e, ih h2 (fun r hr => ha r (by simp [hr])) (fun r hr => hb r (by simp [hr]))]

theorem pairDiff_inj {p q : PairDiff} (hp : (p.roleA, p.roleB) ∈ roles) (hq : (q.roleA, q.roleB) ∈ roles) (h : pairDiff p = pairDiff q) : SamePair p q := by
  obtain ⟨r1, r2⟩ := pair_roles hp hq h
  have hA : get (p.roleA ++ " NS".toList) (pairDiff p) = some (.str p.serverA) := pair_get hp (r := (_, _)) List.mem_cons_self
  have hA' : get (q.roleA ++ " NS".toList) (pairDiff q) = some (.str q.serverA) := pair_get hq (r := (_, _)) List.mem_cons_self
  have hB : get (p.roleB ++ " NS".toList) (pairDiff p) = some (.str p.serverB) := pair_get hp (r := (_, _)) (List.mem_cons_of_mem _ List.mem_cons_self)
  have hB' : get (q.roleB ++ " NS".toList) (pairDiff q) = some (.str q.serverB) := pair_get hq (r := (_, _)) (List.mem_cons_of_mem _ List.mem_cons_self)
  rw [h, r1, hA'] at hA
  rw [h, r2, hB'] at hB
  have e := lists_ext (pairLists_keys r1 r2) (f := fun k => listAt k (pairDiff p)) (fun r hr => pair_listAt hp hr)
    (fun r hr => by rw [h]; exact pair_listAt hq hr)
  unfold pairLists at e
  simp only [List.map_cons, List.map_nil, List.cons.injEq, and_true] at e
  obtain ⟨e1, e2, e3, e4, e5, e6⟩ := e
  refine ⟨r1, r2, (str_inj hA).symm, (str_inj hB).symm, Prod.ext e1 (Prod.ext e2 e3), ?_⟩
  revert e4 e5 e6
  cases p.glueDiff <;> cases q.glueDiff <;> intro e1 e2 e3 <;> exact Prod.ext e1 (Prod.ext e2 e3)

theorem numbered_perm {a b : List Str} (ha : a ≠ []) (hb : b ≠ []) (h : assigned (numbered 1 a) = assigned (numbered 1 b)) : a.Perm b := by
  have hne : ∀ {a : List Str}, a ≠ [] → numbered 1 a ≠ [] := by
    intro a ha
    cases a with
    | nil => exact absurd rfl ha
    | cons r l => unfold numbered; simp
  obtain ⟨m, e1, e2, -⟩ := assigned_spec _ (hne ha) (numbered_nodup a 1)
  obtain ⟨m', f1, f2, -⟩ := assigned_spec _ (hne hb) (numbered_nodup b 1)
  rw [e1, f1] at h
  injection h with h
  subst h
  have hp := e2.symm.trans f2
  have hm : ∀ (l : List Str) i, (numbered i l).map Prod.snd = strs l := by
    intro l
    induction l with
    | nil => intro i; rfl
    | cons r l ih => intro i; rw [numbered, List.map_cons, ih]; rfl
  have := hp.map Prod.snd
  rw [hm, hm] at this
  have hg : ∀ l : List Str, (strs l).map (fun j => match j with | .str s => s | _ => []) = l := by
    intro l
    unfold strs
    rw [List.map_map]
    exact List.map_id'' (fun _ => rfl) l
  have := this.map (fun j => match j with | .str s => s | _ => ([] : Str))
  rwa [hg, hg] at this

/-- Different violations have different JSON objects. -/
theorem toJson_inj (ord : List Str → List Str) (hord : ∀ l, (ord l).Perm l) (v w : Violation) (hv : RolesOk v) (hw : RolesOk w)
    (h : v.toJson ord = w.toJson ord) : SameReport v w := by
  have hp : propName v = propName w := by
    have := congrArg (get "Property".toList) h
    rw [get_property, get_property] at this
    exact str_inj this
  have g := fun k => congrArg (get k) h
  have g2 := fun k => congrArg (fun j => (get "Violation".toList j).bind (get k)) h
  cases v <;> cases w <;> dsimp only [propName] at hp <;> try (exact absurd hp (by decide +kernel))
  case loop.loop a b =>
    have e := pushed_inj (Option.some.inj (g "Loop".toList))
    rw [List.map_injective_iff.mpr (fun _ _ h => loopNode_inj h) e]
    exact .refl _
  case responseReturned.responseReturned =>
    rw [str_inj (g "Query".toList), str_inj (g2 "Types".toList), str_inj (g2 "Nameserver".toList)]
    exact .refl _
  case responseValue.responseValue =>
    have e := pushed_inj (Option.some.inj (g "Mismatches".toList))
    rw [str_inj (g "Expected".toList), List.map_injective_iff.mpr (fun a b h => ?_) e]
    · exact .refl _
    · exact Prod.ext (str_inj (congrArg (get "Found".toList) h)) (Prod.ext (str_inj (congrArg (get "Query".toList) h))
        (str_inj (congrArg (get "Nameserver".toList) h)))
  case responseConsistency.responseConsistency =>
    rw [str_inj (g "Query".toList)]
    exact .refl _
  case zeroTTL.zeroTTL =>
    rw [str_inj (g "Query".toList), str_inj (g2 "Nameserver".toList), str_inj (g2 "Record".toList)]
    exact .refl _
  case alias.alias =>
    rw [str_inj (g "Query".toList), str_inj (g "Canonical Name".toList)]
    exact .refl _
  case alias.allAliases => exact nomatch (g "Query".toList)
  case allAliases.alias => exact nomatch (g "Query".toList)
  case infiniteDname.infiniteDname q1 q2 a q3 q4 b =>
    unfold Violation.toJson at g
    dsimp only at g
    by_cases ha : a = [] <;> by_cases hb : b = []
    · rw [if_pos ha, if_pos hb] at g
      rw [ha, hb, str_inj (g "Query1".toList), str_inj (g "Query2".toList)]
      exact .refl _
    · rw [if_pos ha, if_neg hb] at g
      exact nomatch (g "RRsUsed".toList)
    · rw [if_neg ha, if_pos hb] at g
      exact nomatch (g "RRsUsed".toList)
    · rw [if_neg ha, if_neg hb] at g
      rw [str_inj (g "Query1".toList), str_inj (g "Query2".toList)]
      have e := Option.some.inj (g "RRsUsed".toList)
      have hne : ∀ {l : List Str}, l ≠ [] → ord l ≠ [] := by
        intro l hl h
        have := hord l
        rw [h] at this
        exact hl this.nil_eq.symm
      exact .used _ _ _ _ ((hord a).symm.trans ((numbered_perm (hne ha) (hne hb) e).trans (hord b)))
  case delegation.delegation q n1 n2 g1 q' n1' n2' g1' =>
    rw [str_inj (g "Query".toList), str_inj (g2 "Nameserver1".toList), str_inj (g2 "Nameserver2".toList)]
    have e := str_inj (g2 "InconsistencyType".toList)
    cases g1 <;> cases g1'
    · exact .refl _
    · exact absurd e (by decide +kernel)
    · exact absurd e (by decide +kernel)
    · exact .refl _
  case lame.lame =>
    rw [str_inj (g "Query".toList), str_inj (g2 "Nameserver1".toList), str_inj (g2 "Nameserver2".toList)]
    exact .refl _
  case dnameLength.dnameLength =>
    rw [str_inj (g "Query".toList), str_inj (g2 "RewriteTarget".toList), str_inj (g2 "Nameserver".toList)]
    exact .refl _
  case nsContact.nsContact =>
    rw [str_inj (g "Query".toList), str_inj (g2 "ExternalNameserver".toList), str_inj (g2 "AllowedDomains".toList)]
    exact .refl _
  case hops.hops =>
    rw [str_inj (g "Query".toList), nat_inj (g2 "ActualHops".toList), int_inj (g2 "MaxAllowedHops".toList)]
    exact .refl _
  case rewrites.rewrites =>
    rw [str_inj (g "Query".toList), nat_inj (g2 "ActualRewrites".toList), int_inj (g2 "MaxAllowedRewrites".toList)]
    exact .refl _
  case queryRewrite.queryRewrite =>
    rw [str_inj (g "Query".toList), str_inj (g2 "RewriteTarget".toList), str_inj (g2 "Nameserver".toList), str_inj (g2 "ExpectedUnder".toList)]
    exact .refl _
  case blackhole.blackhole =>
    rw [str_inj (g "Query".toList), str_inj (g2 "RewriteTarget".toList), str_inj (g2 "BlackholeNameserver".toList)]
    exact .refl _
  case structural.structural d a d' b =>
    have e := pushed_inj (Option.some.inj (g "Inconsistent Pairs".toList))
    rw [str_inj (g "Domain Name".toList)]
    refine .pairs _ _ _ ?_
    clear g g2 hp h
    have hv' : ∀ p ∈ a, (p.roleA, p.roleB) ∈ roles := hv
    have hw' : ∀ p ∈ b, (p.roleA, p.roleB) ∈ roles := hw
    clear hv hw
    induction a generalizing b with
    | nil =>
      cases b with
      | nil => exact .nil
      | cons q b => cases e
    | cons p a ih =>
      cases b with
      | nil => cases e
      | cons q b =>
        rw [List.map_cons, List.map_cons] at e
        injection e with e1 e2
        exact .cons (pairDiff_inj (hv' p (by simp)) (hw' q (by simp)) e1) (ih b e2 (fun p hp => hv' p (by simp [hp])) (fun p hp => hw' p (by simp [hp])))
  case allAliases.allAliases =>
    have e := pushed_inj (Option.some.inj (g "Canonical Name and their Aliases".toList))
    rw [List.map_injective_iff.mpr (fun a b h => ?_) e]
    · exact .refl _
    · have e2 := Option.some.inj (congrArg (get "Aliases".toList) h)
      injection e2 with e2
      exact Prod.ext (str_inj (congrArg (get "Canonical Name".toList) h)) (strs_inj e2)

end Groot
