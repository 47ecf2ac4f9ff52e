import Verif.Lemmas.Members
import Verif.Props.Resolve
import Verif.Props.Labels
import Verif.Props.Zone

/-!
# C27, C28: a class of unknown names behaves like each of its members
-/

namespace Groot
open Spec

private def rr (n : String) (t : RRType) (d : String) : RR :=
  { name := stringToLabels n.toList, type := t, cls := 1, ttl := 300, rdata := d.toList }

private def name (s : String) : Name := stringToLabels s.toList

/-! ### C27 -/

/-- **C27** In every zone where the label `l` does not exist below `m`, looking up the class of unknown names below `m`
gives the same answers as looking up the concrete name `m ++ l :: rest`. -/
theorem C27_lookup_member (thr id thr' : Nat) (rs : List RR) (hs : Supported rs) (m : Name) (ts : TypeSet) (l : Label) (rest : Name)
    (hf : ¬ NameExists (Zone.accepted thr id rs) (m ++ [l])) (q : EC) (hn : q.name = m) (ht : q.types = ts) (hx : q.excluded = some []) :
    ∃ as b b', (Zone.afterAdds thr id rs).lookup thr' q = .ok (as, b) ∧
      (Zone.afterAdds thr id rs).lookup thr' { name := m ++ l :: rest, types := ts } = .ok (as, b') := by
  obtain ⟨⟨as, b, h⟩, _⟩ := C13_reply_unique thr id thr' rs hs q
  have hr := (C13_lookup thr id thr' rs hs q as).mp ⟨b, h⟩
  subst hn; subst ht
  obtain ⟨b', h'⟩ := (C13_lookup thr id thr' rs hs { name := q.name ++ l :: rest, types := q.types } as).mpr
    ((reply_member (q' := { name := q.name ++ l :: rest, types := q.types }) rfl rfl (by simp [hx]) rfl hf as).mp hr)
  exact ⟨as, b, b', h, h'⟩

/-- **C27** The hypothesis holds whenever the label graph, which holds every record of the zone, does not know the label
below `m`: the members of a generated class are answered alike by all zones. -/
theorem C27_unknown_label (thr id thr' : Nat) (rs : List RR) (hs : Supported rs) (all : List RR)
    (hall : ∀ r ∈ Zone.accepted thr id rs, r ∈ all) (q : EC) (hx : q.excluded = some []) (m : Name) (hm : Stands all q m) :
    ∃ as b b', (Zone.afterAdds thr id rs).lookup thr' q = .ok (as, b) ∧
      (Zone.afterAdds thr id rs).lookup thr' { name := m, types := q.types } = .ok (as, b') := by
  unfold Stands at hm
  rw [hx] at hm
  obtain ⟨l, rest, rfl, hk⟩ := hm
  refine C27_lookup_member thr id thr' rs hs q.name q.types l rest ?_ q rfl rfl hx
  rintro (h | ⟨r, hr, h⟩)
  · simp at h
  · refine hk (Or.inr ⟨r, hall r hr, ?_, Or.inl h⟩)
    rw [accepted_eq] at hr
    exact stored_supported hs r hr

/-- A zone with a wildcard below `com`. -/
def wildRecords : List RR := [rr "com." .SOA "x", rr "*.com." .A "1.1.1.1", rr "a.com." .NS "ns.org."]

/-- The class below `com` and its member `x.y.com` are both answered from the wildcard. -/
example : (∀ r ∈ wildRecords, r.type ≠ .N) ∧ ¬ Known (Zone.accepted 500 0 wildRecords) (name "com." ++ ["y".toList]) ∧
    (match (Zone.afterAdds 500 0 wildRecords).lookup 500 { name := name "com.", types := TypeSet.single .A, excluded := some [] } with
      | .ok r => r.1 | _ => []) = [⟨.ANS, TypeSet.single .A, [rr "*.com." .A "1.1.1.1"]⟩] ∧
    (match (Zone.afterAdds 500 0 wildRecords).lookup 500 { name := name "x.y.com.", types := TypeSet.single .A } with
      | .ok r => r.1 | _ => []) = [⟨.ANS, TypeSet.single .A, [rr "*.com." .A "1.1.1.1"]⟩] := by
  decide +kernel

/-! ### C28 -/

/-- **C28** Every server gives the class and its members the same answer. -/
theorem C28_same_answers (w : World) (a0 : Ask) (l : Label) (rest : Name) (hf : Fresh w a0 l rest) (s : Str) (a : Ask)
    (hr : Reached w a0 s a) (as : List Answer) : Says w s a as ↔ Says w s (a.member l rest) as :=
  says_member (hf.good hr) s as

/-- **C28** Every sequence of resolution steps of the class is a sequence of steps of the member: the same servers, the
same address questions, each question narrowed to the member. -/
theorem C28_class_to_member (w : World) (a0 : Ask) (l : Label) (rest : Name) (hf : Fresh w a0 l rest)
    (p : List (Str × Ask × Option Ask)) (h : Route w [] a0 p) :
    Route w [] (a0.member l rest) (p.map (fun x => (x.1, x.2.1.member l rest, x.2.2))) := route_member hf .start h

/-- **C28** And every sequence of steps of the member arises from one of the class in this way. -/
theorem C28_member_to_class (w : World) (a0 : Ask) (l : Label) (rest : Name) (hf : Fresh w a0 l rest)
    (p' : List (Str × Ask × Option Ask)) (h : Route w [] (a0.member l rest) p') :
    ∃ p, p' = p.map (fun x => (x.1, x.2.1.member l rest, x.2.2)) ∧ Route w [] a0 p := route_of_member hf .start h

theorem below_rewritten {r : RR} {a a' : Ask} (h : Rewritten r a a') (hb : a'.below = true) : r.type = .DNAME := by
  cases h with
  | cname _ _ _ h => rw [h] at hb; cases hb
  | dname _ h => exact h

/-- The records of an answer are records of one of the server's zones. -/
theorem says_records {w : World} {s : Str} {a : Ask} {as : List Answer} (h : Says w s a as) {x : Answer} (hx : x ∈ as) (ht : x.tag = .REWRITE)
    {r : RR} (hr : r ∈ x.rrs) : ∃ id, r ∈ w.log id := by
  cases h with
  | tooLong => rw [List.mem_singleton.mp hx] at ht; cases ht
  | refused => rw [List.mem_singleton.mp hx] at ht; cases ht
  | unknown => rw [List.mem_singleton.mp hx] at ht; cases ht
  | zone id as _ _ hR =>
    refine ⟨id, ?_⟩
    cases hR with
    | referral => rw [List.mem_singleton.mp hx] at ht; cases ht
    | dname e ts r' _ _ _ h4 _ _ _ =>
      rw [List.mem_singleton.mp hx] at hr
      rw [List.mem_singleton.mp hr]; exact h4
    | cname e m exact ts r' tag _ _ h3 h4 _ _ _ =>
      rw [List.mem_singleton.mp hx] at hr
      rw [List.mem_singleton.mp hr]
      exact h3
    | data e m exact found missing h1 h2 h3 h4 h5 =>
      exfalso
      unfold dataAnswers at hx
      rcases List.mem_append.mp hx with hx | hx
      · split at hx
        · cases hx
        · rw [List.mem_singleton.mp hx] at ht; cases ht
      · split at hx
        · cases hx
        · rw [List.mem_singleton.mp hx] at ht; cases ht
    | nx => rw [List.mem_singleton.mp hx] at ht; cases ht

theorem below_reached {w : World} (hd : ∀ id, ∀ r ∈ w.log id, r.type ≠ .DNAME) {a0 : Ask} {s : Str} {a : Ask} (h : Reached w a0 s a) :
    a.below = true → a.name = a0.name := by
  induction h with
  | start => intro _; rfl
  | step s a s' a' side _ hs ih =>
    intro hb
    cases hs with
    | top => exact ih hb
    | referral => exact ih hb
    | rewriteHere _ _ as x r _ _ h1 h2 h3 h4 h5 =>
      obtain ⟨id, hid⟩ := says_records h1 h2 h3 h4
      exact absurd (below_rewritten h5 hb) (hd id r hid)
    | rewriteTop _ _ as x r _ _ _ h1 h2 h3 h4 h5 =>
      obtain ⟨id, hid⟩ := says_records h1 h2 h3 h4
      exact absurd (below_rewritten h5 hb) (hd id r hid)
  | side s a s' a' b _ hs ih =>
    intro hb
    cases hs with
    | referral _ _ as x r _ _ h1 h2 h3 h4 h5 h6 =>
      rcases h6 with ⟨_, h6⟩ | ⟨_, h6⟩
      · cases h6
      · cases h6; cases hb

/-- **C28** Without DNAMEs the hypothesis is only about the name of the class: the label is new below it in every zone, and
the member has legal length. -/
theorem C28_fresh_of_unknown (w : World) (hd : ∀ id, ∀ r ∈ w.log id, r.type ≠ .DNAME) (a0 : Ask) (l : Label) (rest : Name)
    (hs : Short (a0.name ++ l :: rest)) (hn : ∀ id, ¬ NameExists (w.log id) (a0.name ++ [l])) : Fresh w a0 l rest := by
  intro a ha hb
  rcases ha with ⟨s, h⟩ | ⟨s, b, as, x, r, _, _, h1, h2, h3, h4, h5⟩
  · rw [below_reached hd h hb]; exact ⟨hs, hn⟩
  · obtain ⟨id, hid⟩ := says_records h1 h2 h3 h4
    exact absurd (below_rewritten h5 hb) (hd id r hid)

/-- **C28** Without DNAMEs, for a member of a class of names unknown to all loaded records: the class and the member take
the same resolution steps. -/
theorem C28_no_dname (w : World) (hw : WellFormed w) (all : List RR) (hall : ∀ id, ∀ r ∈ w.log id, r ∈ all) (hd : ∀ r ∈ all, r.type ≠ .DNAME)
    (q : EC) (hx : q.excluded = some []) (m : Name) (hm : Stands all q m) (hs : Short m) (p : List (Str × Ask × Option Ask)) :
    Route w [] ⟨m, q.types, false⟩ p ↔
      ∃ p0, Route w [] (ask q) p0 ∧ p.map (fun x => (x.1, x.2.2)) = p0.map (fun x => (x.1, x.2.2)) ∧
        List.Forall₂ (fun x x0 => x.2.1.types = x0.2.1.types ∧
          (x0.2.1.below = false ∧ x.2.1 = x0.2.1 ∨ x0.2.1.below = true ∧ x0.2.1.name = q.name ∧ x.2.1.name = m ∧ x.2.1.below = false)) p p0 := by
  unfold Stands at hm
  rw [hx] at hm
  obtain ⟨l, rest, rfl, hk⟩ := hm
  have hn : ∀ id, ¬ NameExists (w.log id) (q.name ++ [l]) := by
    rintro id (h | ⟨r, hr, h⟩)
    · simp at h
    · exact hk (Or.inr ⟨r, hall id r hr, hw.supported id r hr, Or.inl h⟩)
  have hd' : ∀ id, ∀ r ∈ w.log id, r.type ≠ .DNAME := fun id r hr => hd r (hall id r hr)
  have hf : Fresh w (ask q) l rest := C28_fresh_of_unknown w hd' (ask q) l rest hs hn
  have hb0 : (ask q).below = true := by simp [ask, hx]
  have hmem : (ask q).member l rest = ⟨q.name ++ l :: rest, q.types, false⟩ := member_below hb0
  have hreach : ∀ {s a p}, Reached w (ask q) s a → Route w s a p → ∀ x ∈ p, x.2.1.below = true → x.2.1.name = q.name := by
    intro s a p hr hp
    induction hp with
    | done => intro x hx; cases hx
    | step s a s' a' side p h _ ih =>
      intro x hx hb
      have hr' := Reached.step s a s' a' side hr h
      rcases List.mem_cons.mp hx with rfl | hx
      · exact below_reached hd' hr' hb
      · exact ih hr' x hx hb
  constructor
  · intro h
    rw [← hmem] at h
    obtain ⟨p0, rfl, h0⟩ := C28_member_to_class w _ l rest hf p h
    refine ⟨p0, h0, by simp [Function.comp_def], ?_⟩
    have hb := hreach .start h0
    clear h h0
    induction p0 with
    | nil => exact .nil
    | cons x p0 ih =>
      refine .cons ?_ (ih (fun y hy => hb y (by simp [hy])))
      cases hbx : x.2.1.below with
      | false => simp [member_exact hbx, hbx]
      | true =>
        have := hb x (by simp) hbx
        simp [member_below hbx, hbx, this]
  · rintro ⟨p0, h0, h1, h2⟩
    have h := C28_class_to_member w _ l rest hf p0 h0
    rw [hmem] at h
    have hp : p = p0.map (fun x => (x.1, x.2.1.member l rest, x.2.2)) := by
      clear h h0
      induction h2 with
      | nil => rfl
      | cons h3 h3t ih =>
        rename_i x x0 p p0
        simp only [List.map_cons, List.cons.injEq] at h1 ⊢
        refine ⟨?_, ih h1.2⟩
        obtain ⟨xs, xa, xo⟩ := x
        obtain ⟨ys, ya, yo⟩ := x0
        obtain ⟨h4, h5⟩ := h3
        simp only [Prod.mk.injEq] at h1
        refine Prod.ext h1.1.1 (Prod.ext ?_ h1.1.2)
        show xa = ya.member l rest
        rcases h5 with ⟨h5, h6⟩ | ⟨h5, h6, h7, h8⟩
        · simp only at h5 h6
          rw [member_exact h5, h6]
        · simp only at h5 h6 h7 h8
          rw [member_below h5]
          obtain ⟨n, t, b⟩ := xa
          simp only at h4 h7 h8
          rw [h4, h7, h8, h6]
    rw [hp]; exact h

/-- `sampleWorld` without its DNAME. -/
def plainWorld : World := { sampleWorld with zones := [(0, [rr "com." .SOA "x", rr "a.com." .CNAME "www.sub.com.",
      rr "sub.com." .NS "ns.sub.com.", rr "ns.sub.com." .A "1.1.1.1", rr "sub.com." .NS "ns.a.com."]),
    (1, [rr "sub.com." .SOA "x", rr "www.sub.com." .A "2.2.2.2"])] }

/-- All records of `plainWorld`. -/
def plainAll : List RR := plainWorld.zones.flatMap (·.2)

/-- The class of unknown names below `sub.com`, whose members are referred to the child's server. -/
def subClass : EC := { name := name "sub.com.", types := TypeSet.single .A, excluded := some [] }

example : WellFormed plainWorld ∧ (∀ id, ∀ r ∈ plainWorld.log id, r ∈ plainAll) ∧ (∀ r ∈ plainAll, r.type ≠ .DNAME) ∧
    Stands plainAll subClass (name "u.v.sub.com.") ∧ Short (name "u.v.sub.com.") := by
  refine ⟨wellFormed_of _ (by decide +kernel) (by decide +kernel) (by decide +kernel), ?_, by decide +kernel, ?_, by decide +kernel⟩
  · intro id r hr
    unfold World.log at hr
    rcases hl : plainWorld.zones.lookup id with _ | rs
    · simp [hl, stored] at hr
    · rw [hl] at hr
      obtain ⟨p1, p2, hp⟩ := List.lookup_eq_some_iff.mp hl
      unfold plainAll
      exact List.mem_flatMap.mpr ⟨(id, rs), by rw [hp.1]; simp, stored_subset rs r hr⟩
  · exact ⟨"v".toList, ["u".toList], by decide +kernel, by decide +kernel⟩

/-- The context of a world in which one DNAME leads beneath another: `a.com` to `x.d.com`, and `d.com` to `t.com`. -/
def nestedRecords : List RR := [rr "com." .SOA "x", rr "a.com." .DNAME "x.d.com.", rr "d.com." .DNAME "t.com.", rr "l.x.t.com." .A "1.1.1.1"]

def nestedCtx : Context where
  nsZones := [("s.".toList, [0])]
  top := ["s.".toList]
  zones := [(0, Zone.afterAdds 500 0 nestedRecords)]

/-- The answers of the last node of a graph. -/
def lastTags (r : Res IG) : Option (List Tag) := match r with
  | .ok g => (g.verts.getLast?.bind (·.answer)).map (List.map (·.tag))
  | _ => none

/-- **C28** (disagreement) `Fresh` cannot be dropped when a DNAME leads beneath another DNAME.  The label graph does not
follow the second one: the name `l.a.com` gets no class of its own, so it is a member of the class of unknown names below
`a.com`; that class ends in NXDOMAIN, but the concrete name has an address. -/
theorem C28_disagreement_nested_dname :
    (match LGraph.generateECs 4000 (labelGraph 500 (nestedRecords.map (fun r => (r, 0, 0)))) ⟨"a.com.".toList, true, false, TypeSet.single .A⟩ with
      | .ok r => (classes r.2).map (fun q => (q.name, q.excluded.isSome)) | _ => []) =
      [(name "a.com.", true), (name "a.com.", false), (name "a.com.", true)] ∧
    Stands nestedRecords { name := name "a.com.", types := TypeSet.single .A, excluded := some [] } (name "l.a.com.") ∧
    lastTags (buildIG 100 500 nestedCtx { name := name "a.com.", types := TypeSet.single .A, excluded := some [] }) = some [.NX] ∧
    lastTags (buildIG 100 500 nestedCtx { name := name "l.a.com.", types := TypeSet.single .A }) = some [.ANS] :=
  ⟨by decide +kernel, ⟨"l".toList, [], by decide +kernel, by decide +kernel⟩, by decide +kernel, by decide +kernel⟩

end Groot
