import Verif.Lemmas.Built
import Verif.Props.Checks
import Verif.Props.Paths
import Verif.Spec.Job

/-!
# C30–C35, C38: construction of the interpretation graph

The specification is `Spec/Resolve.lean`: `Says`, `Step`, `Reached` describe resolution without graphs.  The theorems
hold for every world satisfying `WellFormed` (C64 shows that loading produces one), every class with a legal name, and
every hash-map threshold.
-/

namespace Groot
open Spec

/-! ### A concrete world -/

private def rr (n : String) (t : RRType) (d : String) : RR :=
  { name := stringToLabels n.toList, type := t, cls := 1, ttl := 300, rdata := d.toList }

/-- Two servers: `s.` serves `com` with a CNAME, a DNAME that loops, and a delegation with glue and one without;
`ns.sub.com.` serves `sub.com`. -/
def sampleWorld : World where
  zones := [(0, [rr "com." .SOA "x", rr "a.com." .CNAME "www.sub.com.", rr "d.com." .DNAME "e.d.com.",
      rr "sub.com." .NS "ns.sub.com.", rr "ns.sub.com." .A "1.1.1.1", rr "sub.com." .NS "ns.a.com."]),
    (1, [rr "sub.com." .SOA "x", rr "www.sub.com." .A "2.2.2.2"])]
  nsZones := [("s.".toList, [0]), ("ns.sub.com.".toList, [1])]
  top := ["s.".toList]

/-- The loaded form of `sampleWorld`. -/
def sampleCtx : Context where
  nsZones := sampleWorld.nsZones
  top := sampleWorld.top
  zones := sampleWorld.zones.map (fun p => (p.1, Zone.afterAdds 500 p.1 p.2))

theorem sampleCtx_represents : Represents sampleCtx sampleWorld := represents_of (thr := 500) rfl rfl rfl

theorem wellFormed_of (w : World) (h1 : ∀ p ∈ w.nsZones, ∀ id ∈ p.2, w.zones.lookup id ≠ none)
    (h2 : ∀ p ∈ w.zones, ∀ r ∈ stored p.2, r.type ≠ .N ∧
      (r.type = .NS → r.rdata ≠ [] ∧ Short (stringToLabels r.rdata)))
    (h3 : ∀ s ∈ w.top, s ≠ []) : WellFormed w := by
  have key : ∀ id, ∀ r ∈ w.log id, r.type ≠ .N ∧
      (r.type = .NS → r.rdata ≠ [] ∧ Short (stringToLabels r.rdata)) := by
    intro id r hr
    unfold World.log at hr
    rcases hl : w.zones.lookup id with _ | rs
    · simp [hl, stored] at hr
    · rw [hl] at hr
      obtain ⟨p1, p2, hp⟩ := List.lookup_eq_some_iff.mp hl
      exact h2 (id, rs) (by rw [hp.1]; simp) r hr
  refine ⟨?_, fun id r hr => (key id r hr).1, h3, fun id r hr ht => (key id r hr).2 ht⟩
  intro s id hid
  unfold World.hosted at hid
  rcases hl : w.nsZones.lookup s with _ | ids
  · simp [hl] at hid
  · rw [hl] at hid
    obtain ⟨p1, p2, hp⟩ := List.lookup_eq_some_iff.mp hl
    exact h1 (s, ids) (by rw [hp.1]; simp) id hid

theorem sampleWorld_wellFormed : WellFormed sampleWorld := wellFormed_of _ (by decide +kernel) (by decide +kernel) (by decide +kernel)

/-- The class asking for the addresses of `a.com`. -/
def aliasQuery : EC := { name := stringToLabels "a.com".toList, types := TypeSet.single .A }

example : Represents sampleCtx sampleWorld ∧ WellFormed sampleWorld ∧ Short aliasQuery.name ∧ aliasQuery.types ≠ 0 :=
  ⟨sampleCtx_represents, sampleWorld_wellFormed, by decide +kernel, by decide +kernel⟩

/-- What the construction does on the sample: the CNAME is followed, the referral goes to both servers, and the address
of the one without glue is asked for, which leads back to the CNAME's server. -/
example : (match buildIG 60 500 sampleCtx aliasQuery with
    | .ok g => g.verts.map (fun v => (String.ofList v.ns, String.ofList v.query.toStr)) | _ => []) =
    [("", "a.com."), ("s.", "a.com."), ("s.", "www.sub.com."), ("ns.sub.com.", "www.sub.com."), ("", "ns.a.com."),
      ("s.", "ns.a.com."), ("ns.a.com.", "www.sub.com.")] := by decide +kernel

/-! ### C30 -/

/-- **C30** Construction finishes, without aborting, for every well-formed world — whatever CNAME, DNAME or delegation
cycles the zones contain: there is one graph that every sufficiently large budget computes. -/
theorem C30_construction_terminates (ctx : Context) (w : World) (hr : Represents ctx w) (hw : WellFormed w) (thr : Nat)
    (q : EC) (hq : Short q.name) : ∃ N g, ∀ fuel, N ≤ fuel → buildIG fuel thr ctx q = .ok g := by
  obtain ⟨N, g, h, _⟩ := buildIG_ok hr hw thr q hq
  exact ⟨N, g, h⟩

/-- A DNAME that rewrites into its own subtree forever: the construction ends with an over-long name. -/
example : (match buildIG 400 500 sampleCtx { name := stringToLabels "x.d.com".toList, types := TypeSet.single .A } with
    | .ok g => (g.verts.length, (g.verts.getLast?.bind (·.answer)).map (List.map (·.tag))) | _ => (0, none)) =
    (125, some [.YX]) := by decide +kernel

/-! ### C31 -/

/-- **C31** No two nodes have the same server and the same question. -/
theorem C31_one_node (ctx : Context) (w : World) (hr : Represents ctx w) (hw : WellFormed w) (thr fuel : Nat) (q : EC)
    (hq : Short q.name) (g : IG) (hb : buildIG fuel thr ctx q = .ok g) (u v : Nat) (hu : u < g.verts.length)
    (hv : v < g.verts.length) (hs : (g.vtx u).ns = (g.vtx v).ns) (ha : ask (g.vtx u).query = ask (g.vtx v).query) :
    u = v := by
  have h := buildIG_inv hr hw hq hb
  exact h.core.uniq u v _ _ (at_self hu) ⟨hv, hs.symm, ha.symm⟩

/-! ### C32 -/

/-- **C32** Every node of a real server carries an answer, and it is what that server says; the other nodes carry
none. -/
theorem C32_answers (ctx : Context) (w : World) (hr : Represents ctx w) (hw : WellFormed w) (thr fuel : Nat) (q : EC)
    (hq : Short q.name) (g : IG) (hb : buildIG fuel thr ctx q = .ok g) (v : Nat) (hv : v < g.verts.length) :
    ((g.vtx v).ns ≠ [] → ∃ as, (g.vtx v).answer = some as ∧ Says w (g.vtx v).ns (ask (g.vtx v).query) as) ∧
    ((g.vtx v).ns = [] → (g.vtx v).answer = none) := by
  have h := buildIG_inv hr hw hq hb
  refine ⟨fun hs => h.says (at_self hv) hs, fun hs => h.core.dummy v (ask (g.vtx v).query) ⟨hv, hs, rfl⟩⟩

/-- **C32** `Says` is a function for servers that are either listed or not top servers: one question, one answer. -/
theorem C32_says_unique (w : World) (s : Str) (a : Ask) (as as' : List Answer) (h : Says w s a as) (h' : Says w s a as')
    (hl : w.Listed s ∨ s ∉ w.top) : as = as' := by
  cases h with
  | tooLong h1 =>
    cases h' with
    | tooLong h2 => rfl
    | zone id _ h2 h3 h4 => exact absurd h2 h1
    | refused h2 h3 h4 => exact absurd h2 h1
    | unknown h2 h3 => exact absurd h2 h1
  | zone id _ h1 h2 h3 => exact (Says.unique h1 h2 h' h3).symm
  | refused h1 h2 h3 =>
    cases h' with
    | tooLong h4 => exact absurd h1 h4
    | zone id _ h4 h5 h6 => exact absurd h5.encloses h2
    | refused h4 h5 h6 => rfl
    | unknown h4 h5 =>
      rcases h3 with h3 | h3
      · exact absurd h3 h5
      · rcases hl with hl | hl
        · exact absurd hl h5
        · exact absurd h3 hl
  | unknown h1 h2 =>
    cases h' with
    | tooLong h4 => exact absurd h1 h4
    | zone id _ h4 h5 h6 => exact absurd h5.encloses.listed h2
    | refused h4 h5 h6 =>
      rcases hl with hl | hl
      · exact absurd hl h2
      · rcases h6 with h6 | h6
        · exact absurd h6 h2
        · exact absurd h6 hl
    | unknown h4 h5 => rfl

example : (sampleWorld.Listed "s.".toList ∨ "s.".toList ∉ sampleWorld.top) ∧
    ("ns.a.com.".toList ∉ sampleWorld.top) := by
  unfold World.Listed; decide +kernel

/-! ### C33 -/

/-- **C33** The nodes are exactly the questions reached, each with the server it is put to. -/
theorem C33_nodes (ctx : Context) (w : World) (hr : Represents ctx w) (hw : WellFormed w) (thr fuel : Nat) (q : EC)
    (hq : Short q.name) (g : IG) (hb : buildIG fuel thr ctx q = .ok g) (s : Str) (a : Ask) :
    (∃ v, v < g.verts.length ∧ (g.vtx v).ns = s ∧ ask (g.vtx v).query = a) ↔ Reached w (ask q) s a := by
  have h := buildIG_inv hr hw hq hb
  constructor
  · rintro ⟨v, hv⟩; exact h.core.reach v s a hv
  · exact fun hr => h.node hr

/-- The side query recorded on an edge is the node that starts the question `sd`. -/
def sideMatches (g : IG) (o : Option Nat) (sd : Option Ask) : Prop :=
  match o, sd with
  | none, none => True
  | some n, some b => n < g.verts.length ∧ (g.vtx n).ns = [] ∧ ask (g.vtx n).query = b
  | _, _ => False

theorem sideOk_iff {g : IG} {o : Option Nat} {sd : Option Ask} : SideOk g o sd ↔ sideMatches g o sd := by
  unfold SideOk sideMatches At
  cases o <;> cases sd <;> simp
  constructor
  · rintro ⟨h1, h2, h3⟩; exact ⟨h2, h3, h1.symm⟩
  · rintro ⟨h1, h2, h3⟩; exact ⟨h3.symm, h1, h2⟩

/-- **C33** The edges are exactly the resolution steps between those questions, each with its address question. -/
theorem C33_edges (ctx : Context) (w : World) (hr : Represents ctx w) (hw : WellFormed w) (thr fuel : Nat) (q : EC)
    (hq : Short q.name) (g : IG) (hb : buildIG fuel thr ctx q = .ok g) (v u : Nat) (hv : v < g.verts.length)
    (hu : u < g.verts.length) (o : Option Nat) :
    ⟨v, u, o⟩ ∈ g.edges ↔ ∃ sd, sideMatches g o sd ∧
      Step w (g.vtx v).ns (ask (g.vtx v).query) (g.vtx u).ns (ask (g.vtx u).query) sd := by
  have h := buildIG_inv hr hw hq hb
  constructor
  · intro he
    obtain ⟨s, a, s', a', sd, h1, h2, h3, h4⟩ := h.core.edges _ he
    obtain ⟨e1, e2⟩ := h1.unique (at_self hv)
    obtain ⟨e3, e4⟩ := h2.unique (at_self hu)
    subst e1; subst e2; subst e3; subst e4
    exact ⟨sd, sideOk_iff.mp h3, h4⟩
  · rintro ⟨sd, hsd, hs⟩
    obtain ⟨e, he, h1, h2, h3⟩ := h.step (at_self hv) hs
    have h4 := h.core.uniq _ _ _ _ h2 (at_self hu)
    have h5 : e.side = o := by
      rcases h3 with ⟨h3, h6⟩ | ⟨n, b, h3, h6, h7⟩
      · rw [h6] at hsd
        cases o with
        | none => exact h3
        | some n => exact absurd hsd (by simp [sideMatches])
      · rw [h6] at hsd
        cases o with
        | none => exact absurd hsd (by simp [sideMatches])
        | some m => rw [h3, h.core.uniq _ _ _ _ h7 hsd]
    obtain ⟨x, y, z⟩ := e
    simp only at h1 h4 h5
    rw [← h1, ← h4, ← h5]
    exact he

/-- **C33** Every edge joins two nodes, and every side query is a node (so `C33_edges` describes all edges). -/
theorem C33_edges_inside (ctx : Context) (w : World) (hr : Represents ctx w) (hw : WellFormed w) (thr fuel : Nat) (q : EC)
    (hq : Short q.name) (g : IG) (hb : buildIG fuel thr ctx q = .ok g) (e : IEdge) (he : e ∈ g.edges) :
    e.src < g.verts.length ∧ e.dst < g.verts.length ∧ ∀ n, e.side = some n → n < g.verts.length := by
  have h := buildIG_inv hr hw hq hb
  obtain ⟨_, _, _, _, _, h1, h2, h3, _⟩ := h.core.edges e he
  refine ⟨h1.1, h2.1, ?_⟩
  intro n hn
  rcases h3 with ⟨h3, _⟩ | ⟨m, b, h3, _, h7⟩
  · rw [h3] at hn; cases hn
  · rw [h3] at hn; cases hn; exact h7.1

example : (match buildIG 60 500 sampleCtx aliasQuery with
    | .ok g => g.edges.map (fun e => (e.src, e.dst, e.side)) | _ => []) =
    [(0, 1, none), (1, 2, none), (2, 3, none), (4, 5, none), (2, 6, some 4)] := by
  decide +kernel

/-! ### C34 -/

/-- **C34** Zone selection never fails, and picks the zone with the longest origin containing the name, the first loaded
among equals. -/
theorem C34_zone_selection (ctx : Context) (w : World) (hr : Represents ctx w) (hw : WellFormed w) (s : Str) (n : Name)
    (id : Nat) : relevantZone ctx s n = .ok (some id) ↔ Best w s n id := by
  obtain ⟨o, h1, h2, h3⟩ := relevantZone_spec hr hw s n
  rw [h1]
  constructor
  · intro h; cases h; exact h2 id rfl
  · intro h
    rcases o with _ | id'
    · exact absurd h.encloses (h3 rfl)
    · rw [best_unique (h2 _ rfl) h]

/-- **C34** No zone is selected exactly when the server hosts none that contains the name. -/
theorem C34_no_zone (ctx : Context) (w : World) (hr : Represents ctx w) (hw : WellFormed w) (s : Str) (n : Name) :
    relevantZone ctx s n = .ok none ↔ ¬ ∃ id ∈ w.hosted s, AtOrBelow (w.origin id) n := by
  obtain ⟨o, h1, h2, h3⟩ := relevantZone_spec hr hw s n
  rw [h1]
  constructor
  · intro h; cases h; exact h3 rfl
  · intro h
    rcases o with _ | id'
    · rfl
    · exact absurd (h2 _ rfl).encloses h

/-- **C34** Restated without positions: the chosen origin is at least as long as every other candidate's. -/
theorem C34_most_specific (ctx : Context) (w : World) (hr : Represents ctx w) (hw : WellFormed w) (s : Str) (n : Name)
    (id : Nat) (h : relevantZone ctx s n = .ok (some id)) :
    id ∈ w.hosted s ∧ AtOrBelow (w.origin id) n ∧
      ∀ j ∈ w.hosted s, AtOrBelow (w.origin j) n → AtOrBelow (w.origin j) (w.origin id) := by
  have hb := (C34_zone_selection ctx w hr hw s n id).mp h
  refine ⟨hb.hosted, ?_⟩
  obtain ⟨b, a, e, h1, h2, h3⟩ := hb
  refine ⟨h1, ?_⟩
  intro j hj hjn
  have hle : (w.origin j).length ≤ (w.origin id).length := by
    rw [e] at hj
    rcases List.mem_append.mp hj with hj | hj
    · exact le_of_lt (h2 j hj hjn)
    · rcases List.mem_cons.mp hj with rfl | hj
      · exact le_refl _
      · exact h3 j hj hjn
  obtain ⟨x, hx⟩ := hjn
  obtain ⟨y, hy⟩ := h1
  have := List.prefix_of_prefix_length_le ⟨x, hx.symm⟩ ⟨y, hy.symm⟩ hle
  obtain ⟨z, hz⟩ := this
  exact ⟨z, hz.symm⟩

/-- Two nested zones on one server: the inner one is chosen although it was loaded later. -/
example : relevantZone { sampleCtx with nsZones := [("s.".toList, [0, 1])] } "s.".toList
      (stringToLabels "www.sub.com".toList) = .ok (some 1) ∧
    relevantZone sampleCtx "s.".toList (stringToLabels "www.sub.org".toList) = .ok none := by decide +kernel

/-! ### C35 -/

/-- **C35** Substitution succeeds exactly when the owner encloses the query name; then the owner is replaced by the
target, the labels below it, the types and the class marker are kept. -/
theorem C35_substitution (r : RR) (q q' : EC) : processDname r q = .ok q' ↔
    ∃ rest, q.name = r.name ++ rest ∧
      q' = { name := stringToLabels r.rdata ++ rest, types := q.types, excluded := q.excluded } := by
  constructor
  · intro h
    have key : ∀ (o n rest : Name), dnameRest o n = .ok rest → n = o ++ rest := by
      intro o
      induction o with
      | nil => intro n rest h; cases n <;> (simp [dnameRest] at h; simp [h])
      | cons l o ih =>
        intro n rest h
        cases n with
        | nil => simp [dnameRest] at h
        | cons x n =>
          unfold dnameRest at h
          split at h
          · rename_i hx; rw [ih n rest h, hx]; rfl
          · cases h
    unfold processDname at h
    rcases hd : dnameRest r.name q.name with rest | _ | _ | _ | _
    · rw [hd] at h
      simp only [Res.ok_bind, Res.ok.injEq] at h
      exact ⟨rest, key _ _ _ hd, h.symm⟩
    all_goals rw [hd] at h; cases h
  · rintro ⟨rest, h, rfl⟩; exact processDname_ok r q rest h

/-- **C35** In every built graph, the DNAME of a rewriting answer encloses the query name of its node, so substitution
does not abort there. -/
theorem C35_never_aborts (ctx : Context) (w : World) (hr : Represents ctx w) (hw : WellFormed w) (thr fuel : Nat) (q : EC)
    (hq : Short q.name) (g : IG) (hb : buildIG fuel thr ctx q = .ok g) (v : Nat) (as : List Answer)
    (ha : (g.vtx v).answer = some as) (x : Answer) (hx : x ∈ as) (ht : x.tag = .REWRITE) (r : RR) (hrr : r ∈ x.rrs)
    (hd : r.type = .DNAME) : ∃ q', processDname r (g.vtx v).query = .ok q' := by
  have h := buildIG_inv hr hw hq hb
  rcases Nat.lt_or_ge v g.verts.length with hl | hl
  · have hat := at_self hl
    have hs : (g.vtx v).ns ≠ [] := by
      intro hs
      rw [hs] at hat
      have := h.core.dummy v _ hat
      rw [this] at ha; cases ha
    obtain ⟨as', e, hsay⟩ := h.says hat hs
    rw [e] at ha; cases ha
    obtain ⟨_, _, _, _, h1 | h1⟩ := hsay.rewrite hx ht hrr
    · rw [hd] at h1; exact absurd h1.1 (by decide)
    · obtain ⟨rest, hrest⟩ := h1.2
      exact ⟨_, (C35_substitution r _ _).mpr ⟨rest, hrest, rfl⟩⟩
  · rw [vtx_ge hl] at ha; exact absurd ha (by simp [default, instInhabitedIVtx.default])

example : processDname (rr "d.com." .DNAME "e.d.com.") { name := stringToLabels "x.d.com".toList, types := 1 } =
    .ok { name := stringToLabels "x.e.d.com".toList, types := 1 } := by decide +kernel

/-! ### C38 -/

/-- **C38** A built graph is sane: no empty answer vectors, rewriting answers contain a record, edges stay inside.
(C36 and C37 apply to it.) -/
theorem C38_built_sane (ctx : Context) (w : World) (hr : Represents ctx w) (hw : WellFormed w) (thr fuel : Nat) (q : EC)
    (hq : Short q.name) (ht : q.types ≠ 0) (g : IG) (hb : buildIG fuel thr ctx q = .ok g) :
    Sane g ∧ 0 < g.verts.length := by
  have h := buildIG_inv hr hw hq hb
  exact ⟨h.sane hw hq ht, h.core.root.1⟩

/-- **C38** Every path handed to a path check starts at the query and goes through answering servers only. -/
theorem C38_paths (ctx : Context) (w : World) (hr : Represents ctx w) (hw : WellFormed w) (thr fuel : Nat) (q : EC)
    (hq : Short q.name) (ht : q.types ≠ 0) (g : IG) (hb : buildIG fuel thr ctx q = .ok g) (f : Nat)
    (hf : g.verts.length < f) (s : IG.Enum) (hs : g.enumerate f 0 [] {} = .ok s) (p : List Nat) (hp : p ∈ s.paths) :
    ResolutionPath g p := by
  have h := buildIG_inv hr hw hq hb
  have hg := h.sane hw hq ht
  obtain ⟨s', e, h2, _⟩ := C37_enumeration g hg 0 h.core.root.1 f hf
  rw [e] at hs; cases hs
  rcases (h2 p).mp hp with h3 | h3
  · exact h.path hw hg h3.1
  · exact h.path hw hg h3.1

theorem concatM_ok {α β : Type} (f : α → Res (List β)) (l : List α) (h : ∀ x ∈ l, ∃ y, f x = .ok y) :
    ∃ y, concatM f l = .ok y := by
  induction l with
  | nil => exact ⟨[], rfl⟩
  | cons x l ih =>
    obtain ⟨y, hy⟩ := h x (by simp)
    obtain ⟨z, hz⟩ := ih (fun x hx => h x (by simp [hx]))
    refine ⟨y ++ z, ?_⟩
    unfold concatM
    rw [hy, hz]
    rfl

theorem PathFn.run_ok {w : World} {a0 : Ask} {g : IG} (h : BInv w a0 g []) (hw : WellFormed w) {p : List Nat}
    (hp : ResolutionPath g p) (f : PathFn) (hf : f.Configured) : ∃ y, f.run g p = .ok y := by
  obtain ⟨v0, rest, rfl, _⟩ := id hp
  obtain ⟨l, hl⟩ : ∃ l, (v0 :: rest).getLast? = some l := ⟨_, List.getLast?_eq_some_getLast (by simp)⟩
  cases f with
  | misfit b => exact hf.elim
  | hops n => exact ⟨_, C39_hops g n v0 rest hp⟩
  | rewrites n => exact ⟨_, C40_rewrites g n v0 rest hp⟩
  | delegation => exact ⟨_, C45_delegation_consistency g v0 rest hp⟩
  | infiniteDname =>
    obtain ⟨y, hy, _⟩ := C52_infinite_dname g _ hp (fun x hx => h.supported_uses hw hx)
    exact ⟨y, hy⟩
  | lame => exact ⟨_, C44_lame_delegation g v0 rest hp⟩
  | queryRewrite d => exact ⟨_, C41_query_rewrite g d hf _ hp⟩
  | nsContact d => exact ⟨_, C42_ns_contact g d hf _⟩
  | blackholing => exact ⟨_, C43_blackholing g _ l hl hp⟩
  | allAliases d =>
    obtain ⟨y, hy, _⟩ := C50_all_aliases g d _ hp
    exact ⟨y, hy⟩
  | dnameLength => exact ⟨_, C51_dname_length g v0 rest l hl hp⟩

theorem NodeFn.run_ok {w : World} {a0 : Ask} {g : IG} (h : BInv w a0 g []) (hw : WellFormed w) {ends : List Nat}
    (he : ∀ v ∈ ends, Answered g v) (he' : w.top ≠ [] → ∀ v ∈ ends, firstAns g v ≠ none) (f : NodeFn)
    (hf : f.Configured w) : ∃ y, f.run g ends = .ok y := by
  cases f with
  | consistency ts =>
    cases ends with
    | nil => exact ⟨[], rfl⟩
    | cons v0 rest => obtain ⟨y, hy, _⟩ := C48_response_consistency g ts v0 rest he; exact ⟨y, hy⟩
  | returned ts => exact ⟨_, C46_response_returned g ts ends he⟩
  | value ts vs =>
    obtain ⟨_, _, hy⟩ := C47_response_value g ts vs hf.1 ends (he' hf.2) (fun v _ r hr => h.supported_records hw hr)
    exact ⟨_, hy⟩
  | zeroTTL ts =>
    cases ends with
    | nil => exact ⟨[], rfl⟩
    | cons v0 rest => exact ⟨_, C49_zero_ttl g ts v0 rest he (fun v _ r hr => h.supported_records hw hr)⟩

theorem getLast_mem_tail {v l : Nat} {r : List Nat} (h : (v :: r).getLast? = some l) (hr : r ≠ []) : l ∈ r := by
  rw [List.getLast?_cons] at h
  cases hl : r.getLast? with
  | none => rw [List.getLast?_eq_none_iff] at hl; exact absurd hl hr
  | some x => rw [hl] at h; simp at h; subst h; exact List.mem_of_getLast? hl

theorem ends_ok {w : World} {a0 : Ask} {g : IG} (h : BInv w a0 g []) (hw : WellFormed w) (hg : Sane g) {s : IG.Enum}
    (h2 : ∀ p, p ∈ s.paths ↔ MaximalPath g 0 p ∨ CnamePath g 0 p)
    (h4 : ∀ v, v ∈ s.ends ↔ ∃ p ∈ s.paths, p.getLast? = some v) :
    (∀ v ∈ s.ends, Answered g v) ∧ (w.top ≠ [] → ∀ v ∈ s.ends, firstAns g v ≠ none) := by
  have hpath : ∀ p ∈ s.paths, ResolutionPath g p := by
    intro p hp
    rcases (h2 p).mp hp with h3 | h3
    · exact h.path hw hg h3.1
    · exact h.path hw hg h3.1
  refine ⟨?_, ?_⟩
  · intro v hv
    obtain ⟨p, hp, hl⟩ := (h4 v).mp hv
    exact (hpath p hp).answered v (List.mem_of_getLast? hl)
  · intro htop v hv
    obtain ⟨p, hp, hl⟩ := (h4 v).mp hv
    obtain ⟨v0, rest, rfl, h5, h6, h7⟩ := hpath p hp
    by_cases hr : rest = []
    · exfalso
      subst hr
      simp at hl; subst hl
      rcases (h2 _).mp hp with ⟨⟨hh, _⟩, _, l, hl, hno⟩ | ⟨_, _, l, hl, hc⟩
      · simp at hh hl
        subst hl; subst hh
        obtain ⟨s', hs'⟩ := List.exists_mem_of_ne_nil _ htop
        obtain ⟨e, he, e1, _⟩ := h.step h.core.root (Step.top a0 s' hs')
        exact hno e.dst ⟨e, he, e1, rfl⟩
      · simp at hl; subst hl
        exact absurd h5 hc.1
    · exact (h7 v (getLast_mem_tail hl hr)).2

/-- **C38** Processing a class — construction, loop detection, path enumeration and every configured check — finishes and
never reads an absent answer, an empty answer vector or an out-of-range element. -/
theorem C38_processing_total (ctx : Context) (w : World) (hr : Represents ctx w) (hw : WellFormed w) (thr : Nat)
    (pf : List PathFn) (nf : List NodeFn) (hpf : ∀ f ∈ pf, f.Configured) (hnf : ∀ f ∈ nf, f.Configured w) (q : EC)
    (hq : Short q.name) (ht : q.types ≠ 0) :
    ∃ N, ∀ fuel, N ≤ fuel → ∃ r, processEC fuel thr ctx pf nf q = .ok r := by
  obtain ⟨N, g, hb, h⟩ := buildIG_ok hr hw thr q hq
  refine ⟨max N (g.verts.length + 1), ?_⟩
  intro fuel hf
  have hg := h.sane hw hq ht
  have hfl : g.verts.length < fuel := by omega
  obtain ⟨r, h1, _⟩ := C36_loop_iff g hg 0 h.core.root.1 fuel hfl
  obtain ⟨s, e, h2, h3, h4⟩ := C37_enumeration g hg 0 h.core.root.1 fuel hfl
  have hpath : ∀ p ∈ s.paths, ResolutionPath g p := by
    intro p hp
    rcases (h2 p).mp hp with h3 | h3
    · exact h.path hw hg h3.1
    · exact h.path hw hg h3.1
  obtain ⟨he1, he2⟩ := ends_ok h hw hg h2 h4
  obtain ⟨a, ha⟩ := concatM_ok (fun p => concatM (PathFn.run g p) pf) s.paths (fun p hp =>
    concatM_ok _ _ (fun f hf => PathFn.run_ok h hw (hpath p hp) f (hpf f hf)))
  obtain ⟨b, hbb⟩ := concatM_ok (NodeFn.run g s.ends) nf (fun f hf => NodeFn.run_ok h hw he1 he2 f (hnf f hf))
  refine ⟨(r.toList ++ (a ++ b), g.verts.length, g.edges.length), ?_⟩
  unfold processEC checkProperties
  rw [hb fuel (by omega)]
  simp only [Res.ok_bind]
  rw [h1]
  simp only [Res.ok_bind]
  rw [e]
  simp only [Res.ok_bind]
  rw [ha]
  simp only [Res.ok_bind]
  rw [hbb]
  rfl

example : (match processEC 60 500 sampleCtx [.hops 1, .rewrites 0, .lame] [.returned (TypeSet.single .A)] aliasQuery with
    | .ok r => r.1 | _ => []) =
    [.hops "a.com.".toList 2 1, .rewrites "a.com.".toList 1 0, .hops "a.com.".toList 2 1, .rewrites "a.com.".toList 1 0] := by
  decide +kernel

/-- **C38** (disagreement) The hypotheses are needed: without top servers the value check reads the absent answer of the
start node. -/
theorem C38_disagreement_no_top_server :
    processEC 60 500 { sampleCtx with top := [] } [] [.value (TypeSet.single .A) []] aliasQuery = .ub := by
  decide +kernel

/-- **C38** (disagreement) A class without requested types (`"Types": []`) gets an empty answer vector, which the loop and
path code reads. -/
theorem C38_disagreement_no_types :
    processEC 60 500 sampleCtx [.dnameLength] [] { name := stringToLabels "com".toList, types := 0 } = .ub := by
  decide +kernel

end Groot
