import Verif.Spec.Inhabited
import Verif.Spec.Program
import Verif.Props.Watched
import Verif.Props.Final
import Verif.Props.Run
import Verif.Props.Delegation

/-!
# C87: every class that is tested has a name in it
-/

namespace Groot

open Spec

variable {ctx : Context} {w : World} {xs : List (RR × Nat × Nat)} {job : Job}

theorem short_of_octets {n : Name} (h : octets n ≤ 253) (hl : ∀ l ∈ n, l.length ≤ 63) : Short n := by
  refine ⟨hl, ?_⟩
  have key : ∀ n : Name, (present n).length = if n = [] then 1 else octets n := by
    intro n
    by_cases hn : n = []
    · subst hn; decide
    · rw [if_neg hn, present_length n hn]; rfl
  rw [key]
  split
  · omega
  · exact h

/-- **C87** Every class a run tests has a member: a name of legal length that the job is about. -/
theorem C87_inhabited (S : Setting ctx w xs job) (hr : Roomy (xs.map (·.1))) (hdom : octets (stringToLabels job.domain) < 253) {thr thr' fuel : Nat}
    {g' : LGraph} {ts : List Task} {vs : List Violation}
    (hrun : Driver.runSequential fuel thr ctx (labelGraph thr' xs) job = .ok (g', ts, vs)) {q : EC} (hq : q ∈ classes ts) :
    ∃ m, Stands (xs.map (·.1)) q m ∧ InScope job m ∧ Short m := by
  have hgen := S.generated hrun
  by_cases hc : job.subdomains = false ∨ ¬ Known (xs.map (·.1)) (stringToLabels job.domain)
  · obtain ⟨q', e, -, hst, -⟩ := C29_contains thr' xs S.noDname (Driver.req job) S.domain hc fuel g' ts hgen
    subst e
    have : q = q' := by
      have := (mem_classes _ _).mp hq
      simpa using this
    subst this
    refine ⟨_, hst, ?_, S.domain⟩
    unfold InScope
    split
    · exact ⟨⟨[], (List.append_nil _).symm⟩, hdom⟩
    · rfl
  · push Not at hc
    obtain ⟨hsub, hk⟩ := hc
    have hsub : job.subdomains = true := by simpa using hsub
    obtain ⟨N, ts', h1, h2⟩ := C24_classes_no_dname thr' xs S.regular S.noDname (Driver.req job) S.domain hsub hk
    have := mono_agree (f := fun n => LGraph.generateECs n (labelGraph thr' xs) (Driver.req job)) (fun n r => generateECs_mono n _ _ r)
      (h1 N (Nat.le_refl _)) hgen
    simp at this
    obtain ⟨-, rfl⟩ := this
    obtain ⟨n, hn, hkn, hlen, rfl | rfl⟩ := (h2 q).mp hq
    · refine ⟨n, rfl, ?_, short_of_octets (by omega) (fun l hl => (S.labels n hkn l hl).2)⟩
      unfold InScope
      rw [if_pos hsub]
      exact ⟨hn, hlen⟩
    · obtain ⟨c, hfree⟩ := hr.free
      have hoct : octets n ≤ 250 := by
        rcases hkn with rfl | ⟨r, hr', -, hp | ⟨hd, -⟩⟩
        · decide
        · exact Nat.le_trans (octets_prefix hp) (hr.room r hr')
        · obtain ⟨x, hx, rfl⟩ := List.mem_map.mp hr'
          exact absurd hd (S.noDname x hx)
      have hunk : ¬ Known (xs.map (·.1)) (n ++ [[c]]) := by
        rintro (e | ⟨r, hr', -, ⟨rest, e⟩ | ⟨hd, -⟩⟩)
        · exact absurd e (by simp)
        · exact hfree r hr' (by rw [e]; simp)
        · obtain ⟨x, hx, rfl⟩ := List.mem_map.mp hr'
          exact absurd hd (S.noDname x hx)
      have ho : octets (n ++ [[c]]) = octets n + 2 := octets_snoc n [c]
      refine ⟨n ++ [[c]], ?_, ?_, short_of_octets (by omega) ?_⟩
      · have e : (belowClass (Known (xs.map (·.1)) (n ++ [['*']])) n (Driver.req job).types).excluded = some [] := by
          unfold belowClass; split <;> rfl
        unfold Stands
        rw [e]
        exact ⟨[c], [], by rw [belowClass_name], by rw [belowClass_name]; exact hunk⟩
      · unfold InScope
        rw [if_pos hsub]
        obtain ⟨rest, e⟩ := hn
        exact ⟨⟨rest ++ [[c]], by rw [e, List.append_assoc]; rfl⟩, by omega⟩
      · intro l hl
        rcases List.mem_append.mp hl with hl | hl
        · exact (S.labels n hkn l hl).2
        · rw [List.mem_singleton.mp hl]; exact (by simp)

/-- **C87** Every report of a run (the structural check apart) is true of some name of legal length that the job is about. -/
theorem C87_true (S : Setting ctx w xs job) (hr : Roomy (xs.map (·.1))) (hdom : octets (stringToLabels job.domain) < 253) {thr thr' fuel : Nat}
    {g' : LGraph} {ts : List Task} {vs : List Violation}
    (hrun : Driver.runSequential fuel thr ctx (labelGraph thr' xs) job = .ok (g', ts, vs)) {v : Violation} (hv : v ∈ vs) :
    (job.structural = true ∧ ∃ d ps, v = .structural d ps) ∨ ∃ m, InScope job m ∧ Short m ∧ Warranted w (xs.map (·.1)) job m v := by
  by_cases hns : ∃ d ps, v = .structural d ps
  · refine .inl ⟨?_, hns⟩
    by_contra hst
    have R : RunSetting ctx w xs job := ⟨S.represents, S.wellFormed, S.regular, fun n hn l hl => (S.labels n hn l hl).2, other_ne S.types, S.pathFns, S.nodeFns,
      fun h => absurd h hst⟩
    rcases C79_sound R hrun hv with ⟨_, _, _, h⟩ | ⟨q, hq, said, rs, h1, h2, -⟩
    · exact hst h
    · obtain ⟨d, ps, rfl⟩ := hns
      exact h1.kinds _ h2
  right
  have inh : ∀ {q : EC} {v : Violation}, q ∈ classes ts → (∀ m, Stands (xs.map (·.1)) q m → Short m → Warranted w (xs.map (·.1)) job m v) →
      ∃ m, InScope job m ∧ Short m ∧ Warranted w (xs.map (·.1)) job m v := by
    intro q v hq h
    obtain ⟨m, h1, h2, h3⟩ := C87_inhabited S hr hdom hrun hq
    exact ⟨m, h2, h3, h m h1 h3⟩
  have path : ∀ {v : Violation}, v ∈ vs → AboutPath v → ∃ f ∈ job.pathFns, ∃ q ∈ classes ts, ∃ said p, (∀ x ∈ p, Says w x.1 x.2.1 (said x.1 x.2.1)) ∧
      Reports (ask q) (transcript said p) v f ∧ ∀ m, Stands (xs.map (·.1)) q m → Short m → ∃ p', Route w [] ⟨m, job.types, false⟩ p' ∧ Mirrors w p' p := by
    intro v hv hab
    obtain ⟨q, hq, cs, g, l, st, hP, hB, hv⟩ := S.source hrun hv (by rintro _ _ rfl; exact hab)
    obtain ⟨f, hf, p, hp, hrep⟩ := (hP.pathOutcome S.wellFormed S.pathFns).sound _ hv hab
    have hA := answering_saidBy hP.inv
    have hroute : Route w [] (ask q) p := hp.elim (·.route) (·.route)
    exact ⟨f, hf, q, hq, saidBy g, p, fun x hx => hA _ _ (reached_route .start hroute x hx) (route_server S.wellFormed hroute x hx), hrep,
      fun m hm hs => (hB m hm hs).route p hroute⟩
  cases v with
  | loop ns =>
    obtain ⟨q, hq, h⟩ := C67_loops_sound S hrun hv
    exact inh hq (fun m hm hs => .loop ns (h m hm hs))
  | responseReturned n t sv =>
    obtain ⟨tys, h1, q, hq, h⟩ := C81_missing_sound S hrun hv
    refine inh hq (fun m hm hs => ?_)
    obtain ⟨x, h2, h3, rfl, a, h4, h5, h6, rfl⟩ := h m hm hs
    exact .missing n tys x a h1 h2 h3 h4 h5 h6
  | responseValue e l =>
    obtain ⟨tys, values, h1, rfl, q, hq, h⟩ := C81_value_sound S hrun hv
    exact inh hq (fun m hm hs => .value tys values l h1 (h m hm hs).1 (h m hm hs).2)
  | responseConsistency n =>
    obtain ⟨tys, h1, q, hq, h⟩ := C81_consistency_sound S hrun hv
    refine inh hq (fun m hm hs => ?_)
    obtain ⟨x, y, h2, h3, h4, h5, h6⟩ := h m hm hs
    exact .consistency n tys x y h1 h2 h3 h4 h5 h6
  | zeroTTL n sv rec =>
    obtain ⟨tys, h1, q, hq, h⟩ := C81_zero_ttl_sound S hrun hv
    refine inh hq (fun m hm hs => ?_)
    obtain ⟨x, h2, h3, rfl, r, h4, h5, rfl⟩ := h m hm hs
    exact .zeroTTL n tys x r h1 h2 h3 h4 h5
  | «alias» al cn =>
    obtain ⟨cs, n, h1, h2, rfl, q, hq, h⟩ := C83_alias_sound S hrun hv
    exact inh hq (fun m hm hs => .alias_ q al cs n h1 h2 hm (h m hm hs))
  | infiniteDname a b used =>
    obtain ⟨f, hf, q, hq, said, p, hsay, hrep, h⟩ := path hv trivial
    cases f with
    | infiniteDname =>
      refine inh hq (fun m hm hs => ?_)
      obtain ⟨p', h3, h4⟩ := h m hm hs
      exact .infinite a b used p' hf h3 (recurs_of_reports hsay hrep h4)
    | _ => exact (reports_about hrep).elim
  | delegation n s t b =>
    obtain ⟨h1, q, hq, rfl, h2, ⟨id, id', h3, h4, h5⟩, h⟩ := C82_delegation_sound S hrun hv
    refine inh hq (fun m hm hs => ?_)
    obtain ⟨a, h6, h7⟩ := h m hm hs
    exact .delegation q s t b id id' a h1 hm h7 h6 h2 h3 h4 h5
  | lame n s t =>
    obtain ⟨h1, q, hq, rfl, h⟩ := C82_lame_sound S hrun hv
    refine inh hq (fun m hm hs => ?_)
    obtain ⟨a, h2, h3, h4⟩ := h m hm hs
    exact .lame q s t a h1 hm h2 h3 h4
  | dnameLength a b sv =>
    obtain ⟨f, hf, q, hq, said, p, hsay, hrep, h⟩ := path hv trivial
    cases f with
    | dnameLength =>
      obtain ⟨pre, y, h1, h2, e⟩ := hrep
      injection e with _ _ e
      subst e
      refine inh hq (fun m hm hs => ?_)
      obtain ⟨p', h3, h4⟩ := h m hm hs
      unfold transcript at h1
      obtain ⟨p1, p2, rfl, h5, h6⟩ := List.map_eq_append_iff.mp h1
      obtain ⟨z, p3, rfl, h7, h8⟩ := List.map_eq_cons_iff.mp h6
      rw [List.map_eq_nil_iff.mp h8] at h4
      obtain ⟨p4, p5, rfl, h9, h10⟩ := forall₂_split h4
      cases h10 with
      | @cons z' _ _ _ hz h11 =>
      cases h11
      have hk : Kind w z.1 z.2.1 .YX := by
        have hs := hsay z (by rw [List.map_eq_nil_iff.mp h8]; simp)
        rw [← h7] at h2
        unfold Visit.Tells at h2
        dsimp only at h2
        cases hsaid : said z.1 z.2.1 with
        | nil => rw [hsaid] at h2; cases h2
        | cons x as =>
          rw [hsaid] at h2 hs
          exact ⟨x, as, hs, by simpa using h2⟩
      have e : y.server = z'.1 := by rw [← h7, hz.1]
      rw [e]
      exact .tooLong a b p4 z' hf h3 ((hz.2.1 _).mpr hk)
    | _ => exact (reports_about hrep).elim
  | nsContact a sv al =>
    obtain ⟨d, h1, rfl, q, hq, h⟩ := C68_contact_sound S hrun hv
    refine inh hq (fun m hm hs => ?_)
    obtain ⟨p, h2, h3⟩ := h m hm hs
    exact .contact a sv d p h1 h2 h3
  | hops nm k n =>
    obtain ⟨h1, -, h2, q, hq, rfl, h⟩ := C66_hops_sound S hrun hv
    refine inh hq (fun m hm hs => ?_)
    obtain ⟨p, h3, rfl⟩ := h m hm hs
    exact .hops q p n h1 hm h3 h2
  | rewrites nm k n =>
    obtain ⟨h1, h2, q, hq, rfl, h⟩ := C66_rewrites_sound S hrun hv
    refine inh hq (fun m hm hs => ?_)
    obtain ⟨p, h3, rfl⟩ := h m hm hs
    exact .rewrites q p n h1 hm h3 h2
  | queryRewrite a b sv al =>
    obtain ⟨d, h1, rfl, q, hq, h⟩ := C68_rewrite_sound S hrun hv
    refine inh hq (fun m hm hs => ?_)
    obtain ⟨p, h2, h3⟩ := h m hm hs
    exact .queryRewrite a b sv d p h1 h2 h3
  | blackhole a b sv =>
    obtain ⟨h1, q, hq, h⟩ := C68_blackhole_sound S hrun hv
    refine inh hq (fun m hm hs => ?_)
    obtain ⟨p, h2, h3⟩ := h m hm hs
    exact .blackhole a b sv p h1 h2 h3
  | structural d ps => exact absurd ⟨d, ps, rfl⟩ hns
  | allAliases groups =>
    exfalso
    obtain ⟨q, hq, cs, g, l, st, hP, -, hv⟩ := S.source hrun hv (fun _ _ e => nomatch e)
    exact hP.kinds _ hv

/-! ### Runs -/

private def rr (n : Name) (t : RRType) (d : String) : RR := { name := n, type := t, cls := 1, ttl := 300, rdata := d.toList }

/-- The sample world of C82 has room. -/
example : Roomy ((recordsOf cutWorld).map (·.1)) ∧ octets (stringToLabels cutJob.domain) < 253 :=
  ⟨⟨⟨'q', by decide +kernel⟩, by decide +kernel⟩, by decide +kernel⟩

/-- A name of 252 bytes. -/
def owner252 : Name := [List.replicate 63 'a', List.replicate 63 'b', List.replicate 63 'c', List.replicate 59 'd']

def longWorld : World where
  zones := [(1, [rr (owner252.take 1) .SOA "x", rr owner252 .A "1.1.1.1"])]
  nsZones := [("s.".toList, [1])]
  top := ["s.".toList]

def longJob : Job where
  domain := present owner252
  subdomains := true
  types := TypeSet.single .A
  pathFns := [.hops 0]

/-- **C87** (disagreement) Nothing should be reported about names that cannot exist.  The names below a name of 252 bytes are tested and reported
on, although each of them is longer than a name can be. -/
theorem C87_disagreement_overlong : octets owner252 = 252 ∧ (∀ l rest, l ≠ [] → ¬ Short (owner252 ++ l :: rest)) ∧
    ∃ g ts vs, Driver.runSequential 300 500 (contextOf longWorld) (labelGraph 500 (recordsOf longWorld)) longJob = .ok (g, ts, vs) ∧
      (∀ v ∈ [Violation.hops (showQuery { name := owner252, types := 0, excluded := some [] }) 1 0], v ∈ vs) ∧ ∀ v ∈ ([] : List Violation), v ∉ vs := by
  refine ⟨by decide +kernel, ?_, run_of_check (by decide +kernel)⟩
  intro l rest hl hs
  have h1 := present_sum (owner252 ++ l :: rest)
  have h2 := hs.2
  have h3 : ((owner252 ++ l :: rest).map (fun l => l.length + 1)).sum = 252 + (l.length + 1 + (rest.map (fun l => l.length + 1)).sum) := by
    rw [List.map_append, List.sum_append, List.map_cons, List.sum_cons]
    congr 1
  have h4 : 0 < l.length := List.length_pos_iff.mpr hl
  omega

end Groot
