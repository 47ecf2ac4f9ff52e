import Verif.Lemmas.Total

/-!
# Verdicts: what a whole run reports, for the names the user asked about

`Setting ctx w xs job`: zones `w` (without DNAME) loaded as `ctx`, all their records `xs` in the label graph, and a configured job.
`InScope job m`: the job is about the name `m`.  `Complete w a p`: the trail `p` is a resolution of the question `a` to its end.
-/

namespace Groot
open Spec

/-! ### C66 -/

/-- **C66** If some name the job is about needs more hops than allowed, the run reports it, for the class the name stands in. -/
theorem C66_hops_complete {ctx : Context} {w : World} {xs : List (RR × Nat × Nat)} {job : Job} (S : Setting ctx w xs job)
    {thr thr' fuel : Nat} {g' : LGraph} {ts : List Task} {vs : List Violation}
    (hrun : Driver.runSequential fuel thr ctx (labelGraph thr' xs) job = .ok (g', ts, vs))
    {n : Int} (hf : PathFn.hops n ∈ job.pathFns) (h0 : 0 ≤ n) {m : Name} (hm : InScope job m) (hs : Short m)
    {p : Trail} (hp : Complete w ⟨m, job.types, false⟩ p) (hn : n < hopsOf p) :
    ∃ q ∈ classes ts, Stands (xs.map (·.1)) q m ∧ .hops (showQuery q) (hopsOf p) n ∈ vs := by
  obtain ⟨q, hq, hst⟩ := S.covered hrun m hm
  obtain ⟨hqt, cs, g, l, s, hP, hsub, hB⟩ := S.class_run hrun q hq
  obtain ⟨p2, hc2, hmir⟩ := (hB m hst hs).complete p hp
  rw [hmir.hops] at hn ⊢
  exact ⟨q, hq, hst, hsub _ (hP.hops S.wellFormed hf hc2 h0 hn)⟩

/-- **C66** A report of too many hops is true of every name the reported class stands for. -/
theorem C66_hops_sound {ctx : Context} {w : World} {xs : List (RR × Nat × Nat)} {job : Job} (S : Setting ctx w xs job)
    {thr thr' fuel : Nat} {g' : LGraph} {ts : List Task} {vs : List Violation}
    (hrun : Driver.runSequential fuel thr ctx (labelGraph thr' xs) job = .ok (g', ts, vs))
    {nm : Str} {k : Nat} {n : Int} (hv : .hops nm k n ∈ vs) :
    PathFn.hops n ∈ job.pathFns ∧ 0 ≤ n ∧ n < k ∧ ∃ q ∈ classes ts, nm = showQuery q ∧
      ∀ m, Stands (xs.map (·.1)) q m → Short m → ∃ p, Route w [] ⟨m, job.types, false⟩ p ∧ hopsOf p = k := by
  obtain ⟨q, hq, cs, g, l, s, hP, hB, hv⟩ := S.source hrun hv (fun _ _ e => nomatch e)
  obtain ⟨h1, h2, h3, h4, p2, h5, h6⟩ := hP.hops_sound S.wellFormed hv
  refine ⟨h1, h3, h4, q, hq, h2, fun m hm hs => ?_⟩
  obtain ⟨p, h7, h8⟩ := (hB m hm hs).route p2 h5
  exact ⟨p, h7, h8.hops.trans h6⟩

/-- **C66** If some name the job is about is rewritten more often than allowed, the run reports it, for the class the name stands in. -/
theorem C66_rewrites_complete {ctx : Context} {w : World} {xs : List (RR × Nat × Nat)} {job : Job} (S : Setting ctx w xs job)
    {thr thr' fuel : Nat} {g' : LGraph} {ts : List Task} {vs : List Violation}
    (hrun : Driver.runSequential fuel thr ctx (labelGraph thr' xs) job = .ok (g', ts, vs))
    {n : Int} (hf : PathFn.rewrites n ∈ job.pathFns) {m : Name} (hm : InScope job m) (hs : Short m)
    {p : Trail} (hp : Complete w ⟨m, job.types, false⟩ p) (hn : n < rewritesOf w p) :
    ∃ q ∈ classes ts, Stands (xs.map (·.1)) q m ∧ .rewrites (showQuery q) (rewritesOf w p) n ∈ vs := by
  obtain ⟨q, hq, hst⟩ := S.covered hrun m hm
  obtain ⟨hqt, cs, g, l, s, hP, hsub, hB⟩ := S.class_run hrun q hq
  obtain ⟨p2, hc2, hmir⟩ := (hB m hst hs).complete p hp
  rw [hmir.rewrites] at hn ⊢
  exact ⟨q, hq, hst, hsub _ (hP.rewrites S.wellFormed hf hc2 hn)⟩

/-- **C66** A report of too many rewrites is true of every name the reported class stands for. -/
theorem C66_rewrites_sound {ctx : Context} {w : World} {xs : List (RR × Nat × Nat)} {job : Job} (S : Setting ctx w xs job)
    {thr thr' fuel : Nat} {g' : LGraph} {ts : List Task} {vs : List Violation}
    (hrun : Driver.runSequential fuel thr ctx (labelGraph thr' xs) job = .ok (g', ts, vs))
    {nm : Str} {k : Nat} {n : Int} (hv : .rewrites nm k n ∈ vs) :
    PathFn.rewrites n ∈ job.pathFns ∧ n < k ∧ ∃ q ∈ classes ts, nm = showQuery q ∧
      ∀ m, Stands (xs.map (·.1)) q m → Short m → ∃ p, Route w [] ⟨m, job.types, false⟩ p ∧ rewritesOf w p = k := by
  obtain ⟨q, hq, cs, g, l, s, hP, hB, hv⟩ := S.source hrun hv (fun _ _ e => nomatch e)
  obtain ⟨h1, h2, h4, p2, h5, h6⟩ := hP.rewrites_sound S.wellFormed hv
  refine ⟨h1, h4, q, hq, h2, fun m hm hs => ?_⟩
  obtain ⟨p, h7, h8⟩ := (hB m hm hs).route p2 h5
  exact ⟨p, h7, h8.rewrites.trans h6⟩

/-! ### C67 -/

/-- **C67** If resolving some name the job is about can go in circles, the run reports a loop. -/
theorem C67_loops_complete {ctx : Context} {w : World} {xs : List (RR × Nat × Nat)} {job : Job} (S : Setting ctx w xs job)
    {thr thr' fuel : Nat} {g' : LGraph} {ts : List Task} {vs : List Violation}
    (hrun : Driver.runSequential fuel thr ctx (labelGraph thr' xs) job = .ok (g', ts, vs))
    {m : Name} (hm : InScope job m) (hs : Short m) (hc : Circular w ⟨m, job.types, false⟩) : ∃ ns, .loop ns ∈ vs := by
  obtain ⟨q, hq, hst⟩ := S.covered hrun m hm
  obtain ⟨hqt, cs, g, l, s, hP, hsub, hB⟩ := S.class_run hrun q hq
  obtain ⟨ns, h⟩ := hP.loop_iff.mpr ((hB m hst hs).circular.mp hc)
  exact ⟨ns, hsub _ h⟩

/-- **C67** If the run reports a loop, resolving any name of some class of the job can go in circles. -/
theorem C67_loops_sound {ctx : Context} {w : World} {xs : List (RR × Nat × Nat)} {job : Job} (S : Setting ctx w xs job)
    {thr thr' fuel : Nat} {g' : LGraph} {ts : List Task} {vs : List Violation}
    (hrun : Driver.runSequential fuel thr ctx (labelGraph thr' xs) job = .ok (g', ts, vs))
    {ns : List LoopNode} (hv : .loop ns ∈ vs) :
    ∃ q ∈ classes ts, ∀ m, Stands (xs.map (·.1)) q m → Short m → Circular w ⟨m, job.types, false⟩ := by
  obtain ⟨q, hq, cs, g, l, s, hP, hB, hv⟩ := S.source hrun hv (fun _ _ e => nomatch e)
  exact ⟨q, hq, fun m hm hs => (hB m hm hs).circular.mpr (hP.loop_iff.mp ⟨ns, hv⟩)⟩

/-! ### C68 -/

/-- **C68** If some name the job is about is rewritten and then denied, the run reports it, with the server that denies. -/
theorem C68_blackhole_complete {ctx : Context} {w : World} {xs : List (RR × Nat × Nat)} {job : Job} (S : Setting ctx w xs job)
    {thr thr' fuel : Nat} {g' : LGraph} {ts : List Task} {vs : List Violation}
    (hrun : Driver.runSequential fuel thr ctx (labelGraph thr' xs) job = .ok (g', ts, vs))
    (hf : PathFn.blackholing ∈ job.pathFns) {m : Name} (hm : InScope job m) (hs : Short m)
    {p : Trail} (hp : Complete w ⟨m, job.types, false⟩ p) {sv : Str} (hb : Blackholed w p sv) : ∃ a b, .blackhole a b sv ∈ vs := by
  obtain ⟨q, hq, hst⟩ := S.covered hrun m hm
  obtain ⟨hqt, cs, g, l, s, hP, hsub, hB⟩ := S.class_run hrun q hq
  obtain ⟨p2, hc2, hmir⟩ := (hB m hst hs).complete p hp
  obtain ⟨a, b, h⟩ := hP.blackhole S.wellFormed hf hc2 ((hmir.blackholed sv).mp hb)
  exact ⟨a, b, hsub _ h⟩

/-- **C68** A report of rewrite blackholing is true of every name of some class of the job. -/
theorem C68_blackhole_sound {ctx : Context} {w : World} {xs : List (RR × Nat × Nat)} {job : Job} (S : Setting ctx w xs job)
    {thr thr' fuel : Nat} {g' : LGraph} {ts : List Task} {vs : List Violation}
    (hrun : Driver.runSequential fuel thr ctx (labelGraph thr' xs) job = .ok (g', ts, vs))
    {a b sv : Str} (hv : .blackhole a b sv ∈ vs) :
    PathFn.blackholing ∈ job.pathFns ∧ ∃ q ∈ classes ts,
      ∀ m, Stands (xs.map (·.1)) q m → Short m → ∃ p, Route w [] ⟨m, job.types, false⟩ p ∧ Blackholed w p sv := by
  obtain ⟨q, hq, cs, g, l, s, hP, hB, hv⟩ := S.source hrun hv (fun _ _ e => nomatch e)
  obtain ⟨h1, p2, h5, h6⟩ := hP.blackhole_sound S.wellFormed hv
  refine ⟨h1, q, hq, fun m hm hs => ?_⟩
  obtain ⟨p, h7, h8⟩ := (hB m hm hs).route p2 h5
  exact ⟨p, h7, (h8.blackholed sv).mpr h6⟩

/-- **C68** If some name the job is about is rewritten to a name outside the allowed domains, the run reports the server that did it. -/
theorem C68_rewrite_complete {ctx : Context} {w : World} {xs : List (RR × Nat × Nat)} {job : Job} (S : Setting ctx w xs job)
    {thr thr' fuel : Nat} {g' : LGraph} {ts : List Task} {vs : List Violation}
    (hrun : Driver.runSequential fuel thr ctx (labelGraph thr' xs) job = .ok (g', ts, vs))
    {d : List Name} (hf : PathFn.queryRewrite d ∈ job.pathFns) {m : Name} (hm : InScope job m) (hs : Short m)
    {p : Trail} (hp : Complete w ⟨m, job.types, false⟩ p) {sv : Str} (hb : RewrittenAway w d p sv) :
    ∃ a b, .queryRewrite a b sv (printList d) ∈ vs := by
  obtain ⟨q, hq, hst⟩ := S.covered hrun m hm
  obtain ⟨hqt, cs, g, l, s, hP, hsub, hB⟩ := S.class_run hrun q hq
  obtain ⟨p2, hc2, hmir⟩ := (hB m hst hs).complete p hp
  obtain ⟨a, b, h⟩ := hP.away S.wellFormed (S.pathFns _ hf) hf hc2 ((hmir.away S.wellFormed S.noDnameW hc2.route d sv).mp hb)
  exact ⟨a, b, hsub _ h⟩

/-- **C68** A report of a rewrite out of the allowed domains is true of every name of some class of the job. -/
theorem C68_rewrite_sound {ctx : Context} {w : World} {xs : List (RR × Nat × Nat)} {job : Job} (S : Setting ctx w xs job)
    {thr thr' fuel : Nat} {g' : LGraph} {ts : List Task} {vs : List Violation}
    (hrun : Driver.runSequential fuel thr ctx (labelGraph thr' xs) job = .ok (g', ts, vs))
    {a b sv al : Str} (hv : .queryRewrite a b sv al ∈ vs) :
    ∃ d, PathFn.queryRewrite d ∈ job.pathFns ∧ al = printList d ∧ ∃ q ∈ classes ts,
      ∀ m, Stands (xs.map (·.1)) q m → Short m → ∃ p, Route w [] ⟨m, job.types, false⟩ p ∧ RewrittenAway w d p sv := by
  obtain ⟨q, hq, cs, g, l, s, hP, hB, hv⟩ := S.source hrun hv (fun _ _ e => nomatch e)
  obtain ⟨d, h1, h2, p2, h5, h6⟩ := hP.away_sound S.wellFormed S.pathFns hv
  refine ⟨d, h1, h2, q, hq, fun m hm hs => ?_⟩
  obtain ⟨p, h7, h8⟩ := (hB m hm hs).route p2 h5
  exact ⟨p, h7, (h8.away S.wellFormed S.noDnameW h5 d sv).mpr h6⟩

/-- **C68** If resolving some name the job is about contacts a server outside the allowed domains, the run reports that server. -/
theorem C68_contact_complete {ctx : Context} {w : World} {xs : List (RR × Nat × Nat)} {job : Job} (S : Setting ctx w xs job)
    {thr thr' fuel : Nat} {g' : LGraph} {ts : List Task} {vs : List Violation}
    (hrun : Driver.runSequential fuel thr ctx (labelGraph thr' xs) job = .ok (g', ts, vs))
    {d : List Name} (hf : PathFn.nsContact d ∈ job.pathFns) {m : Name} (hm : InScope job m) (hs : Short m)
    {p : Trail} (hp : Complete w ⟨m, job.types, false⟩ p) {sv : Str} (hb : ContactedAway d p sv) :
    ∃ a, .nsContact a sv (printList d) ∈ vs := by
  obtain ⟨q, hq, hst⟩ := S.covered hrun m hm
  obtain ⟨hqt, cs, g, l, s, hP, hsub, hB⟩ := S.class_run hrun q hq
  obtain ⟨p2, hc2, hmir⟩ := (hB m hst hs).complete p hp
  obtain ⟨a, h⟩ := hP.contact S.wellFormed (S.pathFns _ hf) hf hc2 ((hmir.contact d sv).mp hb)
  exact ⟨a, hsub _ h⟩

/-- **C68** A report of a server outside the allowed domains is true of every name of some class of the job. -/
theorem C68_contact_sound {ctx : Context} {w : World} {xs : List (RR × Nat × Nat)} {job : Job} (S : Setting ctx w xs job)
    {thr thr' fuel : Nat} {g' : LGraph} {ts : List Task} {vs : List Violation}
    (hrun : Driver.runSequential fuel thr ctx (labelGraph thr' xs) job = .ok (g', ts, vs))
    {a sv al : Str} (hv : .nsContact a sv al ∈ vs) :
    ∃ d, PathFn.nsContact d ∈ job.pathFns ∧ al = printList d ∧ ∃ q ∈ classes ts,
      ∀ m, Stands (xs.map (·.1)) q m → Short m → ∃ p, Route w [] ⟨m, job.types, false⟩ p ∧ ContactedAway d p sv := by
  obtain ⟨q, hq, cs, g, l, s, hP, hB, hv⟩ := S.source hrun hv (fun _ _ e => nomatch e)
  obtain ⟨d, h1, h2, p2, h5, h6⟩ := hP.contact_sound S.pathFns hv
  refine ⟨d, h1, h2, q, hq, fun m hm hs => ?_⟩
  obtain ⟨p, h7, h8⟩ := (hB m hm hs).route p2 h5
  exact ⟨p, h7, (h8.contact d sv).mpr h6⟩

/-! ### C69 -/

/-- **C69** A run ends, and never in an abort, for every job that asks for some type, on every set of zones (DNAMEs included). -/
theorem C69_total {ctx : Context} {w : World} {xs : List (RR × Nat × Nat)} {job : Job} (hr : Represents ctx w) (hw : WellFormed w)
    (hreg : Regular (xs.map (·.1))) (hlab : ∀ n, Known (xs.map (·.1)) n → ∀ l ∈ n, l.length ≤ 63)
    (ht : job.types ≠ 0) (hpf : ∀ f ∈ job.pathFns, f.Configured) (hnf : ∀ f ∈ job.nodeFns, f.Configured w)
    (hst : job.structural = true → Registered ctx w xs ∧ ∀ n, InZones w n (zonesWith xs n)) (thr thr' : Nat) :
    ∃ N, ∀ fuel, N ≤ fuel → ∃ r, Driver.runSequential fuel thr ctx (labelGraph thr' xs) job = .ok r :=
  run_total hr hw hreg hlab ht hpf hnf hst thr thr'

/-- What loading guarantees, when every file becomes a zone and all types are supported. -/
theorem facts_of {thr : Nat} {lint : Bool} {read : Str → Str} {exists_ : Str → Bool} {m : Driver.Meta} {d : Loaded}
    (h : setContext thr lint read exists_ m = .ok d) (htop : ∀ s ∈ m.topNameServers.getD [], s ≠ [])
    (hall : d.ctx.zones.length = d.ctx.counter) {w : World} {xs : List (RR × Nat × Nat)} (h1 : Represents d.ctx w)
    (h2 : w.top = (m.topNameServers.getD []).map toLower) (h3 : d.lg = labelGraph thr xs) (h4 : Coherent d w xs) (hs : ∀ id, Supported (w.log id)) :
    Represents d.ctx w ∧ d.lg = labelGraph thr xs ∧ Coherent d w xs ∧ WellFormed w ∧ w.top ≠ [] ∧ Registered d.ctx w xs ∧
      ∀ n, Known (xs.map (·.1)) n → ∀ l ∈ n, l.length ≤ 63 := by
  have hreg := C64_registered d w xs h1 h4 hall
  refine ⟨h1, h3, h4, C64_wellFormed d w xs h4 hs ?_, ?_, hreg, ?_⟩
  · rw [h2]
    intro s hs
    obtain ⟨t, ht, rfl⟩ := List.mem_map.mp hs
    have := htop t ht
    unfold toLower
    rwa [Ne, List.map_eq_nil_iff]
  · unfold setContext at h
    obtain ⟨u, hu, _⟩ := bind_ok_iff.mp h
    obtain ⟨tops, zs, hg⟩ := (C58_sanity exists_ m).1.mp hu
    obtain ⟨t, ht, _⟩ := hg.hosted
    rw [h2, hg.top]
    intro e
    have := List.map_eq_nil_iff.mp e
    simp only [Option.getD_some] at this
    rw [this] at ht; cases ht
  · rintro n (rfl | ⟨r, hr, _, hn⟩) l hl
    · cases hl
    · obtain ⟨x, hx, rfl⟩ := List.mem_map.mp hr
      obtain ⟨rs, e1, e2, -⟩ := h4.log (hreg.stored x hx)
      have hfit := h4.fit _ e1 _ (stored_subset rs _ e2)
      rcases hn with ⟨rest, e⟩ | ⟨ht, rest, e⟩
      · exact hfit.owner.1 l (by rw [e]; exact List.mem_append_left _ hl)
      · exact (hfit.target (by unfold Pointing; simp [ht])).1 l (by rw [e]; exact List.mem_append_left _ hl)

/-- What loading guarantees, when every file becomes a zone. -/
theorem loaded_facts {thr : Nat} {lint : Bool} {read : Str → Str} {exists_ : Str → Bool} {m : Driver.Meta} {d : Loaded}
    (h : setContext thr lint read exists_ m = .ok d) (hds : NoDS read m) (htop : ∀ s ∈ m.topNameServers.getD [], s ≠ [])
    (hall : d.ctx.zones.length = d.ctx.counter) :
    ∃ w xs, Represents d.ctx w ∧ d.lg = labelGraph thr xs ∧ Coherent d w xs ∧ WellFormed w ∧ w.top ≠ [] ∧ Registered d.ctx w xs ∧
      ∀ n, Known (xs.map (·.1)) n → ∀ l ∈ n, l.length ≤ 63 := by
  obtain ⟨w, xs, h1, h2, h3, h4, -, -, h7⟩ := C64_loaded thr lint read exists_ m d h
  exact ⟨w, xs, facts_of h htop hall h1 h2 h3 h4 (h7 hds)⟩

/-- A run on loaded files ends without aborting. -/
theorem ends_of {thr : Nat} {d : Loaded} {w : World} {xs : List (RR × Nat × Nat)} (h1 : Represents d.ctx w) (h2 : d.lg = labelGraph thr xs)
    (h3 : Coherent d w xs) (h4 : WellFormed w) (h5 : w.top ≠ []) (h6 : Registered d.ctx w xs)
    (h7 : ∀ n, Known (xs.map (·.1)) n → ∀ l ∈ n, l.length ≤ 63) {prev job : Job} {u : UJob} (hj : Driver.setJob prev u = .ok job) (hnum : Numbered u)
    (ht : job.types ≠ 0)
    (hw : Tidy d.ctx) :
    ∃ N, ∀ fuel, N ≤ fuel → ∃ r, Driver.runSequential fuel thr d.ctx d.lg job = .ok r := by
  have ho : ∀ id, ∀ r ∈ w.log id, ['.'] ∉ r.name := by
    intro id r hr
    obtain ⟨p, hp, -, hr⟩ := held_of_log h1 hr
    exact hw.owners p hp r hr
  have hta : ∀ id, ∀ r ∈ w.log id, r.type = .DNAME → ['.'] ∉ stringToLabels r.rdata ∧ r.name ≠ [] := by
    intro id r hr
    obtain ⟨p, hp, -, hr⟩ := held_of_log h1 hr
    exact hw.targets p hp r hr
  have hone : ∀ id, ∀ r ∈ w.log id, ∀ s ∈ w.log id, r.type = .SOA → s.type = .SOA → r.name = s.name := by
    intro id r hr s hs
    obtain ⟨p, hp, ha, hr⟩ := held_of_log h1 hr
    exact hw.apex p hp r hr s (ha s hs)
  obtain ⟨hp, hn⟩ := configured_of_setJob hj hnum w h5
  rw [h2]
  refine run_total h1 h4 ⟨?_, ?_⟩ h7 ht hp hn (fun _ => ⟨h6, fun n => C64_inZones d w xs h3 h6 n hone⟩) thr thr
  · rintro n (rfl | ⟨r, hr, _, hn⟩) hd
    · cases hd
    · obtain ⟨x, hx, rfl⟩ := List.mem_map.mp hr
      rcases hn with ⟨rest, e⟩ | ⟨ht, rest, e⟩
      · exact ho _ _ (h6.stored x hx) (by rw [e]; exact List.mem_append_left _ hd)
      · exact (hta _ _ (h6.stored x hx) ht).1 (by rw [e]; exact List.mem_append_left _ hd)
  · rintro t ⟨r, hr, hd, e, _⟩
    obtain ⟨x, hx, rfl⟩ := List.mem_map.mp hr
    exact (hta _ _ (h6.stored x hx) hd).2 e

/-- **C69** From the files to the end of the run: once the files are loaded (each one as a zone, with one apex) and the job file is
accepted and has numbers where they are needed, the run ends without aborting. -/
theorem C69_from_files {thr : Nat} {lint : Bool} {read : Str → Str} {exists_ : Str → Bool} {m : Driver.Meta} {d : Loaded}
    (h : setContext thr lint read exists_ m = .ok d) (hds : NoDS read m) (htop : ∀ s ∈ m.topNameServers.getD [], s ≠ [])
    (hall : d.ctx.zones.length = d.ctx.counter) {prev job : Job} {u : UJob} (hj : Driver.setJob prev u = .ok job) (hnum : Numbered u)
    (ht : job.types ≠ 0)
    (hw : Tidy d.ctx) :
    ∃ N, ∀ fuel, N ≤ fuel → ∃ r, Driver.runSequential fuel thr d.ctx d.lg job = .ok r := by
  obtain ⟨w, xs, h1, h2, h3, h4, h5, h6, h7⟩ := loaded_facts h hds htop hall
  exact ends_of h1 h2 h3 h4 h5 h6 h7 hj hnum ht hw

/-! ### C70 -/

/-- **C70** The setting of C66, C67 and C68 is what one gets from files and a job file: each file loaded as a zone, no DNAME and no
label that is a lone dot, a domain of legal length, and some type other than CNAME asked for. -/
theorem C70_setting {thr : Nat} {lint : Bool} {read : Str → Str} {exists_ : Str → Bool} {m : Driver.Meta} {d : Loaded}
    (h : setContext thr lint read exists_ m = .ok d) (hds : NoDS read m) (htop : ∀ s ∈ m.topNameServers.getD [], s ≠ [])
    (hall : d.ctx.zones.length = d.ctx.counter) {prev job : Job} {u : UJob} (hj : Driver.setJob prev u = .ok job)
    (hdom : Short (stringToLabels (toLower u.domain))) (ht : Testable u)
    (hw : ∀ p ∈ d.ctx.zones, ∀ r ∈ heldBy p.2, r.type ≠ .DNAME ∧ ['.'] ∉ r.name) :
    ∃ w xs, d.lg = labelGraph thr xs ∧ Coherent d w xs ∧ Setting d.ctx w xs job := by
  obtain ⟨w, xs, h1, h2, h3, h4, h5, h6, h7⟩ := loaded_facts h hds htop hall
  have hw : ∀ id, ∀ r ∈ w.log id, r.type ≠ .DNAME ∧ ['.'] ∉ r.name := by
    intro id r hr
    obtain ⟨p, hp, -, hr⟩ := held_of_log h1 hr
    exact hw p hp r hr
  obtain ⟨hp, hn⟩ := configured_of_setJob hj ht.numbered w h5
  have hm := (C57_job prev u job).mp hj
  refine ⟨w, xs, h2, h3, h1, h4, ?_, ?_, ?_, ?_, ?_, hp, hn⟩
  · intro id r hr
    obtain ⟨v, hv⟩ := h6.all id r hr
    exact List.mem_map.mpr ⟨_, hv, rfl⟩
  · intro x hx
    exact (hw _ _ (h6.stored x hx)).1
  · intro n hk l hl
    refine ⟨?_, h7 n hk l hl⟩
    rintro rfl
    rcases hk with rfl | ⟨r, hr, _, hn⟩
    · cases hl
    · obtain ⟨x, hx, rfl⟩ := List.mem_map.mp hr
      rcases hn with ⟨rest, e⟩ | ⟨ht, _⟩
      · exact (hw _ _ (h6.stored x hx)).2 (by rw [e]; exact List.mem_append_left _ hl)
      · exact (hw _ _ (h6.stored x hx)).1 ht
  · rw [hm.domain]; exact hdom
  · obtain ⟨p, hp, hor⟩ := ht.types
    rcases hor with e | ⟨l, e, s, hs, t, hnm, hne⟩
    · exact ⟨.NS, by decide, (hm.types _).mpr (.inr ⟨rfl, p, hp, e⟩)⟩
    · exact ⟨t, hne, (hm.types _).mpr (.inl ⟨p, hp, l, e, s, hs, hnm⟩)⟩

/-! ### A sample run -/

private def rr (n : String) (t : RRType) (d : String) : RR := { name := stringToLabels n.toList, type := t, cls := 1, ttl := 300, rdata := d.toList }

/-- `a.com` is rewritten to a name that `ns.sub.com.` denies; `b.com` and `c.com` are rewritten to each other. -/
def verdictWorld : World where
  zones := [(1, [rr "com." .SOA "x", rr "a.com." .CNAME "gone.sub.com.", rr "b.com." .CNAME "c.com.", rr "c.com." .CNAME "b.com.",
      rr "sub.com." .NS "ns.sub.com.", rr "ns.sub.com." .A "1.1.1.1"]),
    (2, [rr "sub.com." .SOA "x", rr "www.sub.com." .A "2.2.2.2"])]
  nsZones := [("s.".toList, [1]), ("ns.sub.com.".toList, [2])]
  top := ["s.".toList]

def verdictCtx : Context where
  nsZones := verdictWorld.nsZones
  top := verdictWorld.top
  zones := verdictWorld.zones.map (fun p => (p.1, Zone.afterAdds 500 p.1 p.2))

def verdictRecords : List (RR × Nat × Nat) := verdictWorld.zones.flatMap (fun p => p.2.map (fun r => (r, p.1, 0)))

def verdictJob : Job where
  domain := "com.".toList
  subdomains := true
  types := TypeSet.single .A
  pathFns := [.hops 1, .rewrites 0, .blackholing, .queryRewrite [["x".toList]], .nsContact [["s".toList]]]

theorem verdict_setting (dom : Str) (sub : Bool) (hd : Short (stringToLabels dom)) :
    Setting verdictCtx verdictWorld verdictRecords { verdictJob with domain := dom, subdomains := sub } := by
  refine ⟨represents_of (thr := 500) rfl rfl rfl, wellFormed_of _ (by decide +kernel) (by decide +kernel) (by decide +kernel), ?_, by decide +kernel, ?_, hd,
    ⟨.A, by decide, by show Member verdictJob.types .A; unfold Member; decide⟩, ?_, (fun f hf => by cases hf)⟩
  · intro id r hr
    unfold World.log at hr
    cases hl : verdictWorld.zones.lookup id with
    | none => rw [hl] at hr; simp [stored] at hr
    | some rs =>
      rw [hl] at hr
      have hr := stored_subset rs r hr
      exact List.mem_map.mpr ⟨(r, id, 0), List.mem_flatMap.mpr ⟨(id, rs), mem_of_lookup hl, List.mem_map.mpr ⟨r, hr, rfl⟩⟩, rfl⟩
  · have key : ∀ r ∈ verdictRecords.map (·.1), r.type ≠ .DNAME ∧ ∀ l ∈ r.name, l ≠ ['.'] ∧ l.length ≤ 63 := by decide +kernel
    rintro n (rfl | ⟨r, hr, _, ⟨rest, e⟩ | ⟨h, _⟩⟩) l hl
    · cases hl
    · exact (key r hr).2 l (by rw [e]; exact List.mem_append_left _ hl)
    · exact absurd h (key r hr).1
  · intro f hf
    simp only [verdictJob, List.mem_cons, List.not_mem_nil, or_false] at hf
    rcases hf with rfl | rfl | rfl | rfl | rfl <;> simp [PathFn.Configured]

/-- The run of the sample job ends, has 14 classes, and reports all five kinds of violations about `a.com`, and a loop. -/
theorem verdict_run : ∃ g ts vs, Driver.runSequential 200 500 verdictCtx (labelGraph 500 verdictRecords) verdictJob = .ok (g, ts, vs) ∧
    (classes ts).length = 14 ∧ .hops "a.com.".toList 2 1 ∈ vs ∧ .rewrites "a.com.".toList 1 0 ∈ vs ∧
    .blackhole "a.com.".toList "gone.sub.com.".toList "ns.sub.com.".toList ∈ vs ∧
    .queryRewrite "a.com.".toList "gone.sub.com.".toList "s.".toList "[x.]".toList ∈ vs ∧
    .nsContact "gone.sub.com.".toList "ns.sub.com.".toList "[s.]".toList ∈ vs ∧ ∃ v ∈ vs, ∃ ns, v = .loop ns := by
  have h : ∀ r : Res (LGraph × List Task × List Violation), (match r with
      | .ok (_, ts, vs) => decide ((classes ts).length = 14 ∧ .hops "a.com.".toList 2 1 ∈ vs ∧ .rewrites "a.com.".toList 1 0 ∈ vs ∧
          .blackhole "a.com.".toList "gone.sub.com.".toList "ns.sub.com.".toList ∈ vs ∧
          .queryRewrite "a.com.".toList "gone.sub.com.".toList "s.".toList "[x.]".toList ∈ vs ∧
          .nsContact "gone.sub.com.".toList "ns.sub.com.".toList "[s.]".toList ∈ vs) && vs.any (fun v => match v with | .loop _ => true | _ => false)
      | _ => false) = true → ∃ g ts vs, r = .ok (g, ts, vs) ∧
        (classes ts).length = 14 ∧ .hops "a.com.".toList 2 1 ∈ vs ∧ .rewrites "a.com.".toList 1 0 ∈ vs ∧
        .blackhole "a.com.".toList "gone.sub.com.".toList "ns.sub.com.".toList ∈ vs ∧
        .queryRewrite "a.com.".toList "gone.sub.com.".toList "s.".toList "[x.]".toList ∈ vs ∧
        .nsContact "gone.sub.com.".toList "ns.sub.com.".toList "[s.]".toList ∈ vs ∧ ∃ v ∈ vs, ∃ ns, v = .loop ns := by
    intro r hr
    cases r with
    | ok x =>
      obtain ⟨g, ts, vs⟩ := x
      dsimp only at hr
      rw [Bool.and_eq_true, decide_eq_true_eq, List.any_eq_true] at hr
      obtain ⟨⟨h1, h2, h3, h4, h5, h6⟩, v, hv, h7⟩ := hr
      refine ⟨g, ts, vs, rfl, h1, h2, h3, h4, h5, h6, v, hv, ?_⟩
      cases v <;> first | exact ⟨_, rfl⟩ | cases h7
    | _ => cases hr
  exact h _ (by decide +kernel)

/-- The resolution of `a.com`: three steps, two servers, one rewriting, and a denial at the end. -/
theorem verdict_trail : ∃ p, Complete verdictWorld ⟨stringToLabels "a.com".toList, TypeSet.single .A, false⟩ p ∧ hopsOf p = 2 ∧
    1 ≤ rewritesOf verdictWorld p ∧ Blackholed verdictWorld p "ns.sub.com.".toList ∧ RewrittenAway verdictWorld [["x".toList]] p "s.".toList ∧
    ContactedAway [["s".toList]] p "ns.sub.com.".toList := by
  let q : EC := exactClass (stringToLabels "a.com".toList) (TypeSet.single .A)
  have hS := verdict_setting [] false (by decide +kernel)
  have hb : ∀ r : Res IG, (match r with
      | .ok g => decide (g.edges.map (fun e => (e.src, e.dst)) = [(0, 1), (1, 2), (2, 3)] ∧
          g.verts.map (fun v => (v.ns, v.query.name)) = [([], stringToLabels "a.com".toList), ("s.".toList, stringToLabels "a.com".toList),
            ("s.".toList, stringToLabels "gone.sub.com".toList), ("ns.sub.com.".toList, stringToLabels "gone.sub.com".toList)] ∧
          Answers g 1 .REWRITE ∧ Answers g 3 .NX)
      | _ => false) = true → ∃ g, r = .ok g ∧ g.edges.map (fun e => (e.src, e.dst)) = [(0, 1), (1, 2), (2, 3)] ∧
          g.verts.map (fun v => (v.ns, v.query.name)) = [([], stringToLabels "a.com".toList), ("s.".toList, stringToLabels "a.com".toList),
            ("s.".toList, stringToLabels "gone.sub.com".toList), ("ns.sub.com.".toList, stringToLabels "gone.sub.com".toList)] ∧
          Answers g 1 .REWRITE ∧ Answers g 3 .NX := by
    intro r hr
    cases r with
    | ok g => exact ⟨g, rfl, of_decide_eq_true hr⟩
    | _ => cases hr
  obtain ⟨g, hg, he, hv, ha1, ha3⟩ := hb (buildIG 60 500 verdictCtx q) (by decide +kernel)
  have hinv := buildIG_inv hS.represents hS.wellFormed (q := q) (by decide +kernel) hg
  have hedge : ∀ u v, Edge g u v ↔ (u, v) ∈ [(0, 1), (1, 2), (2, 3)] := by
    intro u v
    rw [← he, List.mem_map]
    constructor
    · rintro ⟨e, h1, h2, h3⟩; exact ⟨e, h1, by rw [h2, h3]⟩
    · rintro ⟨e, h1, h2⟩; injection h2 with h2 h3; exact ⟨e, h1, h2, h3⟩
  have hmax : MaximalPath g 0 [0, 1, 2, 3] := by
    refine ⟨⟨rfl, ?_⟩, by decide, 3, rfl, ?_⟩
    · simp only [List.isChain_cons_cons, hedge]
      exact ⟨by decide, by decide, by decide, List.isChain_singleton _⟩
    · intro w; rw [hedge]; simp
  obtain ⟨p, hc, hat⟩ := complete_of_maximal hinv hmax
  have hvx : ∀ i : Nat, g.verts[i]?.map (fun v : IVtx => (v.ns, v.query.name)) = ([([], stringToLabels "a.com".toList), ("s.".toList, stringToLabels "a.com".toList),
            ("s.".toList, stringToLabels "gone.sub.com".toList), ("ns.sub.com.".toList, stringToLabels "gone.sub.com".toList)] : List (Str × Name))[i]? := by
    intro i; rw [← hv, List.getElem?_map]
  have hat' : ∀ {i : Nat} {s : Str} {a : Ask}, At g i s a → g.verts[i]?.map (fun v : IVtx => (v.ns, v.query.name)) = some (s, a.name) := by
    rintro i s a ⟨h1, h2, h3⟩
    unfold IG.vtx at h2 h3
    rw [List.getD_eq_getElem?_getD, List.getElem?_eq_getElem h1] at h2 h3
    rw [List.getElem?_eq_getElem h1, Option.map_some, ← h2, ← h3]; rfl
  cases hat with | @cons _ x _ p hx hat => cases hat with | @cons _ y _ p hy hat => cases hat with | @cons _ z _ p hz hat => cases hat with | nil =>
  have ex := (hat' hx).symm.trans (hvx 1)
  have ey := (hat' hy).symm.trans (hvx 2)
  have ez := (hat' hz).symm.trans (hvx 3)
  simp only [List.getElem?_cons_succ, List.getElem?_cons_zero, Option.some.injEq, Prod.mk.injEq] at ex ey ez
  have hkx := answers_kind hinv hx (by rw [ex.1]; decide) ha1
  have hkz := answers_kind hinv hz (by rw [ez.1]; decide) ha3
  refine ⟨_, hc, ?_, ?_, ⟨[x, y], z, rfl, ⟨x, by simp, hkx⟩, hkz, ez.1⟩, ⟨[], x, y, [z], rfl, ex.1, hkx, ?_⟩, ⟨z, by simp, ez.1, ?_⟩⟩
  · unfold hopsOf
    simp only [List.map_cons, List.map_nil, ex.1, ey.1, ez.1]
    decide
  · unfold rewritesOf
    rw [List.filter_cons_of_pos (by simpa using hkx)]
    simp
  · rw [ey.2]; decide +kernel
  · decide +kernel

/-- The hypotheses of C66 and C68 are met by `a.com` in the sample. -/
example : InScope verdictJob (stringToLabels "a.com".toList) ∧ Short (stringToLabels "a.com".toList) ∧ verdictJob.types = TypeSet.single .A := by
  refine ⟨?_, by decide +kernel, rfl⟩
  unfold InScope
  rw [if_pos (show verdictJob.subdomains = true from rfl)]
  exact ⟨by decide +kernel, by decide +kernel⟩

/-- Resolving `b.com` goes in circles: the hypothesis of C67 is met. -/
example : Circular verdictWorld ⟨stringToLabels "b.com".toList, TypeSet.single .A, false⟩ := by
  have hS := verdict_setting "b.com.".toList false (by decide +kernel)
  have h : ∀ r : Res (LGraph × List Task × List Violation), (match r with
      | .ok (_, ts, vs) => decide (ts = [.ec (exactClass (stringToLabels "b.com".toList) (TypeSet.single .A))]) &&
          vs.any (fun v => match v with | .loop _ => true | _ => false)
      | _ => false) = true → ∃ g ts vs, r = .ok (g, ts, vs) ∧ ts = [.ec (exactClass (stringToLabels "b.com".toList) (TypeSet.single .A))] ∧
        ∃ ns, .loop ns ∈ vs := by
    intro r hr
    cases r with
    | ok x =>
      obtain ⟨g, ts, vs⟩ := x
      dsimp only at hr
      rw [Bool.and_eq_true, decide_eq_true_eq, List.any_eq_true] at hr
      obtain ⟨h1, v, hv, h7⟩ := hr
      refine ⟨g, ts, vs, rfl, h1, ?_⟩
      cases v <;> first | exact ⟨_, hv⟩ | cases h7
    | _ => cases hr
  obtain ⟨g, ts, vs, hrun, rfl, ns, hns⟩ := h (Driver.runSequential 200 500 verdictCtx (labelGraph 500 verdictRecords)
    { verdictJob with domain := "b.com.".toList, subdomains := false }) (by decide +kernel)
  obtain ⟨q, hq, hc⟩ := C67_loops_sound hS hrun hns
  have : q = exactClass (stringToLabels "b.com".toList) (TypeSet.single .A) := by simpa [classes] using hq
  subst this
  exact hc _ rfl (by decide +kernel)

/-- The files of `twoFiles` and a job file meet the hypotheses of C69 and C70. -/
example : ∃ d job, setContext 500 true twoContents (fun _ => true) twoFiles = .ok d ∧ NoDS twoContents twoFiles ∧
    (∀ s ∈ twoFiles.topNameServers.getD [], s ≠ []) ∧ d.ctx.zones.length = d.ctx.counter ∧
    Driver.setJob {} ⟨"com".toList, true, [⟨"Hops".toList, some ["A".toList], .int 1⟩, ⟨"StructuralDelegationConsistency".toList, none, .missing⟩]⟩ = .ok job ∧
    job.types ≠ 0 ∧ Tidy d.ctx ∧ (∀ p ∈ d.ctx.zones, ∀ r ∈ heldBy p.2, r.type ≠ .DNAME ∧ ['.'] ∉ r.name) ∧
    Testable ⟨"com".toList, true, [⟨"Hops".toList, some ["A".toList], .int 1⟩, ⟨"StructuralDelegationConsistency".toList, none, .missing⟩]⟩ := by
  have h : ∀ r : Res Loaded, (match r with
      | .ok d => decide (d.ctx.zones.length = d.ctx.counter ∧
        (∀ p ∈ d.ctx.zones, ∀ r ∈ heldBy p.2, ['.'] ∉ r.name ∧ r.type ≠ .DNAME ∧ ∀ s ∈ heldBy p.2, r.type = .SOA → s.type = .SOA → r.name = s.name))
      | _ => false) = true → ∃ d, r = .ok d ∧ d.ctx.zones.length = d.ctx.counter ∧
        ∀ p ∈ d.ctx.zones, ∀ r ∈ heldBy p.2, ['.'] ∉ r.name ∧ r.type ≠ .DNAME ∧ ∀ s ∈ heldBy p.2, r.type = .SOA → s.type = .SOA → r.name = s.name := by
    intro r hr
    cases r with
    | ok d => exact ⟨d, rfl, of_decide_eq_true hr⟩
    | _ => cases hr
  obtain ⟨d, h1, h2, h3⟩ := h (setContext 500 true twoContents (fun _ => true) twoFiles) (by decide +kernel)
  refine ⟨d, { domain := "com".toList, subdomains := true, structural := true, pathFns := [.hops 1], types := (TypeSet.single .A).add .NS }, h1,
    by unfold NoDS; decide +kernel, by decide, h2, by decide +kernel, by decide +kernel, ⟨?_, ?_, ?_⟩, fun p hp r hr => ⟨(h3 p hp r hr).2.1, (h3 p hp r hr).1⟩,
    ⟨⟨_, List.mem_cons_of_mem _ List.mem_cons_self, .inl rfl⟩, by decide +kernel⟩⟩
  · exact fun p hp r hr => (h3 p hp r hr).1
  · exact fun p hp r hr hd => absurd hd (h3 p hp r hr).2.1
  · exact fun p hp r hr => (h3 p hp r hr).2.2

end Groot
