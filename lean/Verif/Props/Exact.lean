import Verif.Spec.Exact
import Verif.Props.StructuralRun

/-!
# C98: the report is empty exactly when nothing is wrong
-/

namespace Groot

open Spec Driver

theorem asks_path {u : UJob} {job : Job} (h : JobMeans {} u job) {f : PathFn} (hf : f ∈ job.pathFns) : ∃ p ∈ u.properties, Asks p (.path f) := by
  obtain ⟨ws, h1, h2, -⟩ := h.checks
  rw [h2] at hf
  obtain ⟨want, hw, e⟩ := List.mem_filterMap.mp hf
  obtain ⟨p, hp, ha⟩ := forall₂_mem h1 hw
  cases want with
  | path f' => injection e with e; subst e; exact ⟨p, hp, ha⟩
  | _ => cases e

theorem asks_node {u : UJob} {job : Job} (h : JobMeans {} u job) {f : NodeFn} (hf : f ∈ job.nodeFns) : ∃ p ∈ u.properties, Asks p (.node f) := by
  obtain ⟨ws, h1, -, h2⟩ := h.checks
  rw [h2] at hf
  obtain ⟨want, hw, e⟩ := List.mem_filterMap.mp hf
  obtain ⟨p, hp, ha⟩ := forall₂_mem h1 hw
  cases want with
  | node f' => injection e with e; subst e; exact ⟨p, hp, ha⟩
  | _ => cases e

theorem asked_single {job : Job} {rs : List RR} {m : Name} {T : TypeSet} {b : Bool} (hs : job.subdomains = false) (h : AskedWith job rs m T b) :
    T = job.types ∧ b = false := by
  cases h with
  | single _ => exact ⟨rfl, rfl⟩
  | known _ _ => exact ⟨rfl, rfl⟩
  | wild _ _ _ _ _ _ => exact ⟨rfl, rfl⟩
  | nothing _ _ hc _ _ _ _ => rw [hc.1] at hs; cases hs

/-- What a report says of a name is wrong with the name. -/
theorem faulty_of_justified {w : World} {rs : List RR} {u : UJob} {job : Job} (hmeans : JobMeans {} u job)
    (hx : ∀ p ∈ u.properties, ∀ want, Asks p want → ExactCheck rs u want) {q : EC} {m : Name} {v : Violation} (h : Justified w rs job q m v) :
    Faulty w rs u job m := by
  have path : ∀ {f : PathFn} {report : Violation → Prop}, f ∈ job.pathFns → (ExactCheck rs u (.path f) → Trouble w rs job m (.path f) report) →
      Faulty w rs u job m := by
    intro f report hf ht
    obtain ⟨p, hp, ha⟩ := asks_path hmeans hf
    exact .inr ⟨p, hp, _, ha, _, ht (hx p hp _ ha)⟩
  have node : ∀ {f : NodeFn} {report : Violation → Prop}, f ∈ job.nodeFns → (ExactCheck rs u (.node f) → Trouble w rs job m (.node f) report) →
      Faulty w rs u job m := by
    intro f report hf ht
    obtain ⟨p, hp, ha⟩ := asks_node hmeans hf
    exact .inr ⟨p, hp, _, ha, _, ht (hx p hp _ ha)⟩
  cases h with
  | loop ns hc => exact .inl hc
  | hops p n hf hr hlt => exact path hf (fun e => .hops n p e hr hlt)
  | rewrites p n hf hr hlt => exact path hf (fun _ => .rewrites n p hr hlt)
  | blackhole a b s p hf hr hb => exact path hf (fun _ => .blackhole p s hr hb)
  | queryRewrite a b s ds hf hr => exact path (report := fun v => ∃ a b, v = .queryRewrite a b s (printList ds)) hf (fun e => by
      obtain ⟨p, h1, h2⟩ := hr e
      exact .queryRewrite ds p s h1 h2)
  | contact a s ds p hf hr hc => exact path hf (fun _ => .contact ds p s hr hc)
  | lame s t a hf _ _ _ => obtain ⟨p, hp, ha⟩ := asks_path hmeans hf; exact (hx p hp _ ha).elim
  | delegation s t b id id' a hf _ _ _ _ _ _ => obtain ⟨p, hp, ha⟩ := asks_path hmeans hf; exact (hx p hp _ ha).elim
  | zeroTTL n tys T b x r hf ha he hi hr h0 => exact node hf (fun _ => .zeroTTL tys T b x r ha he hi hr h0)
  | consistency n tys T b x y hf ha hx hy hi hj hd => exact node hf (fun _ => .consistency tys T b x y ha hx hy hi hj hd)
  | value tys values l T b hf ha hw hl =>
    obtain ⟨x, h1, h2⟩ := hw
    exact node hf (fun _ => .value tys values T b x ha h1 h2)
  | missing n tys T b x a hf ha he hi has hrr ht =>
    refine node (report := fun v => ∃ n, v = .responseReturned n (showTypes (a.types &&& tys)) x.server) hf (fun e => ?_)
    have e : u.subdomain = false := e
    obtain ⟨rfl, rfl⟩ := asked_single (by rw [hmeans.subdomains]; exact e) ha
    exact .missing tys x a ha he hi has hrr ht
  | alias_ al cs n k T b p hf hn ha hr hal hd =>
    refine path (report := fun v => ∃ groups als al, v = .allAliases groups ∧ (present n, als) ∈ groups ∧ al ∈ als ∧ Denotes al k) hf (fun e => ?_)
    have e : u.subdomain = false ∧ ∀ c ∈ cs, Known rs c := e
    obtain ⟨rfl, rfl⟩ := asked_single (by rw [hmeans.subdomains]; exact e.1) ha
    exact .alias_ cs n k p hn (e.2 n hn) hr hal
  | infinite a b used p hf _ _ => obtain ⟨p, hp, ha⟩ := asks_path hmeans hf; exact (hx p hp _ ha).elim

/-- If a report is warranted, something is wrong with some name of the job. -/
theorem faulty_of_sustained {w : World} {rs : List RR} {us : List UJob} (ha : Ample w rs us) {u : UJob} (hu : u ∈ us) {job : Job}
    (hmeans : JobMeans {} u job) (hx : ∀ p ∈ u.properties, ∀ want, Asks p want → ExactCheck rs u want) {q : EC} {v : Violation}
    (h : Sustained w rs job q v) : ∃ m, InScope job m ∧ Short m ∧ Faulty w rs u job m := by
  obtain ⟨⟨m, h1, h2, h3⟩ | ⟨-, hlong, hin, hk⟩, h4⟩ := h
  · have hfit := ha.fits u hu job hmeans m h2 h3
    refine ⟨m, h2, h3, ?_⟩
    rcases h4 with ⟨_, _, _, -, -, h5⟩ | h5
    · exact absurd hfit (h5 m h1)
    · exact faulty_of_justified hmeans hx (h5 m h1 hfit)
  · have := ha.room u hu job hmeans q.name hin hk
    omega

/-- Without DNAMEs, and with targets of legal length, a name of legal length leads to such names only. -/
theorem fits_plain {w : World} (hd : ∀ id, ∀ r ∈ w.log id, r.type ≠ .DNAME ∧ (r.type = .CNAME → Short (stringToLabels r.rdata))) {a : Ask}
    (hs : Short a.name) : Fits w a := by
  intro x hx
  induction hx with
  | refl => exact hs
  | @tail y z _ hyz ih =>
    obtain ⟨sd, hst⟩ := hyz
    have rew : ∀ {s : Str} {a a' : Ask} {as : List Answer} {x : Answer} {r : RR}, Says w s a as → x ∈ as → r ∈ x.rrs → Rewritten r a a' →
        Short a'.name := by
      intro s a a' as x r h1 h2 h3 h4
      obtain ⟨id, hr⟩ := h1.mem h2 h3
      cases h4 with
      | cname ht hn _ _ => rw [hn]; exact (hd id r hr).2 ht
      | dname rest ht _ _ _ _ => exact absurd ht (hd id r hr).1
    obtain ⟨s, b⟩ := z
    obtain ⟨s', b'⟩ := y
    dsimp only at hst ih ⊢
    cases hst with
    | top => exact ih
    | rewriteHere =>
      have h1 := ‹Says w _ _ _›
      exact rew h1 (by assumption) (by assumption) (by assumption)
    | rewriteTop =>
      have h1 := ‹Says w _ _ _›
      exact rew h1 (by assumption) (by assumption) (by assumption)
    | referral => exact ih

/-- **C98** Files without DNAMEs have room for every job if they have some character that is no label and their owners have at most 250 bytes. -/
theorem C98_ample (tops : List Str) (zs : List Listing) (ess : List (List (Entry × Nat))) (us : List UJob) (hn : NoDname (allRecords zs ess))
    (hr : Roomy (allRecords zs ess))
    (hjobs : ∀ u ∈ us, Short (stringToLabels (toLower u.domain)) ∧ octets (stringToLabels (toLower u.domain)) < 253 ∧ Testable u) :
    Ample (worldOf tops zs ess) (allRecords zs ess) us where
  free := by
    obtain ⟨c, hc⟩ := hr.free
    exact ⟨c, fun r h => ⟨hc r h, fun e => absurd e (hn r h).1⟩⟩
  jobs := hjobs
  fits := by
    intro u _ job _ n _ hs
    refine fits_plain (fun id r hr => ?_) hs
    have hmem := worldOf_log hr
    refine ⟨(hn r hmem).1, fun ht => ?_⟩
    obtain ⟨_, z, es, -, -, hrl⟩ := allRecords_kept hmem
    exact (kept_mem hrl).2.2 (.inr (.inl ht))
  room := by
    rintro u _ job _ n _ ⟨k, hk⟩
    obtain ⟨e1, ⟨rest, e2⟩, hkn⟩ := (matches_plain (fun r h => (hn r h).1)).mp hk
    have hrest : rest = [] := by
      have := congrArg List.length e2
      rw [List.length_append] at this
      exact List.length_eq_zero_iff.mp (by omega)
    rw [hrest, List.append_nil] at e2
    subst e2
    rcases hkn with rfl | ⟨r, hm, -, h | ⟨hd, -⟩⟩
    · decide
    · exact Nat.le_trans (octets_prefix h) (hr.room r hm)
    · exact absurd hd (hn r hm).1

section

variable {ord : List Str → List Str} {thr : Nat} {lint : Bool} {read : Str → Str} {exists_ : Str → Bool} {jm jj : JVal} {m : Meta} {us : List UJob}
  {tops : List Str} {zs : List Listing} {ess : List (List (Entry × Nat))}

/-- **C98** The verdict is exact: on good input with room, for jobs with checks that speak of every name of a class, and whatever the threads do, the
output file is an empty list if and only if nothing is wrong with any name of any job and, where the structural check is on, no zones disagree about
a delegation. -/
theorem C98_exact (hord : ∀ l, (ord l).Perm l) (hm : MetaOf jm m) (hus : JobsOf jj us) (h : GoodInput read exists_ m us tops zs ess)
    (ha : Ample (worldOf tops zs ess) (allRecords zs ess) us)
    (hx : ∀ u ∈ us, ∀ p ∈ u.properties, ∀ want, Asks p want → ExactCheck (allRecords zs ess) u want) :
    ∃ N, ∀ fuel, N ≤ fuel → ∀ text whole, Threaded ord fuel thr lint read exists_ jm jj text whole →
      (JsonText.parse text = some (.arr []) ↔
        (∀ u ∈ us, ∀ job, JobMeans {} u job → ∀ n, InScope job n → Short n → ¬ Faulty (worldOf tops zs ess) (allRecords zs ess) u job n) ∧
        ∀ i u, StructuralOn us i u → ∀ n, AtOrBelow (stringToLabels (toLower u.domain)) n → octets n < 253 →
          ¬ DelegationUnsettled (worldOf tops zs ess) n) := by
  obtain ⟨N1, h1⟩ := C90_clean (thr := thr) (lint := lint) hord hm hus h
  obtain ⟨N2, h2⟩ := C91_clean (thr := thr) (lint := lint) hord hm hus h
  obtain ⟨N3, h3⟩ := C91_all_true (thr := thr) (lint := lint) hord hm hus h ha.free ha.jobs
  refine ⟨max N1 (max N2 N3), fun fuel hf text whole ht => ?_⟩
  constructor
  · intro hempty
    constructor
    · intro u hu job hj n hn hs hfault
      obtain ⟨hsu, -, htest⟩ := ha.jobs u hu
      obtain ⟨c1, c2⟩ := h1 fuel (by omega) text whole ht hempty u hu job hj hsu htest n hn (ha.fits u hu job hj n hn hs)
      rcases hfault with hc | ⟨p, hp, want, hask, report, htr⟩
      · exact c1 hc
      · exact c2 p hp want hask report htr
    · intro i u hon n hn ho
      exact h2 fuel (by omega) text whole ht hempty i u hon (ha.jobs u (List.mem_of_getElem? hon.1)).1 n hn ho
  · rintro ⟨c1, c2⟩
    obtain ⟨js, e, h4⟩ := h3 fuel (by omega) text whole ht
    rw [e]
    cases js with
    | nil => rfl
    | cons j js =>
      exfalso
      obtain ⟨v, -, i, u, job, hu, hmeans, h5⟩ := h4 j List.mem_cons_self
      have hmem := List.mem_of_getElem? hu
      have key : ∀ {q : EC} {v : Violation}, ¬ Sustained (worldOf tops zs ess) (allRecords zs ess) job q v := by
        intro q v hsus
        obtain ⟨n, a1, a2, a3⟩ := faulty_of_sustained ha hmem hmeans (hx u hmem) hsus
        exact c1 u hmem job hmeans n a1 a2 a3
      rcases h5 with ⟨hon, n, b1, b2, b3, -⟩ | ⟨q, hsus⟩ | ⟨groups, -, hne, hg⟩
      · exact c2 i u hon n b1 b2 b3
      · exact key hsus
      · obtain ⟨⟨c, als⟩, hca⟩ := List.exists_mem_of_ne_nil groups hne
        obtain ⟨hals, hall⟩ := hg c als hca
        obtain ⟨al, hal⟩ := List.exists_mem_of_ne_nil als hals
        obtain ⟨q, hsus⟩ := hall al hal
        exact key hsus

end

/-! ### A run -/

private abbrev rs1 := allRecords [("f".toList, "NS.x.".toList, some "X.".toList)] [sampleEntries]

theorem program_plain : NoDname rs1 := by
  unfold NoDname; decide +kernel

theorem program_roomy : Roomy rs1 := ⟨⟨'q', by decide +kernel⟩, by decide +kernel⟩

/-- The sample file and the job that allows "org" only are good input. -/
theorem program_sane : GoodInput (fun _ => sampleFile) (fun _ => true) programMeta [programUJob "org"] ["NS.x.".toList]
    [("f".toList, "NS.x.".toList, some "X.".toList)] [sampleEntries] where
  loadable := program_loadable
  zones := ⟨by decide +kernel, by decide +kernel⟩
  redirects := by
    have h : ∀ r ∈ rs1, r.type ≠ .DNAME := fun r hr => (program_plain r hr).1
    refine ⟨?_, fun r hr e => absurd e (h r hr), by decide +kernel, fun r hr e => absurd e (h r hr)⟩
    rintro n t n' t' ⟨r, h1, h2, rfl, rfl⟩
    exact absurd h2 (h r h1)
  jobs := by
    intro u hu
    rw [List.mem_singleton.mp hu]
    refine ⟨⟨fun p hp => ?_, by decide +kernel⟩, ⟨_, List.mem_singleton.mpr rfl, .inr ⟨_, rfl, by simp⟩⟩, by unfold NoneAbove; decide +kernel⟩
    rw [List.mem_singleton.mp hp]
    refine ⟨?_, _, .nsContact ["org".toList] rfl rfl (by simp)⟩
    intro l hl s hs
    injection hl with hl
    subst hl
    rw [List.mem_singleton.mp hs]
    exact ⟨.A, by unfold Names; decide +kernel⟩
  utf8 := by
    intro s hs
    have h : (inputStrings (fun _ => sampleFile) programMeta (some [programUJob "org"])).all Json.utf8Ok = true := by decide +kernel
    exact (Json.utf8Ok_iff s).mp (List.all_eq_true.mp h s (ofInput_mem hs))

theorem program_ample : Ample (worldOf ["NS.x.".toList] [("f".toList, "NS.x.".toList, some "X.".toList)] [sampleEntries]) rs1 [programUJob "org"] := by
  refine C98_ample _ _ _ _ program_plain program_roomy ?_
  intro u hu
  rw [List.mem_singleton.mp hu]
  exact ⟨by decide +kernel, by decide +kernel,
    ⟨⟨_, List.mem_singleton.mpr rfl, .inr ⟨_, rfl, _, List.mem_singleton.mpr rfl, .A, by unfold Names; decide +kernel, by decide⟩⟩, by decide +kernel⟩⟩

theorem program_exact : ∀ u ∈ [programUJob "org"], ∀ p ∈ u.properties, ∀ want, Asks p want → ExactCheck rs1 u want := by
  intro u hu p hp want ha
  rw [List.mem_singleton.mp hu] at hp
  rw [List.mem_singleton.mp hp] at ha
  cases ha <;> first | trivial | contradiction

/-- The job is faulty: `www.x` is resolved at a server that is not below "org". So `C98_exact` says that the output is not empty, as `program_runs` has it. -/
example : ∃ N, ∀ fuel, N ≤ fuel → ∀ text whole, Threaded id fuel 500 true (fun _ => sampleFile) (fun _ => true) programMetaJ (.arr [programJobJ "org"]) text whole →
    JsonText.parse text ≠ some (.arr []) := by
  obtain ⟨N, h⟩ := C98_exact (ord := id) (thr := 500) (lint := true) (fun _ => .refl _) programMetaJ_of (programJobJ_of "org") program_sane program_ample program_exact
  refine ⟨N, fun fuel hf text whole ht he => ?_⟩
  have h1 := ((h fuel hf text whole ht).mp he).1
  refine h1 _ (List.mem_singleton.mpr rfl) _ programJob_means.1 ["x".toList, "www".toList] ?_ (by decide +kernel) ?_
  · unfold InScope
    rw [if_neg (by decide)]
    rfl
  · refine .inr ⟨_, List.mem_singleton.mpr rfl, _, .nsContact ["org".toList] rfl rfl (by simp), (fun v => ∃ a, v = .nsContact a "ns.x.".toList (printList [["org".toList]])), ?_⟩
    exact .contact _ [("ns.x.".toList, ⟨["x".toList, "www".toList], TypeSet.single .A, false⟩, none)] _
      (.step _ _ _ _ _ _ (.top _ _ (by unfold worldOf; decide +kernel)) (.done _ _)) ⟨_, List.mem_singleton.mpr rfl, rfl, by decide +kernel⟩

end Groot
