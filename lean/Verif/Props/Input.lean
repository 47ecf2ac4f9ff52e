import Verif.Lemmas.Input
import Verif.Props.Json

/-!
# C78: what metadata.json and the job file say
-/

namespace Groot

open Spec Driver JVal

/-- The job file, if one is given. -/
def JobsGiven : Option JVal → Option (List UJob) → Prop
  | none, none => True
  | some j, some us => JobsOf j us
  | _, _ => False

/-- **C78** A JSON value says at most one thing: metadata, zone file, job or property. -/
theorem C78_unique (j : JVal) : (∀ a b, MetaOf j a → MetaOf j b → a = b) ∧ (∀ a b, ZoneOf j a → ZoneOf j b → a = b) ∧
    (∀ a b, JobOf j a → JobOf j b → a = b) ∧ (∀ a b, PropOf j a → PropOf j b → a = b) ∧ (∀ a b, JobsOf j a → JobsOf j b → a = b) := by
  refine ⟨fun _ _ => Spec.MetaOf.unique, fun _ _ => Spec.ZoneOf.unique, fun _ _ => Spec.JobOf.unique, fun _ _ => Spec.PropOf.unique, ?_⟩
  rintro a b ⟨l, h1, h2⟩ ⟨l', h1', h2'⟩
  cases h1.unique h1'
  exact forall₂_unique (R := JobOf) (fun _ _ _ x y => Spec.JobOf.unique x y) h2 h2'

/-- **C78** The value of a property is what the specification says, when it is run through and when it is converted to a number:
that is only done when the check is called, so that a value that is not a number is kept. -/
theorem C78_value (m : List (Str × JVal)) : strsOf (uval (.obj m)) = ((JVal.obj m).member "Value" >>= JVal.strings) ∧
    (∀ f, numFn f (uval (.obj m)) = ((JVal.obj m).member "Value" >>= fun v => match v.getInt with
      | .ok n => .ok (f n)
      | .ub => .ok (.misfit true)
      | _ => .ok (.misfit false))) ∧
    ∀ v, uval (.obj m) = v ↔ (NoMember (.obj m) "Value" ∧ v = .missing) ∨ ∃ x, HasMember (.obj m) "Value" x ∧ ValueOf x v :=
  ⟨strsOf_uval _ rfl, fun f => numFn_uval f _ rfl, fun _ => uval_spec⟩

/-- **C78** A job that can be read is set as what it says, and one that cannot is never accepted. -/
theorem C78_job (prev : Job) (j : JVal) : (∀ u, JobOf j u → setJobJ prev j = setJob prev u) ∧
    ((¬ ∃ u, JobOf j u) → ∀ job, setJobJ prev j ≠ .ok job) :=
  ⟨fun _ h => setJobJ_of h prev, fun h _ hj => h (jobOf_of_ok hj)⟩

/-- **C78** Metadata that can be read is loaded as what it says, and other metadata is never accepted. -/
theorem C78_metadata (thr : Nat) (lint : Bool) (read : Str → Str) (exists_ : Str → Bool) (j : JVal) :
    (∀ m, MetaOf j m → setContextJ thr lint read exists_ j = setContext thr lint read exists_ m) ∧
    ((¬ ∃ m, MetaOf j m) → ∀ d, setContextJ thr lint read exists_ j ≠ .ok d) :=
  ⟨fun _ h => setContextJ_of h, fun h _ hd => h (metaOf_of_ok hd)⟩

/-- What the job file says, the run does. -/
theorem mainJ_of {fuel thr : Nat} {lint : Bool} {read : Str → Str} {exists_ : Str → Bool} {j : JVal} {m : Meta} (hm : MetaOf j m)
    {jobs : Option JVal} {us : Option (List UJob)} (hj : JobsGiven jobs us) :
    mainJ fuel thr lint read exists_ j jobs = main fuel thr lint read exists_ m us := by
  unfold mainJ main
  rw [setContextJ_of hm]
  cases setContext thr lint read exists_ m with
  | ok d =>
    rw [Res.ok_bind, Res.ok_bind]
    cases jobs with
    | none =>
      cases us with
      | none => rfl
      | some us => exact hj.elim
    | some j =>
      cases us with
      | none => exact hj.elim
      | some us =>
        obtain ⟨l, h1, h2⟩ := hj
        dsimp only
        simp only [elements_iff.mp h1, jobLoopJ_of h2]
  | _ => rfl

theorem jobsGiven_of_ok {fuel thr : Nat} {lint : Bool} {read : Str → Str} {exists_ : Str → Bool} {j : JVal} {jobs : Option JVal} {t : Totals}
    (h : mainJ fuel thr lint read exists_ j jobs = .ok t) : ∃ us, JobsGiven jobs us := by
  unfold mainJ at h
  obtain ⟨d, -, h⟩ := bind_ok_iff.mp h
  dsimp only at h
  have key : (match jobs with
        | some us => jobLoopJ fuel thr d.ctx d.lg {} {} us.items
        | none => do
          let r ← runJob fuel thr d.ctx d.lg {} (setDefaultJob {} ".".toList)
          .ok r.2) = .ok t := by
    by_cases hl : lint = true
    · rw [if_pos hl] at h
      obtain ⟨g, -, h⟩ := bind_ok_iff.mp h
      exact h
    · rw [if_neg hl, Res.ok_bind] at h
      exact h
  cases jobs with
  | none => exact ⟨none, trivial⟩
  | some j =>
    obtain ⟨us, hus⟩ := jobLoopJ_ok _ _ _ _ _ key
    exact ⟨some us, _, elements_iff.mpr rfl, hus⟩

/-- **C78** A run from the JSON values of metadata.json and of the job file is the run from what they say: it gets to its end exactly if they say
something and that run does, with the same report. -/
theorem C78_main (fuel thr : Nat) (lint : Bool) (read : Str → Str) (exists_ : Str → Bool) (j : JVal) (jobs : Option JVal) (t : Totals) :
    mainJ fuel thr lint read exists_ j jobs = .ok t ↔
      ∃ m us, MetaOf j m ∧ JobsGiven jobs us ∧ main fuel thr lint read exists_ m us = .ok t := by
  constructor
  · intro h
    obtain ⟨us, hus⟩ := jobsGiven_of_ok h
    have h' := h
    unfold mainJ at h'
    obtain ⟨d, hd, -⟩ := bind_ok_iff.mp h'
    obtain ⟨m, hm⟩ := metaOf_of_ok hd
    exact ⟨m, us, hm, hus, by rw [← mainJ_of hm hus]; exact h⟩
  · rintro ⟨m, us, hm, hus, h⟩
    rw [mainJ_of hm hus]
    exact h

/-- **C78** The same for the files written. -/
theorem C78_program (ord : List Str → List Str) (fuel thr : Nat) (lint : Bool) (read : Str → Str) (exists_ : Str → Bool) (j : JVal)
    (jobs : Option JVal) (f : Files) :
    programJ ord fuel thr lint read exists_ j jobs = .ok f ↔
      ∃ m us, MetaOf j m ∧ JobsGiven jobs us ∧ program ord fuel thr lint read exists_ m us = .ok f := by
  have same : ∀ m us, MetaOf j m → JobsGiven jobs us →
      programJ ord fuel thr lint read exists_ j jobs = program ord fuel thr lint read exists_ m us := by
    intro m us hm hus
    unfold programJ program
    rw [setContextJ_of hm, mainJ_of hm hus]
  constructor
  · intro h
    have h' := h
    unfold programJ at h'
    obtain ⟨d, hd, h'⟩ := bind_ok_iff.mp h'
    obtain ⟨m, hm⟩ := metaOf_of_ok hd
    have key : ∃ t, mainJ fuel thr lint read exists_ j jobs = .ok t := by
      dsimp only at h'
      have last : ∀ glue, (if (lint && !(lintObjects d glue).all Json.textOk) = true then Res.throw
          else (mainJ fuel thr lint read exists_ j jobs >>= fun t => Res.ok (writtenFiles ord lint d glue t))) = .ok f →
          ∃ t, mainJ fuel thr lint read exists_ j jobs = .ok t := by
        intro glue hh
        by_cases hc : (lint && !(lintObjects d glue).all Json.textOk) = true
        · rw [if_pos hc] at hh; cases hh
        · rw [if_neg hc] at hh
          obtain ⟨t, ht, -⟩ := bind_ok_iff.mp hh
          exact ⟨t, ht⟩
      by_cases hl : lint = true
      · rw [if_pos hl] at h'
        obtain ⟨glue, -, h'⟩ := bind_ok_iff.mp h'
        exact last glue h'
      · rw [if_neg hl, Res.ok_bind] at h'
        exact last [] h'
    obtain ⟨t, ht⟩ := key
    obtain ⟨us, hus⟩ := jobsGiven_of_ok ht
    exact ⟨m, us, hm, hus, by rw [← same m us hm hus]; exact h⟩
  · rintro ⟨m, us, hm, hus, h⟩
    rw [same m us hm hus]
    exact h

/-- **C78** Other members of the objects have no effect: only those named in the specification are looked at. -/
theorem C78_other_members (a b : List (Str × JVal)) :
    ((∀ k ∈ ["Domain", "SubDomain", "Properties"], a.lookup k.toList = b.lookup k.toList) → ∀ u, JobOf (.obj a) u ↔ JobOf (.obj b) u) ∧
    ((∀ k ∈ ["PropertyName", "Types", "Value"], a.lookup k.toList = b.lookup k.toList) → ∀ u, PropOf (.obj a) u ↔ PropOf (.obj b) u) ∧
    ((∀ k ∈ ["FileName", "NameServer", "Origin"], a.lookup k.toList = b.lookup k.toList) → ∀ u, ZoneOf (.obj a) u ↔ ZoneOf (.obj b) u) ∧
    ((∀ k ∈ ["TopNameServers", "ZoneFiles"], a.lookup k.toList = b.lookup k.toList) → ∀ u, MetaOf (.obj a) u ↔ MetaOf (.obj b) u) := by
  have has : ∀ {a b : List (Str × JVal)} {k : String}, a.lookup k.toList = b.lookup k.toList → ∀ v, HasMember (.obj a) k v → HasMember (.obj b) k v := by
    rintro a b k h v ⟨m, hm, hv⟩
    injection hm with hm
    exact ⟨b, rfl, by rw [← h, hm]; exact hv⟩
  have no : ∀ {a b : List (Str × JVal)} {k : String}, a.lookup k.toList = b.lookup k.toList → NoMember (.obj a) k → NoMember (.obj b) k := by
    intro a b k h hn m hm
    injection hm with hm
    rw [← hm, ← h]
    exact hn a rfl
  have one : ∀ a b : List (Str × JVal),
      ((∀ k ∈ ["Domain", "SubDomain", "Properties"], a.lookup k.toList = b.lookup k.toList) → ∀ u, JobOf (.obj a) u → JobOf (.obj b) u) ∧
      ((∀ k ∈ ["PropertyName", "Types", "Value"], a.lookup k.toList = b.lookup k.toList) → ∀ u, PropOf (.obj a) u → PropOf (.obj b) u) ∧
      ((∀ k ∈ ["FileName", "NameServer", "Origin"], a.lookup k.toList = b.lookup k.toList) → ∀ u, ZoneOf (.obj a) u → ZoneOf (.obj b) u) ∧
      ((∀ k ∈ ["TopNameServers", "ZoneFiles"], a.lookup k.toList = b.lookup k.toList) → ∀ u, MetaOf (.obj a) u → MetaOf (.obj b) u) := by
    intro a b
    refine ⟨fun h u hu => ?_, fun h u hu => ?_, fun h u hu => ?_, fun h u hu => ?_⟩
    · obtain ⟨v, l, h1, h2⟩ := hu.properties
      exact ⟨has (h _ (by simp)) _ hu.domain, has (h _ (by simp)) _ hu.subdomain, v, l, has (h _ (by simp)) _ h1, h2⟩
    · refine ⟨has (h _ (by simp)) _ hu.name, ?_, ?_⟩
      · rcases hu.types with ⟨h1, h2⟩ | ⟨t, l, h1, h2⟩
        · exact .inl ⟨no (h _ (by simp)) h1, h2⟩
        · exact .inr ⟨t, l, has (h _ (by simp)) _ h1, h2⟩
      · rcases hu.value with ⟨h1, h2⟩ | ⟨t, h1, h2⟩
        · exact .inl ⟨no (h _ (by simp)) h1, h2⟩
        · exact .inr ⟨t, has (h _ (by simp)) _ h1, h2⟩
    · obtain ⟨f, h1, h2⟩ := hu.file
      obtain ⟨s, h3, h4⟩ := hu.server
      refine ⟨⟨f, has (h _ (by simp)) _ h1, h2⟩, ⟨s, has (h _ (by simp)) _ h3, h4⟩, ?_⟩
      rcases hu.origin with ⟨h5, h6⟩ | ⟨o, h5, h6⟩
      · exact .inl ⟨no (h _ (by simp)) h5, h6⟩
      · exact .inr ⟨o, has (h _ (by simp)) _ h5, h6⟩
    · obtain ⟨v, l, h1, h2⟩ := hu.top
      obtain ⟨w, k, zs, h3, h4⟩ := hu.files
      exact ⟨⟨v, l, has (h _ (by simp)) _ h1, h2⟩, w, k, zs, has (h _ (by simp)) _ h3, h4⟩
  obtain ⟨p1, p2, p3, p4⟩ := one a b
  obtain ⟨q1, q2, q3, q4⟩ := one b a
  exact ⟨fun h u => ⟨p1 h u, q1 (fun k hk => (h k hk).symm) u⟩, fun h u => ⟨p2 h u, q2 (fun k hk => (h k hk).symm) u⟩,
    fun h u => ⟨p3 h u, q3 (fun k hk => (h k hk).symm) u⟩, fun h u => ⟨p4 h u, q4 (fun k hk => (h k hk).symm) u⟩⟩

/-- **C78** The ways in which bad metadata ends the program: members missing, it exits; of the wrong kind, an exception. -/
theorem C78_bad_metadata (thr : Nat) (lint : Bool) (read : Str → Str) (exists_ : Str → Bool) (j : JVal) :
    (NoMember j "TopNameServers" → setContextJ thr lint read exists_ j = .exit) ∧
    (∀ v, HasMember j "TopNameServers" v → (∀ l, ¬ StringList v l) → setContextJ thr lint read exists_ j = .throw) ∧
    (∀ v l, HasMember j "TopNameServers" v → StringList v l → NoMember j "ZoneFiles" → setContextJ thr lint read exists_ j = .exit) := by
  have zero : ∀ {k}, NoMember j k → j.count k ≠ 1 := by
    intro k hk
    unfold JVal.count
    rw [find_none.mpr hk]
    simp
  refine ⟨fun h => ?_, fun v h hv => ?_, fun v l h hv hz => ?_⟩
  · unfold setContextJ sanityCheckJ
    rw [if_pos (zero h)]
    rfl
  · have fails : ∀ (l : List JVal), (∀ s, getStrs l ≠ .ok s) → getStrs l = .throw := by
      intro l
      induction l with
      | nil => intro h; exact absurd rfl (h [])
      | cons j l ih =>
        intro h
        unfold getStrs at h ⊢
        cases j with
        | str s =>
          dsimp only [JVal.getStr] at h ⊢
          rw [Res.ok_bind] at h ⊢
          rw [ih (fun s' hs' => h (s :: s') (by rw [hs']; rfl))]
          rfl
        | _ => rfl
    have e : v.strings = .throw := fails v.items (fun s hs => hv s (strings_ok.mp hs))
    unfold setContextJ sanityCheckJ
    rw [if_neg (by rw [count_of h]; simp), member_ok.mpr h, Res.ok_bind, e]
    rfl
  · unfold setContextJ sanityCheckJ
    rw [if_neg (by rw [count_of h]; simp), member_ok.mpr h, Res.ok_bind, strings_ok.mpr hv, Res.ok_bind, if_pos (zero hz)]
    rfl

/-! ### Runs -/

private def k (s : String) (v : JVal) : Str × JVal := (s.toList, v)
private def t (s : String) : JVal := .str s.toList

/-- The metadata of `twoFiles`; the root server is given as a string instead of a list, and there is a member nobody looks at. -/
def twoFilesJ : JVal := .obj [k "Comment" (.arr [.flt 1, .null]), k "TopNameServers" (t "S."), k "ZoneFiles" (.arr
  [.obj [k "FileName" (t "f1"), k "NameServer" (t "S.")], .obj [k "FileName" (t "f2"), k "NameServer" (t "ns.Sub.com."), k "Origin" (t "sub.com.")]])]

/-- A job. -/
def oneJobJ : JVal := .obj [k "Domain" (t "a.com"), k "Properties" (.arr [
  .obj [k "PropertyName" (t "Rewrites"), k "Types" (.arr [t "A"]), k "Value" (.int 0)],
  .obj [k "PropertyName" (t "QueryRewrite"), k "Types" (.arr [t "A"]), k "Value" (.arr [t "org"])]]), k "SubDomain" (.bool false)]

/-- What they say. -/
theorem twoFilesJ_of : MetaOf twoFilesJ twoFiles where
  top := ⟨t "S.", ["S.".toList], ⟨_, rfl, rfl⟩, .one _ (fun h => nomatch h) (fun _ h => nomatch h) (fun _ h => nomatch h), rfl⟩
  files := ⟨_, _, _, ⟨_, rfl, rfl⟩, .array _, .cons ⟨⟨_, ⟨_, rfl, rfl⟩, rfl⟩, ⟨_, ⟨_, rfl, rfl⟩, rfl⟩, .inl ⟨by
      intro m hm; injection hm with hm; rw [← hm]; rfl, rfl⟩⟩
    (.cons ⟨⟨_, ⟨_, rfl, rfl⟩, rfl⟩, ⟨_, ⟨_, rfl, rfl⟩, rfl⟩, .inr ⟨_, ⟨_, rfl, rfl⟩, rfl⟩⟩ .nil), rfl⟩

theorem oneJobJ_of : JobOf oneJobJ ⟨"a.com".toList, false, [⟨"Rewrites".toList, some ["A".toList], .int 0⟩,
    ⟨"QueryRewrite".toList, some ["A".toList], .strs ["org".toList]⟩]⟩ where
  domain := ⟨_, rfl, rfl⟩
  subdomain := ⟨_, rfl, rfl⟩
  properties := ⟨_, _, ⟨_, rfl, rfl⟩, .array _,
    .cons ⟨⟨_, rfl, rfl⟩, .inr ⟨_, ["A".toList], ⟨_, rfl, rfl⟩, .array _, rfl⟩, .inr ⟨_, ⟨_, rfl, rfl⟩, .int 0 0 (by unfold AsInt; omega)⟩⟩
    (.cons ⟨⟨_, rfl, rfl⟩, .inr ⟨_, ["A".toList], ⟨_, rfl, rfl⟩, .array _, rfl⟩, .inr ⟨_, ⟨_, rfl, rfl⟩, .list _ _ (.array _)⟩⟩ .nil)⟩

theorem totals_of_check {r : Res Totals} {P : Totals → Prop} [∀ f, Decidable (P f)] (h : (match r with | .ok f => decide (P f) | _ => false) = true) :
    ∃ f, r = .ok f ∧ P f := by
  cases r with
  | ok f => exact ⟨f, rfl, of_decide_eq_true h⟩
  | _ => cases h

/-- A run from JSON values, reporting something; a job that is read. -/
example : (∃ r, mainJ 300 500 true twoContents (fun _ => true) twoFilesJ (some (.arr [oneJobJ])) = .ok r ∧
      .rewrites "a.com.".toList 1 0 ∈ r.violations ∧ r.ecs = 1) ∧
    ∃ us, JobsGiven (some (.arr [oneJobJ])) us :=
  ⟨totals_of_check (by decide +kernel), some _, _, .array _, .cons oneJobJ_of .nil⟩

/-- Values that say nothing: a job without "SubDomain", a number for a domain. -/
example : (¬ ∃ u, JobOf (.obj [k "Domain" (t "a.com"), k "Properties" (.arr [])]) u) ∧ (¬ ∃ m, MetaOf (.obj [k "TopNameServers" (.int 3), k "ZoneFiles" .null]) m) := by
  refine ⟨?_, ?_⟩
  · rintro ⟨u, h⟩
    obtain ⟨m, hm, hv⟩ := h.subdomain
    injection hm with hm
    rw [← hm] at hv
    cases hv
  · rintro ⟨u, h⟩
    obtain ⟨v, l, ⟨m, hm, hv⟩, hl, -⟩ := h.top
    injection hm with hm
    rw [← hm] at hv
    injection hv with hv
    rw [← hv] at hl
    have := elements_iff.mp hl
    cases l with
    | nil => cases this
    | cons s l => injection this with this; cases this

/-- **C78** (disagreement) A job file that consists of one job should be run, or be refused with a message.  The loop over its members takes the
string "a.com" for a job: an exception. -/
theorem C78_disagreement_lone_job : mainJ 300 500 false twoContents (fun _ => true) twoFilesJ (some oneJobJ) = .throw := by
  have h : ∀ r : Res Totals, (match r with | .throw => true | _ => false) = true → r = .throw := by
    intro r hr
    cases r with
    | throw => rfl
    | _ => cases hr
  exact h _ (by decide +kernel)

/-- **C78** (disagreement) A job without "SubDomain", "Domain" or "Properties", or a property without its name, should be refused.  The member of a
constant object is taken without looking: undefined behaviour. -/
theorem C78_disagreement_missing (prev : Job) (m : List (Str × JVal)) :
    (m.lookup "Domain".toList = none → setJobJ prev (.obj m) = .ub) ∧
    (∀ s, m.lookup "Domain".toList = some (.str s) → m.lookup "SubDomain".toList = none → setJobJ prev (.obj m) = .ub) ∧
    (m.lookup "PropertyName".toList = none → setPropJ prev (.obj m) = .ub) := by
  refine ⟨fun h => ?_, fun s h h' => ?_, fun h => ?_⟩
  · unfold setJobJ JVal.member
    dsimp only
    rw [h]
    rfl
  · unfold setJobJ JVal.member
    dsimp only
    rw [h, h']
    rfl
  · unfold setPropJ JVal.member
    dsimp only
    rw [h]
    rfl

/-- **C78** (disagreement) A limit of 4294967297 rewritings should allow two.  It is stored in an `int` and becomes 1. -/
theorem C78_disagreement_wrap : ∀ m : List (Str × JVal), m.lookup "PropertyName".toList = some (t "Rewrites") → m.lookup "Types".toList = none →
    m.lookup "Value".toList = some (.int 4294967297) → ∃ job, setPropJ {} (.obj m) = .ok job ∧ job.pathFns = [.rewrites 1] := by
  intro m h1 h2 h3
  have hp : PropOf (.obj m) ⟨"Rewrites".toList, none, .int 1⟩ :=
    ⟨⟨m, rfl, h1⟩, .inl ⟨(fun m' hm => by injection hm with hm; rw [← hm]; exact h2), rfl⟩, .inr ⟨_, ⟨m, rfl, h3⟩, .int _ _ (by unfold AsInt; omega)⟩⟩
  rw [setPropJ_of hp]
  exact ⟨_, rfl, rfl⟩

example : [k "PropertyName" (t "Rewrites"), k "Value" (.int 4294967297)].lookup "Value".toList = some (.int 4294967297) := rfl

end Groot
