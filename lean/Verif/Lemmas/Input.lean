import Verif.Spec.Input
import Verif.Lemmas.Main

/-!
# Reading the contents of metadata.json and of the job file
-/

namespace Groot

open Spec Driver JVal

theorem elements_iff {j : JVal} {l : List JVal} : Elements j l ↔ j.items = l := by
  constructor
  · intro h
    cases h with
    | null => rfl
    | array => rfl
    | object => rfl
    | one _ h1 h2 h3 =>
      cases j with
      | null => exact absurd rfl h1
      | arr l => exact absurd rfl (h2 l)
      | obj m => exact absurd rfl (h3 m)
      | _ => rfl
  · intro h
    subst h
    cases j with
    | null => exact .null
    | arr l => exact .array l
    | obj m => exact .object m
    | _ => exact .one _ (fun h => nomatch h) (fun _ h => nomatch h) (fun _ h => nomatch h)

theorem getStr_ok {j : JVal} {s : Str} : j.getStr = .ok s ↔ j = .str s := by
  cases j <;> simp [getStr]

theorem getBool_ok {j : JVal} {b : Bool} : j.getBool = .ok b ↔ j = .bool b := by
  cases j <;> simp [getBool]

theorem getStrs_ok : ∀ (js : List JVal) (l : List Str), getStrs js = .ok l ↔ js = l.map JVal.str
  | [], l => by
    unfold getStrs
    cases l <;> simp
  | j :: js, l => by
    unfold getStrs
    rw [bind_ok_iff]
    constructor
    · rintro ⟨s, hs, h⟩
      obtain ⟨r, hr, h⟩ := bind_ok_iff.mp h
      injection h with h
      rw [← h, getStr_ok.mp hs, (getStrs_ok js r).mp hr]
      rfl
    · intro h
      cases l with
      | nil => cases h
      | cons s l =>
        injection h with h1 h2
        exact ⟨s, getStr_ok.mpr h1, bind_ok_iff.mpr ⟨l, (getStrs_ok js l).mpr h2, rfl⟩⟩

theorem strings_ok {j : JVal} {l : List Str} : j.strings = .ok l ↔ StringList j l := by
  unfold strings StringList
  rw [getStrs_ok, elements_iff]

theorem find_some {j : JVal} {k : String} {v : JVal} : j.find k = some v ↔ HasMember j k v := by
  unfold JVal.find HasMember
  cases j <;> simp

theorem find_none {j : JVal} {k : String} : j.find k = none ↔ NoMember j k := by
  unfold JVal.find NoMember
  cases j <;> simp

theorem member_ok {j : JVal} {k : String} {v : JVal} : j.member k = .ok v ↔ HasMember j k v := by
  unfold JVal.member HasMember
  cases j with
  | obj m =>
    dsimp only
    cases hm : m.lookup k.toList with
    | none => simp [hm]
    | some w => simp [hm]
  | _ => simp

theorem Spec.HasMember.unique {j : JVal} {k : String} {v w : JVal} (h : HasMember j k v) (h' : HasMember j k w) : v = w := by
  have := (find_some.mpr h).symm.trans (find_some.mpr h')
  injection this

theorem Spec.HasMember.not_no {j : JVal} {k : String} {v : JVal} (h : HasMember j k v) (h' : NoMember j k) : False := by
  have := (find_some.mpr h).symm.trans (find_none.mpr h')
  cases this

theorem member_or {j : JVal} {k : String} : NoMember j k ∨ ∃ v, HasMember j k v := by
  cases h : j.find k with
  | none => exact .inl (find_none.mp h)
  | some v => exact .inr ⟨v, find_some.mp h⟩

theorem toI32_spec (n : Int) : AsInt n (toI32 n) := by
  unfold AsInt toI32
  refine ⟨by omega, by omega, ?_⟩
  omega

theorem asInt_unique {n k l : Int} (h : AsInt n k) (h' : AsInt n l) : k = l := by
  unfold AsInt at h h'
  omega

/-- The value of a property is what it should be. -/
theorem uval_spec {j : JVal} {v : UVal} : uval j = v ↔ (NoMember j "Value" ∧ v = .missing) ∨ ∃ x, HasMember j "Value" x ∧ ValueOf x v := by
  have unum : ∀ (x : JVal) (l : List Str), (∃ n, x = .int n) ∨ (∃ b, x = .bool b) ∨ (∃ n, x = .flt n) → ¬ StringList x l := by
    rintro x l hx h
    have h := elements_iff.mp h
    rcases hx with ⟨n, rfl⟩ | ⟨n, rfl⟩ | ⟨n, rfl⟩ <;>
    · dsimp only [JVal.items] at h
      cases l with
      | nil => cases h
      | cons s l => injection h with h; cases h
  have listed : ∀ x : JVal, (∀ n, x ≠ .int n) → (∀ b, x ≠ .bool b) → (∀ n, x ≠ .flt n) →
      ((match x.strings with | .ok l => UVal.strs l | _ => .other) = v ↔ ValueOf x v) := by
    intro x h1 h2 h3
    constructor
    · intro h
      split at h
      · rename_i l hl
        rw [← h]
        exact .list x l (strings_ok.mp hl)
      · rename_i hl
        rw [← h]
        exact .other x (fun l hl' => hl l (strings_ok.mpr hl')) h1 h2 h3
    · intro h
      cases h with
      | int n => exact absurd rfl (h1 n)
      | «true» => exact absurd rfl (h2 true)
      | «false» => exact absurd rfl (h2 false)
      | float n => exact absurd rfl (h3 n)
      | huge n => exact absurd rfl (h3 n)
      | list _ l h => rw [strings_ok.mpr h]
      | other _ h =>
        split
        · rename_i l hl
          exact absurd (strings_ok.mp hl) (h l)
        · rfl
  unfold uval
  rcases member_or (j := j) (k := "Value") with h | ⟨x, h⟩
  · rw [find_none.mpr h]
    dsimp only
    constructor
    · intro e; exact .inl ⟨h, e.symm⟩
    · rintro (⟨-, e⟩ | ⟨x, hx, -⟩)
      · exact e.symm
      · exact (hx.not_no h).elim
  · rw [find_some.mpr h]
    have red : ((NoMember j "Value" ∧ v = .missing) ∨ ∃ x, HasMember j "Value" x ∧ ValueOf x v) ↔ ValueOf x v := by
      constructor
      · rintro (⟨hn, -⟩ | ⟨y, hy, hv⟩)
        · exact (h.not_no hn).elim
        · rw [h.unique hy]; exact hv
      · intro hv; exact .inr ⟨x, h, hv⟩
    rw [red]
    cases x with
    | int n =>
      dsimp only
      constructor
      · rintro rfl; exact .int _ _ (toI32_spec n)
      · intro hv
        cases hv with
        | int _ k hk => rw [asInt_unique hk (toI32_spec n)]
        | list _ l hl => exact absurd hl (unum _ l (.inl ⟨n, rfl⟩))
        | other _ _ h2 => exact absurd rfl (h2 n)
    | bool b =>
      dsimp only
      constructor
      · rintro rfl
        cases b
        · exact .false
        · exact .true
      · intro hv
        cases hv with
        | «true» => rfl
        | «false» => rfl
        | list _ l hl => exact absurd hl (unum _ l (.inr (.inl ⟨b, rfl⟩)))
        | other _ _ _ h3 => exact absurd rfl (h3 b)
    | flt n =>
      dsimp only
      constructor
      · rintro rfl
        split_ifs with hn
        · exact .float n hn
        · exact .huge n hn
      · intro hv
        cases hv with
        | float _ hn => rw [if_pos hn]
        | huge _ hn => rw [if_neg hn]
        | list _ l hl => exact absurd hl (unum _ l (.inr (.inr ⟨n, rfl⟩)))
        | other _ _ _ _ h4 => exact absurd rfl (h4 n)
    | null => exact listed .null (fun _ h => nomatch h) (fun _ h => nomatch h) (fun _ h => nomatch h)
    | str s => exact listed (.str s) (fun _ h => nomatch h) (fun _ h => nomatch h) (fun _ h => nomatch h)
    | arr l => exact listed (.arr l) (fun _ h => nomatch h) (fun _ h => nomatch h) (fun _ h => nomatch h)
    | obj m => exact listed (.obj m) (fun _ h => nomatch h) (fun _ h => nomatch h) (fun _ h => nomatch h)

/-- Running through the value of a property gives its strings. -/
theorem strsOf_uval (j : JVal) {m : List (Str × JVal)} (hj : j = .obj m) : strsOf (uval j) = (j.member "Value" >>= JVal.strings) := by
  subst hj
  unfold uval JVal.find JVal.member
  dsimp only
  cases hm : m.lookup "Value".toList with
  | none => rfl
  | some v =>
    dsimp only
    rw [Res.ok_bind]
    have fails : ∀ (l : List JVal), (∃ s, getStrs l = .ok s) ∨ getStrs l = .throw := by
      intro l
      induction l with
      | nil => exact .inl ⟨[], rfl⟩
      | cons j l ih =>
        unfold getStrs
        have hj : (∃ s, j.getStr = .ok s) ∨ j.getStr = .throw := by
          cases j with
          | str s => exact .inl ⟨s, rfl⟩
          | _ => exact .inr rfl
        rcases hj with ⟨s, hs⟩ | hs
        · rw [hs, Res.ok_bind]
          rcases ih with ⟨r, hr⟩ | hr
          · rw [hr]; exact .inl ⟨_, rfl⟩
          · rw [hr]; exact .inr rfl
        · rw [hs]; exact .inr rfl
    have gen : ∀ v : JVal, strsOf (match v.strings with | .ok l => UVal.strs l | _ => .other) = v.strings := by
      intro v
      rcases fails v.items with ⟨s, hs⟩ | hs
      · have e : v.strings = .ok s := hs
        rw [e]; rfl
      · have e : v.strings = .throw := hs
        rw [e]; rfl
    cases v with
    | int n => rfl
    | bool b => rfl
    | flt n => dsimp only; split_ifs <;> rfl
    | null => exact gen .null
    | str s => exact gen (.str s)
    | arr l => exact gen (.arr l)
    | obj m' => exact gen (.obj m')

/-- The check stored for a value that is converted to `int` later. -/
theorem numFn_uval (f : Int → PathFn) (j : JVal) {m : List (Str × JVal)} (hj : j = .obj m) : numFn f (uval j) = (j.member "Value" >>= fun v =>
    match v.getInt with
    | .ok n => .ok (f n)
    | .ub => .ok (.misfit true)
    | _ => .ok (.misfit false)) := by
  subst hj
  unfold uval JVal.find JVal.member
  dsimp only
  cases hm : m.lookup "Value".toList with
  | none => rfl
  | some v =>
    dsimp only
    rw [Res.ok_bind]
    have gen : ∀ v : JVal, numFn f (match v.strings with | .ok l => UVal.strs l | _ => .other) = .ok (.misfit false) := by
      intro v; split <;> rfl
    cases v with
    | int n => rfl
    | bool b => rfl
    | flt n => unfold getInt; dsimp only; split_ifs <;> rfl
    | null => exact gen .null
    | str s => exact gen (.str s)
    | arr l => exact gen (.arr l)
    | obj m' => exact gen (.obj m')

/-! ## Jobs -/

theorem setPropJ_of {j : JVal} {p : UProp} (h : PropOf j p) (job : Job) : setPropJ job j = setProp job p := by
  unfold setPropJ
  rw [member_ok.mpr h.name, Res.ok_bind]
  have hv : uval j = p.value := uval_spec.mpr h.value
  dsimp only [JVal.getStr]
  rw [Res.ok_bind, hv]
  rcases h.types with ⟨hn, ht⟩ | ⟨t, l, h1, h2, h3⟩
  · rw [find_none.mpr hn]
    dsimp only
    rw [← ht]
  · rw [find_some.mpr h1]
    dsimp only
    rw [strings_ok.mpr h2, Res.ok_bind, ← h3]

theorem propOf_of_ok {j : JVal} {job job' : Job} (h : setPropJ job j = .ok job') : ∃ p, PropOf j p := by
  unfold setPropJ at h
  obtain ⟨n, hn, h⟩ := bind_ok_iff.mp h
  obtain ⟨name, hs, h⟩ := bind_ok_iff.mp h
  have hn := member_ok.mp hn
  rw [getStr_ok.mp hs] at hn
  rcases member_or (j := j) (k := "Types") with ht | ⟨t, ht⟩
  · exact ⟨⟨name, none, uval j⟩, hn, .inl ⟨ht, rfl⟩, uval_spec.mp rfl⟩
  · rw [find_some.mpr ht] at h
    dsimp only at h
    obtain ⟨ts, hts, h⟩ := bind_ok_iff.mp h
    exact ⟨⟨name, some ts, uval j⟩, hn, .inr ⟨t, ts, ht, strings_ok.mp hts, rfl⟩, uval_spec.mp rfl⟩

theorem Spec.StringList.unique {j : JVal} {l l' : List Str} (h : StringList j l) (h' : StringList j l') : l = l' := by
  have := (strings_ok.mpr h).symm.trans (strings_ok.mpr h')
  injection this

theorem Spec.PropOf.unique {j : JVal} {p q : UProp} (h : PropOf j p) (h' : PropOf j q) : p = q := by
  obtain ⟨n1, t1, v1⟩ := p
  obtain ⟨n2, t2, v2⟩ := q
  have e1 := h.name.unique h'.name
  injection e1 with e1
  have e3 : v1 = v2 := (uval_spec.mpr h.value).symm.trans (uval_spec.mpr h'.value)
  have e2 : t1 = t2 := by
    rcases h.types with ⟨a, b⟩ | ⟨t, l, a, b, c⟩ <;> rcases h'.types with ⟨a', b'⟩ | ⟨t', l', a', b', c'⟩
    · exact b.trans b'.symm
    · exact (a'.not_no a).elim
    · exact (a.not_no a').elim
    · cases a.unique a'
      exact c.trans ((congrArg some (b.unique b')).trans c'.symm)
  dsimp only at e1 e2 e3
  rw [e1, e2, e3]

theorem forall₂_unique {α β : Type} {R : α → β → Prop} (hu : ∀ a b c, R a b → R a c → b = c) {l : List α} {x y : List β}
    (hx : List.Forall₂ R l x) (hy : List.Forall₂ R l y) : x = y := by
  induction hx generalizing y with
  | nil => cases hy; rfl
  | cons h _ ih =>
    cases hy with
    | cons h' t' => rw [hu _ _ _ h h', ih t']

theorem Spec.Elements.unique {j : JVal} {l l' : List JVal} (h : Elements j l) (h' : Elements j l') : l = l' :=
  (elements_iff.mp h).symm.trans (elements_iff.mp h')

theorem Spec.JobOf.unique {j : JVal} {u v : UJob} (h : JobOf j u) (h' : JobOf j v) : u = v := by
  obtain ⟨d1, s1, p1⟩ := u
  obtain ⟨d2, s2, p2⟩ := v
  have e1 := h.domain.unique h'.domain
  injection e1 with e1
  have e2 := h.subdomain.unique h'.subdomain
  injection e2 with e2
  obtain ⟨v, l, a, b, c⟩ := h.properties
  obtain ⟨v', l', a', b', c'⟩ := h'.properties
  cases a.unique a'
  cases b.unique b'
  have e3 := forall₂_unique (R := PropOf) (fun _ _ _ a b => Spec.PropOf.unique a b) c c'
  dsimp only at e1 e2 e3
  rw [e1, e2, e3]

theorem foldJ_of {l : List JVal} {ps : List UProp} (h : List.Forall₂ PropOf l ps) (job : Job) : l.foldlM setPropJ job = ps.foldlM setProp job := by
  induction h generalizing job with
  | nil => rfl
  | cons hp _ ih =>
    rw [List.foldlM_cons, List.foldlM_cons, setPropJ_of hp]
    cases setProp job _ with
    | ok job' => exact ih job'
    | _ => rfl

theorem foldJ_ok : ∀ (l : List JVal) (job job' : Job), l.foldlM setPropJ job = .ok job' → ∃ ps, List.Forall₂ PropOf l ps
  | [], _, _, _ => ⟨[], .nil⟩
  | j :: l, job, job', h => by
    rw [List.foldlM_cons] at h
    obtain ⟨x, hx, h⟩ := bind_ok_iff.mp h
    obtain ⟨p, hp⟩ := propOf_of_ok hx
    obtain ⟨ps, hps⟩ := foldJ_ok l x job' h
    exact ⟨p :: ps, .cons hp hps⟩

theorem setJobJ_of {j : JVal} {u : UJob} (h : JobOf j u) (prev : Job) : setJobJ prev j = setJob prev u := by
  obtain ⟨v, l, a, b, c⟩ := h.properties
  unfold setJobJ
  rw [member_ok.mpr h.domain, Res.ok_bind]
  dsimp only [JVal.getStr]
  rw [Res.ok_bind, member_ok.mpr h.subdomain, Res.ok_bind]
  dsimp only [JVal.getBool]
  rw [Res.ok_bind, member_ok.mpr a, Res.ok_bind, elements_iff.mp b, foldJ_of c]
  rfl

theorem jobOf_of_ok {j : JVal} {prev job : Job} (h : setJobJ prev j = .ok job) : ∃ u, JobOf j u := by
  unfold setJobJ at h
  obtain ⟨d, hd, h⟩ := bind_ok_iff.mp h
  obtain ⟨domain, hs, h⟩ := bind_ok_iff.mp h
  obtain ⟨s, hsub, h⟩ := bind_ok_iff.mp h
  obtain ⟨sub, hb, h⟩ := bind_ok_iff.mp h
  obtain ⟨ps, hps, h⟩ := bind_ok_iff.mp h
  obtain ⟨us, hus⟩ := foldJ_ok _ _ _ h
  have hd := member_ok.mp hd
  rw [getStr_ok.mp hs] at hd
  have hsub := member_ok.mp hsub
  rw [getBool_ok.mp hb] at hsub
  exact ⟨⟨domain, sub, us⟩, hd, hsub, ps, ps.items, member_ok.mp hps, elements_iff.mpr rfl, hus⟩

theorem jobLoopJ_of {fuel thr : Nat} {ctx : Context} {l : List JVal} {us : List UJob} (h : List.Forall₂ JobOf l us) (lg : LGraph) (job : Job) (t : Totals) :
    jobLoopJ fuel thr ctx lg job t l = jobLoop fuel thr ctx lg job t us := by
  induction h generalizing lg job t with
  | nil => rfl
  | cons hj _ ih =>
    unfold jobLoopJ jobLoop
    rw [setJobJ_of hj]
    cases setJob job _ with
    | ok job' =>
      rw [Res.ok_bind, Res.ok_bind]
      cases runJob fuel thr ctx lg t job' with
      | ok r => exact ih r.1 job' r.2
      | _ => rfl
    | _ => rfl

theorem jobLoopJ_ok {fuel thr : Nat} {ctx : Context} : ∀ (l : List JVal) (lg : LGraph) (job : Job) (t t' : Totals),
    jobLoopJ fuel thr ctx lg job t l = .ok t' → ∃ us, List.Forall₂ JobOf l us
  | [], _, _, _, _, _ => ⟨[], .nil⟩
  | j :: l, lg, job, t, t', h => by
    unfold jobLoopJ at h
    obtain ⟨job', hj, h⟩ := bind_ok_iff.mp h
    obtain ⟨r, hr, h⟩ := bind_ok_iff.mp h
    obtain ⟨u, hu⟩ := jobOf_of_ok hj
    obtain ⟨us, hus⟩ := jobLoopJ_ok l _ _ _ _ h
    exact ⟨u :: us, .cons hu hus⟩

/-! ## Metadata -/

theorem count_of {j : JVal} {k : String} {v : JVal} (h : HasMember j k v) : j.count k = 1 := by
  unfold JVal.count
  rw [find_some.mpr h]
  rfl

theorem zoneServersJ_of {exists_ : Str → Bool} {l : List JVal} {zs : List UZone} (h : List.Forall₂ ZoneOf l zs) :
    zoneServersJ exists_ l = zoneServers exists_ zs := by
  induction h with
  | nil => rfl
  | @cons j z l zs hz _ ih =>
    obtain ⟨f, hf, ef⟩ := hz.file
    obtain ⟨s, hs, es⟩ := hz.server
    unfold zoneServersJ zoneServers
    rw [if_neg (by rw [count_of hf]; simp), if_neg (by rw [count_of hs]; simp), member_ok.mpr hs, Res.ok_bind, ef, es]
    dsimp only [JVal.getStr]
    rw [Res.ok_bind, member_ok.mpr hf, Res.ok_bind]
    dsimp only [JVal.getStr]
    rw [Res.ok_bind, ih]

theorem sanityCheckJ_of {exists_ : Str → Bool} {j : JVal} {m : Meta} (h : MetaOf j m) : sanityCheckJ exists_ j = sanityCheck exists_ m := by
  obtain ⟨v, l, h1, h2, h3⟩ := h.top
  obtain ⟨w, k, zs, h4, h5, h6, h7⟩ := h.files
  unfold sanityCheckJ sanityCheck
  rw [if_neg (by rw [count_of h1]; simp), member_ok.mpr h1, Res.ok_bind, strings_ok.mpr h2, Res.ok_bind, if_neg (by rw [count_of h4]; simp),
    member_ok.mpr h4, Res.ok_bind, elements_iff.mp h5, zoneServersJ_of h6, h3, h7]

theorem loadZoneJ_of {thr : Nat} {lint : Bool} {read : Str → Str} {j : JVal} {z : UZone} (h : ZoneOf j z) (d : Loaded) :
    loadZoneJ thr lint read d j =
      loadZone thr lint d (z.fileName.getD []) (read (z.fileName.getD [])) (toLower (z.nameServer.getD [])) (toLower (z.origin.getD [])) := by
  obtain ⟨f, hf, ef⟩ := h.file
  obtain ⟨s, hs, es⟩ := h.server
  unfold loadZoneJ
  rw [member_ok.mpr hf, Res.ok_bind]
  dsimp only [JVal.getStr]
  rw [Res.ok_bind, member_ok.mpr hs, Res.ok_bind]
  dsimp only [JVal.getStr]
  rw [Res.ok_bind, ef, es]
  rcases h.origin with ⟨a, b⟩ | ⟨o, a, b⟩
  · rw [find_none.mpr a, b]
    rfl
  · rw [find_some.mpr a, b]
    rfl

theorem setContextJ_of {thr : Nat} {lint : Bool} {read : Str → Str} {exists_ : Str → Bool} {j : JVal} {m : Meta} (h : MetaOf j m) :
    setContextJ thr lint read exists_ j = setContext thr lint read exists_ m := by
  unfold setContextJ setContext
  rw [sanityCheckJ_of h]
  cases sanityCheck exists_ m with
  | ok u =>
    rw [Res.ok_bind, Res.ok_bind]
    obtain ⟨v, l, h1, h2, h3⟩ := h.top
    obtain ⟨w, k, zs, h4, h5, h6, h7⟩ := h.files
    rw [member_ok.mpr h1, Res.ok_bind, strings_ok.mpr h2, Res.ok_bind, member_ok.mpr h4, Res.ok_bind, elements_iff.mp h5, h3, h7]
    dsimp only [Option.getD_some]
    generalize ({ ctx := { top := l.map toLower } } : Loaded) = d
    clear h5 h7 h4
    induction h6 generalizing d with
    | nil => rfl
    | cons hz _ ih =>
      rw [List.foldlM_cons, List.foldlM_cons, loadZoneJ_of hz]
      cases loadZone thr lint d _ _ _ _ with
      | ok d' => exact ih d'
      | _ => rfl
  | _ => rfl

theorem zoneServersJ_ok {exists_ : Str → Bool} : ∀ (l : List JVal) (r : List Str), zoneServersJ exists_ l = .ok r →
    ∀ j ∈ l, (∃ f, HasMember j "FileName" (.str f)) ∧ ∃ s, HasMember j "NameServer" (.str s)
  | [], _, _ => fun _ h => nomatch h
  | z :: l, r, h => by
    unfold zoneServersJ at h
    by_cases h1 : z.count "FileName" ≠ 1
    · rw [if_pos h1] at h; cases h
    rw [if_neg h1] at h
    by_cases h2 : z.count "NameServer" ≠ 1
    · rw [if_pos h2] at h; cases h
    rw [if_neg h2] at h
    obtain ⟨n, hn, h⟩ := bind_ok_iff.mp h
    obtain ⟨ns, hns, h⟩ := bind_ok_iff.mp h
    obtain ⟨f, hf, h⟩ := bind_ok_iff.mp h
    obtain ⟨file, hfile, h⟩ := bind_ok_iff.mp h
    have hn := member_ok.mp hn
    rw [getStr_ok.mp hns] at hn
    have hf := member_ok.mp hf
    rw [getStr_ok.mp hfile] at hf
    by_cases he : (!exists_ file) = true
    · rw [if_pos he] at h; cases h
    rw [if_neg he] at h
    obtain ⟨r', hr, -⟩ := bind_ok_iff.mp h
    intro j hj
    rcases List.mem_cons.mp hj with rfl | hj
    · exact ⟨⟨file, hf⟩, ns, hn⟩
    · exact zoneServersJ_ok l r' hr j hj

theorem zones_ok {thr : Nat} {lint : Bool} {read : Str → Str} : ∀ (l : List JVal) (d d' : Loaded),
    l.foldlM (loadZoneJ thr lint read) d = .ok d' → ∃ zs, List.Forall₂ ZoneOf l zs
  | [], _, _, _ => ⟨[], .nil⟩
  | j :: l, d, d', h => by
    rw [List.foldlM_cons] at h
    obtain ⟨x, hx, h⟩ := bind_ok_iff.mp h
    obtain ⟨zs, hzs⟩ := zones_ok l x d' h
    unfold loadZoneJ at hx
    obtain ⟨f, hf, hx⟩ := bind_ok_iff.mp hx
    obtain ⟨file, hfile, hx⟩ := bind_ok_iff.mp hx
    obtain ⟨n, hn, hx⟩ := bind_ok_iff.mp hx
    obtain ⟨ns, hns, hx⟩ := bind_ok_iff.mp hx
    have hn := member_ok.mp hn
    rw [getStr_ok.mp hns] at hn
    have hf := member_ok.mp hf
    rw [getStr_ok.mp hfile] at hf
    rcases member_or (j := j) (k := "Origin") with ho | ⟨o, ho⟩
    · exact ⟨⟨some file, some ns, none⟩ :: zs, .cons ⟨⟨file, hf, rfl⟩, ⟨ns, hn, rfl⟩, .inl ⟨ho, rfl⟩⟩ hzs⟩
    · rw [find_some.mpr ho] at hx
      dsimp only at hx
      obtain ⟨origin, hor, -⟩ := bind_ok_iff.mp hx
      rw [getStr_ok.mp hor] at ho
      exact ⟨⟨some file, some ns, some origin⟩ :: zs, .cons ⟨⟨file, hf, rfl⟩, ⟨ns, hn, rfl⟩, .inr ⟨origin, ho, rfl⟩⟩ hzs⟩

theorem metaOf_of_ok {thr : Nat} {lint : Bool} {read : Str → Str} {exists_ : Str → Bool} {j : JVal} {d : Loaded}
    (h : setContextJ thr lint read exists_ j = .ok d) : ∃ m, MetaOf j m := by
  unfold setContextJ at h
  obtain ⟨-, -, h⟩ := bind_ok_iff.mp h
  obtain ⟨t, ht, h⟩ := bind_ok_iff.mp h
  obtain ⟨tops, htops, h⟩ := bind_ok_iff.mp h
  obtain ⟨z, hz, h⟩ := bind_ok_iff.mp h
  obtain ⟨zs, hzs⟩ := zones_ok _ _ _ h
  exact ⟨⟨some tops, some zs⟩, ⟨t, tops, member_ok.mp ht, strings_ok.mp htops, rfl⟩, z, z.items, zs, member_ok.mp hz, elements_iff.mpr rfl, hzs, rfl⟩

theorem Spec.ZoneOf.unique {j : JVal} {a b : UZone} (h : ZoneOf j a) (h' : ZoneOf j b) : a = b := by
  obtain ⟨f1, n1, o1⟩ := a
  obtain ⟨f2, n2, o2⟩ := b
  obtain ⟨x, hx, ex⟩ := h.file
  obtain ⟨x', hx', ex'⟩ := h'.file
  obtain ⟨y, hy, ey⟩ := h.server
  obtain ⟨y', hy', ey'⟩ := h'.server
  have e1 := hx.unique hx'
  injection e1 with e1
  have e2 := hy.unique hy'
  injection e2 with e2
  dsimp only at ex ex' ey ey'
  have e3 : o1 = o2 := by
    rcases h.origin with ⟨a, b⟩ | ⟨o, a, b⟩ <;> rcases h'.origin with ⟨a', b'⟩ | ⟨o', a', b'⟩
    · exact b.trans b'.symm
    · exact (a'.not_no a).elim
    · exact (a.not_no a').elim
    · have e := a.unique a'
      injection e with e
      exact b.trans ((congrArg some e).trans b'.symm)
  rw [ex, ex', ey, ey', e1, e2, e3]

theorem Spec.MetaOf.unique {j : JVal} {a b : Meta} (h : MetaOf j a) (h' : MetaOf j b) : a = b := by
  obtain ⟨t1, z1⟩ := a
  obtain ⟨t2, z2⟩ := b
  obtain ⟨v, l, h1, h2, h3⟩ := h.top
  obtain ⟨w, k, zs, h4, h5, h6, h7⟩ := h.files
  obtain ⟨v', l', h1', h2', h3'⟩ := h'.top
  obtain ⟨w', k', zs', h4', h5', h6', h7'⟩ := h'.files
  cases h1.unique h1'
  cases h4.unique h4'
  cases h2.unique h2'
  cases h5.unique h5'
  cases forall₂_unique (R := ZoneOf) (fun _ _ _ a b => Spec.ZoneOf.unique a b) h6 h6'
  dsimp only at h3 h3' h7 h7'
  rw [h3, h3', h7, h7']

end Groot
