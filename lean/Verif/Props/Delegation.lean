import Verif.Lemmas.Delegation

/-!
# C82: problems with delegations, for the names the user asked about

`Consulted w m s`: the server `s` is consulted about the name `m` — it is a top server, or a server consulted refers to it (`Refers`).  A delegation
is lame if the server referred to has zone files, but none for the name.  `Delegated w m s t id id'`: the zone `id` of `s` delegates `m` itself to `t`,
whose zone `id'` has its own NS records there.
-/

namespace Groot
open Spec

section
variable {ctx : Context} {w : World} {xs : List (RR × Nat × Nat)} {job : Job}

theorem alike_plain {v v' : Violation} (h : Alike v v') (hn : ∀ a b us, v ≠ .infiniteDname a b us) : v' = v := by
  rcases h with rfl | ⟨a, b, us, _, e, _⟩
  · rfl
  · exact absurd e (hn a b us)

/-- The kind of the first answer. -/
def headTag (l : List Answer) : Option Tag := l.head?.map (fun a => a.tag)

/-- A resolution of a class, moved to one of its members and to the types of the job. -/
theorem Setting.putTo (S : Setting ctx w xs job) {q : EC} (hqt : q.types = job.types ∨ q.types = ~~~0) {m : Name} {lb : Label} {rest : Name}
    (e : (ask q).member lb rest = ⟨m, q.types, false⟩) (hf : Fresh w (ask q) lb rest) {s : Str} {a : Ask} (h : PutTo w (ask q) s a) :
    ∃ b, PutTo w ⟨m, job.types, false⟩ s b ∧ b.name = (a.member lb rest).name ∧ b.below = (a.member lb rest).below := by
  obtain ⟨p, sd, hr⟩ := h
  have h1 := C28_class_to_member w (ask q) lb rest hf _ hr
  rw [e] at h1
  have hqo : AsksOther q.types := by
    rcases hqt with e | e <;> rw [e]
    · exact S.types
    · exact all_other
  obtain ⟨p', h2, h3⟩ := route_retype hqo S.types h1 (b := ⟨m, job.types, false⟩) ⟨rfl, rfl, .inl ⟨rfl, rfl⟩⟩
  obtain ⟨z, y, e1, e2, e3, e4⟩ := forall₂_last h3 (by simp)
  obtain ⟨pre, rfl⟩ := List.getLast?_eq_some_iff.mp e2
  obtain ⟨ys, ya, yd⟩ := y
  simp at e1
  subst e1
  dsimp only at e3 e4
  subst e3
  exact ⟨ya, ⟨pre, yd, h2⟩, e4.1.symm, e4.2.1.symm⟩

/-! ### Lame delegations -/

/-- **C82** If a server consulted about a name the job is about refers to a server that has zone files but none for the name, the run reports this, with
both servers, under the class of the name. -/
theorem C82_lame_complete (S : Setting ctx w xs job) {thr thr' fuel : Nat} {g' : LGraph} {ts : List Task} {vs : List Violation}
    (hrun : Driver.runSequential fuel thr ctx (labelGraph thr' xs) job = .ok (g', ts, vs))
    (hf : PathFn.lame ∈ job.pathFns) {m : Name} (hm : InScope job m) (hs : Short m)
    {s t : Str} (hc : Consulted w m s) (hr : Refers w m s t) (hl : w.Listed t) (he : ¬ Encloses w t m) :
    ∃ q ∈ classes ts, Stands (xs.map (·.1)) q m ∧ .lame (showQuery q) s t ∈ vs := by
  obtain ⟨q, hq, hst⟩ := S.covered hrun m hm
  obtain ⟨hqt, cs, g, l, st, hP, hsub, _⟩ := S.class_run hrun q hq
  obtain ⟨lb, rest, e, hfr⟩ := member_of_stands S.wellFormed S.all S.noDname' hst hs
  have hsay : ∀ s as, Says w s (ask q) as ↔ Says w s ⟨m, q.types, false⟩ as := by
    intro s as; rw [← e]; exact says_member (hfr.good .start) s as
  refine ⟨q, hq, hst, ?_⟩
  have hcon := (consulted_route S.wellFormed (ts := q.types) hs (a := ask q) (fun s as => (hsay s as).mpr) (.referred s t hc hr)).1
  have hend := ends_of_says (w := w) (a := ask q) (as := [⟨.REFUSED, q.types, []⟩]) hcon
    (fun as' h => refuses hs hl he _ ((hsay _ _).mp h)) (fun x hx => by rw [List.mem_singleton.mp hx]; exact ⟨by simp, by simp⟩)
  obtain ⟨_, pre, sd, sd', hcomp⟩ := complete_of_consulted S.wellFormed (ts := q.types) hs (a := ask q) (fun s as => (hsay s as).mpr) hc hr hend
  have hA := answering_saidBy hP.inv
  have h1 : Reached w (ask q) s (ask q) := reached_route .start hcomp.route (s, ask q, sd) (by simp)
  have h2 : Reached w (ask q) t (ask q) := reached_route .start hcomp.route (t, ask q, sd') (by simp)
  have hs0 := route_server S.wellFormed hcomp.route (s, ask q, sd) (by simp)
  obtain ⟨id, en, us, _, _, _, hsr, _⟩ := hr.says hs q.types
  have hsS := says_determined ((hsay _ _).mpr hsr) (hA _ _ h1 hs0) (by simp) (by simp)
  have hsT := refuses hs hl he _ ((hsay _ _).mp (hA _ _ h2 hcon))
  obtain ⟨v', hv', hal⟩ := (hP.pathOutcome S.wellFormed S.pathFns).complete _ hf _ (.inl hcomp) (.lame (showQuery q) s t)
    ⟨transcript (saidBy g) pre, ⟨s, ask q, saidBy g s (ask q)⟩, ⟨t, ask q, saidBy g t (ask q)⟩, [], by simp [transcript],
      (congrArg headTag hsS).symm, congrArg headTag hsT, rfl, by
      rw [show showAsk (ask q) = showQuery q from toStr_of_ask (ask_ec _)]⟩
  rw [alike_plain hal (fun _ _ _ e => nomatch e)] at hv'
  exact hsub _ hv'

/-- **C82** A report of a lame delegation is true of every name of some class of the job: in the course of its resolution a question is put to the server,
for the name itself or (if an alias leads there) the name the class is called by, and the delegation is lame for the name in question. -/
theorem C82_lame_sound (S : Setting ctx w xs job) {thr thr' fuel : Nat} {g' : LGraph} {ts : List Task} {vs : List Violation}
    (hrun : Driver.runSequential fuel thr ctx (labelGraph thr' xs) job = .ok (g', ts, vs)) {n s t : Str} (hv : .lame n s t ∈ vs) :
    PathFn.lame ∈ job.pathFns ∧ ∃ q ∈ classes ts, n = showQuery q ∧ ∀ m, Stands (xs.map (·.1)) q m → Short m →
      ∃ a, PutTo w ⟨m, job.types, false⟩ s a ∧ (a.name = m ∨ a.name = q.name) ∧ LameFor w a.name s t := by
  obtain ⟨q, hq, cs, g, l, st, hP, _, hv⟩ := S.source hrun hv (fun _ _ e => nomatch e)
  obtain ⟨f, hf, p, hp, hrep⟩ := (hP.pathOutcome S.wellFormed S.pathFns).sound _ hv trivial
  have hfe : f = .lame := by
    cases f <;> simp only [Reports] at hrep
    case hops => cases hrep.2.2
    case rewrites => obtain ⟨_, _, _, h⟩ := hrep; cases h
    case delegation => obtain ⟨_, _, _, _, _, _, _, _, ⟨_, h⟩ | ⟨_, h⟩⟩ := hrep <;> cases h
    case infiniteDname => obtain ⟨_, _, _, _, _, _, _, _, _, h⟩ := hrep; cases h
    case lame => rfl
    case queryRewrite => obtain ⟨_, _, _, _, _, _, _, h⟩ := hrep; cases h
    case nsContact => obtain ⟨_, _, _, h⟩ := hrep; cases h
    case blackholing => obtain ⟨_, _, _, _, _, _, _, _, h⟩ := hrep; cases h
    case allAliases => obtain ⟨_, _, _, _, _, _, _, _, _, h⟩ := hrep; cases h
    case dnameLength => obtain ⟨_, _, _, _, h⟩ := hrep; cases h
  subst hfe
  obtain ⟨pre, x, y, post, htr, hx, hy, hyn, e⟩ := hrep
  injection e with e1 e2 e3
  subst e2 e3
  refine ⟨hf, q, hq, e1.trans (toStr_of_ask (ask_ec _)), fun m hm hs => ?_⟩
  obtain ⟨lb, rest, e, hfr⟩ := member_of_stands S.wellFormed S.all S.noDname' hm hs
  obtain ⟨hput, hx0, hy0, hsx, hsy, sd, hst⟩ := examined_pair S.wellFormed (answering_saidBy hP.inv) hp htr
  obtain ⟨p', sd', hroute⟩ := hput
  have hre := reached_of_route hroute
  have hya := (step_referred hx0 hsx hx hst).1
  obtain ⟨b, hb1, hb2, _⟩ := S.putTo (S.class_run hrun q hq).1 e hfr ⟨p', sd', hroute⟩
  have hst' := step_member (hfr.good hre) (hfr.good (.step _ _ _ _ _ hre hst)) hst
  have hsx' := (says_member (hfr.good hre) _ _).mp hsx
  have hsy' := (says_member (hfr.good (.step _ _ _ _ _ hre hst)) _ _).mp hsy
  have href := (step_referred hx0 hsx' hx hst').2
  rw [← hb2] at href
  refine ⟨b, hb1, ?_, href, ?_⟩
  · rw [hb2, ← hya]
    cases hbl : y.ask.below with
    | false => rw [member_exact hbl]; exact .inr hyn
    | true =>
      left
      have := below_same S.noDnameW (.step _ _ _ _ _ hre hst) hbl
      rw [this, e]
  · rw [hb2, ← hya]
    exact refused_of_says hsy' hy

/-! ### Inconsistent delegations -/

theorem Spec.Delegated.known {all : List RR} (hall : ∀ id, ∀ r ∈ w.log id, r ∈ all) {m : Name} {s t : Str} {id id' : Nat} (h : Delegated w m s t id id') :
    Known all m := by
  obtain ⟨r, h1, h2, h3⟩ := h.own
  exact .inr ⟨r, hall _ r h1, by rw [h3]; simp, .inl ⟨[], by simp [h2]⟩⟩

/-- A known name has a class of its own. -/
theorem Setting.alone (S : Setting ctx w xs job) {thr thr' fuel : Nat} {g' : LGraph} {ts : List Task} {vs : List Violation}
    (hrun : Driver.runSequential fuel thr ctx (labelGraph thr' xs) job = .ok (g', ts, vs)) {q : EC} (hq : q ∈ Spec.classes ts) {m : Name}
    (hm : Stands (xs.map (·.1)) q m) (hk : Known (xs.map (·.1)) m) : ask q = ⟨m, job.types, false⟩ ∧ showQuery q = present m := by
  have hex : q.excluded = none := by
    unfold Stands at hm
    cases he : q.excluded with
    | none => rfl
    | some _ =>
      rw [he] at hm
      obtain ⟨l, rest, e, h⟩ := hm
      exact absurd (known_closed (n := q.name ++ [l]) (rest := rest) (by rw [e] at hk; simpa using hk)) h
  have hn : m = q.name := by unfold Stands at hm; rw [hex] at hm; exact hm
  have hu : ¬ Unexpected job (xs.map (·.1)) m := by
    rintro ⟨_, _, n, l, rest, e, _, h, _⟩
    exact absurd (known_closed (n := n ++ [l]) (rest := rest) (by rw [e] at hk; simpa using hk)) h
  have ht : q.types = job.types := by
    have := (S.asked hrun hq hm).1
    unfold question at this
    rw [if_neg hu] at this
    injection this with _ h _
    exact h.symm
  refine ⟨?_, ?_⟩
  · unfold ask; rw [hex, ht, ← hn]; rfl
  · unfold showQuery; rw [hex, hn]

/-- What parent and child answer about a name delegated. -/
theorem Setting.delegated (S : Setting ctx w xs job) {thr thr' fuel : Nat} {g' : LGraph} {ts : List Task} {vs : List Violation}
    (hrun : Driver.runSequential fuel thr ctx (labelGraph thr' xs) job = .ok (g', ts, vs))
    (hf : PathFn.delegation ∈ job.pathFns) (hns : Member job.types .NS) {m : Name} (hm : InScope job m) (hs : Short m)
    {s t : Str} {id id' : Nat} (hc : Consulted w m s) (hd : Delegated w m s t id id') {b : Bool}
    (hb : b = false ∧ ServersDiffer w m id id' ∨ b = true ∧ AddressesDiffer w m job.types id id') :
    .delegation (present m) s t b ∈ vs := by
  obtain ⟨q, hq, hst⟩ := S.covered hrun m hm
  obtain ⟨hqt, cs, g, l, st, hP, hsub, _⟩ := S.class_run hrun q hq
  obtain ⟨e, hshow⟩ := S.alone hrun hq hst (hd.known S.all)
  have hr : Refers w m s t := ⟨id, m, hd.parent, hd.at_, hd.cut, hd.named⟩
  obtain ⟨found, missing, hf0, hfns, hsayT⟩ := hd.says hs hns
  have hchild : dataAnswers found missing (dataFor (w.log id') (Ask.ec ⟨m, job.types, false⟩) m true) =
      ⟨.ANS, found, dataFor (w.log id') (Ask.ec ⟨m, job.types, false⟩) m true⟩ :: (if missing = 0 then [] else [⟨.ANS, missing, []⟩]) := by
    unfold dataAnswers; rw [if_neg hf0]; rfl
  have hdet : ∀ as', Says w t ⟨m, job.types, false⟩ as' → as' = dataAnswers found missing (dataFor (w.log id') (Ask.ec ⟨m, job.types, false⟩) m true) :=
    fun as' h => (says_determined hsayT h (by rw [hchild]; simp) (by rw [hchild]; simp)).symm
  have hcon := (consulted_route S.wellFormed (ts := job.types) hs (a := ⟨m, job.types, false⟩) (fun _ _ h => h) (.referred s t hc hr)).1
  have hend := ends_of_says (w := w) hcon hdet (fun x hx => by
    rw [hchild] at hx
    rcases List.mem_cons.mp hx with rfl | hx
    · exact ⟨by simp, by simp⟩
    · split at hx
      · cases hx
      · rw [List.mem_singleton.mp hx]; exact ⟨by simp, by simp⟩)
  obtain ⟨_, pre, sd, sd', hcomp⟩ := complete_of_consulted S.wellFormed (ts := job.types) hs (a := ⟨m, job.types, false⟩) (fun _ _ h => h) hc hr hend
  have hA := answering_saidBy hP.inv
  rw [e] at hA
  have h1 : Reached w ⟨m, job.types, false⟩ s ⟨m, job.types, false⟩ := reached_route .start hcomp.route (s, ⟨m, job.types, false⟩, sd) (by simp)
  have h2 : Reached w ⟨m, job.types, false⟩ t ⟨m, job.types, false⟩ := reached_route .start hcomp.route (t, ⟨m, job.types, false⟩, sd') (by simp)
  have hs0 := route_server S.wellFormed hcomp.route (s, ⟨m, job.types, false⟩, sd) (by simp)
  obtain ⟨us, hus⟩ := exists_types (fun t => HasType (w.log id) m t)
  have hsayS : Says w s ⟨m, job.types, false⟩ [⟨.REF, us, withGlue (w.log id) (nsAt (w.log id) m)⟩] :=
    .zone id _ hs hd.parent (.referral m us hd.at_ hd.cut hus)
  have hsS := says_determined hsayS (hA _ _ h1 hs0) (by simp) (by simp)
  have hsT := hdet _ (hA _ _ h2 hcon)
  rw [hchild] at hsT
  let x : Visit := ⟨s, ⟨m, job.types, false⟩, saidBy g s ⟨m, job.types, false⟩⟩
  let y : Visit := ⟨t, ⟨m, job.types, false⟩, saidBy g t ⟨m, job.types, false⟩⟩
  have hxr : x.records = withGlue (w.log id) (nsAt (w.log id) m) := by
    show (List.head? (saidBy g s _) |>.map (·.rrs)).getD [] = _
    rw [← hsS]; rfl
  have hyr : y.records = dataFor (w.log id') (Ask.ec ⟨m, job.types, false⟩) m true := by
    show (List.head? (saidBy g t _) |>.map (·.rrs)).getD [] = _
    rw [hsT]; rfl
  have hxn : nsOf x.records = nsAt (w.log id) m := by rw [hxr]; exact nsOf_withGlue (fun r hr => (mem_nsAt hr).2.2)
  have hyn : nsOf y.records = nsAt (w.log id') m := by rw [hyr]; exact nsOf_dataFor (q := Ask.ec ⟨m, job.types, false⟩) hns
  have hxa : addressesOf x.records = glueAt (w.log id) m := by rw [hxr]; exact addressesOf_withGlue (fun r hr => (mem_nsAt hr).2.2)
  have hya : addressesOf y.records = ownAddresses (w.log id') m job.types ++ glueAt (w.log id') m := by
    rw [hyr]; exact addressesOf_dataFor (q := Ask.ec ⟨m, job.types, false⟩) hns
  obtain ⟨y0, ys, hy0, hy0n⟩ : ∃ y0 ys, nsAt (w.log id') m = y0 :: ys ∧ y0.name = m := by
    obtain ⟨z, hz, e1, e2⟩ := hd.own
    have : z ∈ nsAt (w.log id') m := by
      unfold nsAt recordsAt
      exact List.mem_filter.mpr ⟨List.mem_filter.mpr ⟨hz, by simpa using e1⟩, by simpa using e2⟩
    obtain ⟨y0, ys, h⟩ := List.exists_cons_of_ne_nil (List.ne_nil_of_mem this)
    exact ⟨y0, ys, h, (mem_nsAt (log := w.log id') (by rw [h]; exact List.mem_cons_self)).2.1⟩
  have hyne : y.records ≠ [] := by
    intro h0
    rw [h0] at hyn
    rw [hy0] at hyn
    cases hyn
  have hcomp' : Complete w (ask q) (pre ++ [(s, ⟨m, job.types, false⟩, sd), (t, ⟨m, job.types, false⟩, sd')]) := e ▸ hcomp
  have hrep : Reports (ask q) (transcript (saidBy g) (pre ++ [(s, ⟨m, job.types, false⟩, sd), (t, ⟨m, job.types, false⟩, sd')]))
      (.delegation (present m) s t b) .delegation := by
    refine ⟨transcript (saidBy g) pre, x, y, [], (by simp [transcript, x, y]), ⟨(congrArg headTag hsS).symm,
        congrArg headTag hsT, ⟨_, congrArg (fun l : List Answer => l.head?) hsT, hfns⟩, hyne, (by rw [e])⟩, ?_, ?_, ?_⟩
    · intro pre' x' y' post' h
      have := congrArg List.length h
      simp only [List.length_append, List.length_cons, List.length_nil] at this
      omega
    · rw [hxn, hyn]
      intro z hz z' hz'
      rw [(mem_nsAt (List.mem_of_mem_head? hz)).2.1, (mem_nsAt (List.mem_of_mem_head? hz')).2.1]
    · have hsh : showAsk (ask q) = present m := (toStr_of_ask (ask_ec _)).trans hshow
      rw [hxn, hyn, hxa, hya, hsh]
      rcases hb with ⟨rfl, hb⟩ | ⟨rfl, hb⟩
      · exact .inl ⟨hb, rfl⟩
      · refine .inr ⟨?_, rfl⟩
        unfold AddressesDiffer at hb
        rw [hy0]
        unfold within
        dsimp only
        rw [hy0n]
        exact hb
  obtain ⟨v', hv', hal⟩ := (hP.pathOutcome S.wellFormed S.pathFns).complete _ hf _ (.inl hcomp') _ hrep
  rw [alike_plain hal (fun _ _ _ e => nomatch e)] at hv'
  exact hsub _ hv'

/-- **C82** If a server consulted about a name the job is about delegates it, and names other servers than the child's own zone does, the run reports
this, with both servers. -/
theorem C82_servers_complete (S : Setting ctx w xs job) {thr thr' fuel : Nat} {g' : LGraph} {ts : List Task} {vs : List Violation}
    (hrun : Driver.runSequential fuel thr ctx (labelGraph thr' xs) job = .ok (g', ts, vs))
    (hf : PathFn.delegation ∈ job.pathFns) (hns : Member job.types .NS) {m : Name} (hm : InScope job m) (hs : Short m)
    {s t : Str} {id id' : Nat} (hc : Consulted w m s) (hd : Delegated w m s t id id') (hb : ServersDiffer w m id id') :
    .delegation (present m) s t false ∈ vs := S.delegated hrun hf hns hm hs hc hd (.inl ⟨rfl, hb⟩)

/-- **C82** The same for the addresses of the servers. -/
theorem C82_addresses_complete (S : Setting ctx w xs job) {thr thr' fuel : Nat} {g' : LGraph} {ts : List Task} {vs : List Violation}
    (hrun : Driver.runSequential fuel thr ctx (labelGraph thr' xs) job = .ok (g', ts, vs))
    (hf : PathFn.delegation ∈ job.pathFns) (hns : Member job.types .NS) {m : Name} (hm : InScope job m) (hs : Short m)
    {s t : Str} {id id' : Nat} (hc : Consulted w m s) (hd : Delegated w m s t id id') (hb : AddressesDiffer w m job.types id id') :
    .delegation (present m) s t true ∈ vs := S.delegated hrun hf hns hm hs hc hd (.inr ⟨rfl, hb⟩)

/-- **C82** A report of an inconsistent delegation is true: the zones of the two servers disagree about the name of some class of the job, and the
resolution of every name of the class puts a question about it to the parent. -/
theorem C82_delegation_sound (S : Setting ctx w xs job) {thr thr' fuel : Nat} {g' : LGraph} {ts : List Task} {vs : List Violation}
    (hrun : Driver.runSequential fuel thr ctx (labelGraph thr' xs) job = .ok (g', ts, vs)) {n s t : Str} {b : Bool} (hv : .delegation n s t b ∈ vs) :
    PathFn.delegation ∈ job.pathFns ∧ ∃ q ∈ classes ts, n = showQuery q ∧ Member q.types .NS ∧
      (∃ id id', Delegated w q.name s t id id' ∧ (b = false → ServersDiffer w q.name id id') ∧ (b = true → AddressesDiffer w q.name q.types id id')) ∧
      ∀ m, Stands (xs.map (·.1)) q m → Short m → ∃ a, a.name = q.name ∧ PutTo w ⟨m, job.types, false⟩ s a := by
  obtain ⟨q, hq, cs, g, l, st, hP, _, hv⟩ := S.source hrun hv (fun _ _ e => nomatch e)
  obtain ⟨f, hf, p, hp, hrep⟩ := (hP.pathOutcome S.wellFormed S.pathFns).sound _ hv trivial
  have hfe : f = .delegation := by
    cases f <;> simp only [Reports] at hrep
    case hops => cases hrep.2.2
    case rewrites => obtain ⟨_, _, _, h⟩ := hrep; cases h
    case delegation => rfl
    case infiniteDname => obtain ⟨_, _, _, _, _, _, _, _, _, h⟩ := hrep; cases h
    case lame => obtain ⟨_, _, _, _, _, _, _, _, h⟩ := hrep; cases h
    case queryRewrite => obtain ⟨_, _, _, _, _, _, _, h⟩ := hrep; cases h
    case nsContact => obtain ⟨_, _, _, h⟩ := hrep; cases h
    case blackholing => obtain ⟨_, _, _, _, _, _, _, _, h⟩ := hrep; cases h
    case allAliases => obtain ⟨_, _, _, _, _, _, _, _, _, h⟩ := hrep; cases h
    case dnameLength => obtain ⟨_, _, _, _, h⟩ := hrep; cases h
  subst hfe
  obtain ⟨pre, x, y, post, htr, ⟨hx, hy, hyns, hyr, hyn⟩, _, hown, hor⟩ := hrep
  obtain ⟨hput, hx0, hy0, hsx, hsy, sd, hst⟩ := examined_pair S.wellFormed (answering_saidBy hP.inv) hp htr
  obtain ⟨hya, id, e, us, _, h2, h3, h4, hxs, h5⟩ := step_named hx0 hsx hx hst
  have hqt := (S.class_run hrun q hq).1
  have hqo : AsksOther (ask q).types := by
    show AsksOther q.types
    rcases hqt with e | e <;> rw [e]
    · exact S.types
    · exact all_other
  have htypes : ∀ t, t ≠ .CNAME → (Member y.ask.types t ↔ Member q.types t) := by
    intro t ht; rw [hya]; exact hput.types t ht
  have hoc : AsksOther y.ask.types := by
    obtain ⟨t, h1, h2⟩ := hqo
    exact ⟨t, h1, (htypes t h1).mpr h2⟩
  have hxr : x.records = withGlue (w.log id) (nsAt (w.log id) e) := by
    show (x.said.head?.map (·.rrs)).getD [] = _
    rw [hxs]; rfl
  have hxn : nsOf x.records = nsAt (w.log id) e := by rw [hxr]; exact nsOf_withGlue (fun r hr => (mem_nsAt hr).2.2)
  have hxa : addressesOf x.records = glueAt (w.log id) e := by rw [hxr]; exact addressesOf_withGlue (fun r hr => (mem_nsAt hr).2.2)
  have hP0 : nsAt (w.log id) e ≠ [] := by obtain ⟨r, hr, _⟩ := h5; exact List.ne_nil_of_mem hr
  obtain ⟨h6, h7, h8, id', h9, h10, h11, h12, h13⟩ := own_of_says hsy hoc hy hyns hyr hP0 (p := e) (fun r hr => (mem_nsAt hr).2.1)
    (by rw [hya]; exact h3.1) (hxn ▸ hown)
  have hqn : y.ask.name = q.name := hyn
  rw [hqn] at h7 h9 h10 h11 h12 h13
  rw [← hya, hqn] at h2 h3
  rw [h7] at h3 h4 h5 hxr hxn hxa
  have hyr' : y.records = dataFor (w.log id') y.ask.ec q.name true := h13
  have hynn : nsOf y.records = nsAt (w.log id') q.name := by rw [hyr']; exact nsOf_dataFor (q := y.ask.ec) h8
  have hyaa : addressesOf y.records = ownAddresses (w.log id') q.name q.types ++ glueAt (w.log id') q.name := by
    rw [hyr', addressesOf_dataFor (q := y.ask.ec) h8]
    congr 1
    unfold ownAddresses
    apply List.filter_congr
    intro r _
    rw [decide_eq_decide]
    refine and_congr_right (fun hr => ?_)
    exact htypes _ (by rcases hr with h | h <;> rw [h] <;> simp)
  have hshow : showAsk (ask q) = showQuery q := toStr_of_ask (ask_ec _)
  obtain ⟨y1, ys, hy1, hy1n⟩ : ∃ y0 ys, nsAt (w.log id') q.name = y0 :: ys ∧ y0.name = q.name := by
    obtain ⟨z, hz, e1, e2⟩ := h12
    have : z ∈ nsAt (w.log id') q.name := by
      unfold nsAt recordsAt
      exact List.mem_filter.mpr ⟨List.mem_filter.mpr ⟨hz, by simpa using e1⟩, by simpa using e2⟩
    obtain ⟨y0, ys, h⟩ := List.exists_cons_of_ne_nil (List.ne_nil_of_mem this)
    exact ⟨y0, ys, h, (mem_nsAt (log := w.log id') (by rw [h]; exact List.mem_cons_self)).2.1⟩
  rw [hxn, hynn, hxa, hyaa, hshow] at hor
  have key : n = showQuery q ∧ s = x.server ∧ t = y.server ∧ (b = false → ServersDiffer w q.name id id') ∧
      (b = true → AddressesDiffer w q.name q.types id id') := by
    rcases hor with ⟨h14, h15⟩ | ⟨h14, h15⟩ <;> injection h15 with e1 e2 e3 e4 <;> subst e4
    · exact ⟨e1, e2, e3, fun _ => h14, fun h => by cases h⟩
    · refine ⟨e1, e2, e3, (fun h => by cases h), fun _ => ?_⟩
      unfold AddressesDiffer
      rw [hy1] at h14
      unfold within at h14
      dsimp only at h14
      rwa [hy1n] at h14
  obtain ⟨e1, rfl, rfl, hsd, had⟩ := key
  refine ⟨hf, q, hq, e1, (htypes _ (by simp)).mp h8, ⟨id, id', ⟨h2, h3, h4, h5, h9, h10, h11, h12⟩, hsd, had⟩, fun m hm hs => ?_⟩
  obtain ⟨lb, rest, e, hfr⟩ := member_of_stands S.wellFormed S.all S.noDname' hm hs
  obtain ⟨c, hc1, hc2, _⟩ := S.putTo hqt e hfr hput
  refine ⟨c, ?_, hc1⟩
  rw [hc2, ← hya, member_exact h6, hqn]

end

/-! ### A sample run -/

private def rr (n : String) (t : RRType) (d : String) : RR :=
  { name := stringToLabels n.toList, type := t, cls := 1, ttl := 300, rdata := d.toList }

private def nm (s : String) : Name := stringToLabels s.toList

/-- `com` delegates `b.com` to a server whose own zone lists one more server and another address, and `c.com` to the same server, which has no zone
for it. -/
def cutWorld : World where
  zones := [(1, [rr "com." .SOA "x", rr "b.com." .NS "n1.b.com.", rr "n1.b.com." .A "1.1.1.1", rr "c.com." .NS "n1.b.com."]),
    (2, [rr "b.com." .SOA "x", rr "b.com." .NS "n1.b.com.", rr "b.com." .NS "n9.b.com.", rr "n1.b.com." .A "2.2.2.2"])]
  nsZones := [("s.".toList, [1]), ("n1.b.com.".toList, [2])]
  top := ["s.".toList]

/-- Parent and child agree about the servers of `b.com` and their addresses; `b.com` has an address of its own. -/
def agreeWorld : World where
  zones := [(1, [rr "com." .SOA "x", rr "b.com." .NS "n1.b.com.", rr "n1.b.com." .A "1.1.1.1"]),
    (2, [rr "b.com." .SOA "x", rr "b.com." .NS "n1.b.com.", rr "n1.b.com." .A "1.1.1.1", rr "b.com." .A "3.3.3.3"])]
  nsZones := [("s.".toList, [1]), ("n1.b.com.".toList, [2])]
  top := ["s.".toList]

def contextOf (w : World) : Context where
  nsZones := w.nsZones
  top := w.top
  zones := w.zones.map (fun p => (p.1, Zone.afterAdds 500 p.1 p.2))

def recordsOf (w : World) : List (RR × Nat × Nat) := w.zones.flatMap (fun p => p.2.map (fun r => (r, p.1, 0)))

def cutJob : Job where
  domain := "com.".toList
  subdomains := true
  types := TypeSet.add (TypeSet.single .A) .NS
  pathFns := [.lame, .delegation]

/-- The conditions of `Setting` for a world without DNAMEs, checked record by record. -/
theorem setting_of (w : World) (job : Job) (hw : WellFormed w)
    (hl : ∀ r ∈ (recordsOf w).map (·.1), r.type ≠ .DNAME ∧ ∀ l ∈ r.name, l ≠ ['.'] ∧ l.length ≤ 63)
    (hd : Short (stringToLabels job.domain)) (ht : AsksOther job.types) (hp : ∀ f ∈ job.pathFns, f.Configured) (hn : job.nodeFns = []) :
    Setting (contextOf w) w (recordsOf w) job := by
  refine ⟨represents_of (thr := 500) rfl rfl rfl, hw, ?_, ?_, ?_, hd, ht, hp, ?_⟩
  · intro id r hr
    unfold World.log at hr
    cases hl : w.zones.lookup id with
    | none => rw [hl] at hr; simp [stored] at hr
    | some rs =>
      rw [hl] at hr
      have hr := stored_subset rs r hr
      exact List.mem_map.mpr ⟨(r, id, 0), List.mem_flatMap.mpr ⟨(id, rs), mem_of_lookup hl, List.mem_map.mpr ⟨r, hr, rfl⟩⟩, rfl⟩
  · exact fun x hx => (hl x.1 (List.mem_map.mpr ⟨x, hx, rfl⟩)).1
  · rintro n (rfl | ⟨r, hr, _, ⟨rest, e⟩ | ⟨h, _⟩⟩) l hm
    · cases hm
    · exact (hl r hr).2 l (by rw [e]; exact List.mem_append_left _ hm)
    · exact absurd h (hl r hr).1
  · rw [hn]; intro f hf; cases hf

theorem cut_setting : Setting (contextOf cutWorld) cutWorld (recordsOf cutWorld) cutJob :=
  setting_of _ _ (wellFormed_of _ (by decide +kernel) (by decide +kernel) (by decide +kernel)) (by decide +kernel) (by decide +kernel)
    ⟨.A, by decide, by show Member cutJob.types .A; unfold Member; decide⟩
    (fun f hf => by
      simp only [cutJob, List.mem_cons, List.not_mem_nil, or_false] at hf
      rcases hf with rfl | rfl <;> trivial) rfl

theorem agree_setting : Setting (contextOf agreeWorld) agreeWorld (recordsOf agreeWorld) cutJob :=
  setting_of _ _ (wellFormed_of _ (by decide +kernel) (by decide +kernel) (by decide +kernel)) (by decide +kernel) (by decide +kernel)
    ⟨.A, by decide, by show Member cutJob.types .A; unfold Member; decide⟩
    (fun f hf => by
      simp only [cutJob, List.mem_cons, List.not_mem_nil, or_false] at hf
      rcases hf with rfl | rfl <;> trivial) rfl

theorem run_of_check {w : World} {job : Job} {good bad : List Violation}
    (h : (match Driver.runSequential 300 500 (contextOf w) (labelGraph 500 (recordsOf w)) job with
      | .ok (_, _, vs) => decide ((∀ v ∈ good, v ∈ vs) ∧ ∀ v ∈ bad, v ∉ vs)
      | _ => false) = true) :
    ∃ g ts vs, Driver.runSequential 300 500 (contextOf w) (labelGraph 500 (recordsOf w)) job = .ok (g, ts, vs) ∧ (∀ v ∈ good, v ∈ vs) ∧ ∀ v ∈ bad, v ∉ vs := by
  cases hr : Driver.runSequential 300 500 (contextOf w) (labelGraph 500 (recordsOf w)) job with
  | ok x =>
    obtain ⟨g, ts, vs⟩ := x
    rw [hr] at h
    exact ⟨g, ts, vs, rfl, of_decide_eq_true h⟩
  | _ => rw [hr] at h; cases h

theorem encloser_self {log : List RR} {n : Name} (h1 : NameExists log n) (h2 : ∀ k < n.length, ¬ Covers log (n.take k)) : Encloser log n n := by
  refine ⟨⟨[], by simp⟩, h1, ?_, .inr (.inl rfl)⟩
  rintro p ⟨rest, e⟩ hne
  have hk : p.length < n.length := by
    have := congrArg List.length e
    rw [List.length_append] at this
    rcases Nat.lt_or_ge p.length n.length with h | h
    · exact h
    · exfalso
      have h0 : rest = [] := List.length_eq_zero_iff.mp (by omega)
      rw [h0, List.append_nil] at e
      exact hne e.symm
  have := h2 _ hk
  rwa [e, List.take_left] at this

instance (log : List RR) (n : Name) : Decidable (Cut log n) := by unfold Cut; infer_instance
instance (log : List RR) (n : Name) : Decidable (Covers log n) := by unfold Covers; infer_instance
instance (log : List RR) (n : Name) : Decidable (NameExists log n) := by unfold NameExists; infer_instance

theorem cut_delegated (w : World) (h : w = cutWorld ∨ w = agreeWorld) : Delegated w (nm "b.com.") "s.".toList "n1.b.com.".toList 1 2 where
  parent := by rcases h with rfl | rfl <;> exact ⟨[], [], by decide +kernel, by decide +kernel, by simp, by simp⟩
  at_ := by rcases h with rfl | rfl <;> exact encloser_self (by decide +kernel) (by decide +kernel)
  cut := by rcases h with rfl | rfl <;> decide +kernel
  named := by rcases h with rfl | rfl <;> decide +kernel
  child := by rcases h with rfl | rfl <;> exact ⟨[], [], by decide +kernel, by decide +kernel, by simp, by simp⟩
  at' := by rcases h with rfl | rfl <;> exact encloser_self (by decide +kernel) (by decide +kernel)
  apex := by rcases h with rfl | rfl <;> decide +kernel
  own := by rcases h with rfl | rfl <;> decide +kernel

/-- The hypotheses of the theorems about inconsistent delegations are met by the sample run, and so are those of their converse. -/
example : Setting (contextOf cutWorld) cutWorld (recordsOf cutWorld) cutJob ∧ PathFn.delegation ∈ cutJob.pathFns ∧ Member cutJob.types .NS ∧
    InScope cutJob (nm "b.com.") ∧ Short (nm "b.com.") ∧ Consulted cutWorld (nm "b.com.") "s.".toList ∧
    Delegated cutWorld (nm "b.com.") "s.".toList "n1.b.com.".toList 1 2 ∧ ServersDiffer cutWorld (nm "b.com.") 1 2 ∧
    AddressesDiffer cutWorld (nm "b.com.") cutJob.types 1 2 ∧
    ∃ g ts vs, Driver.runSequential 300 500 (contextOf cutWorld) (labelGraph 500 (recordsOf cutWorld)) cutJob = .ok (g, ts, vs) ∧
      (∀ v ∈ [Violation.delegation "b.com.".toList "s.".toList "n1.b.com.".toList false, .delegation "b.com.".toList "s.".toList "n1.b.com.".toList true,
        .lame "c.com.".toList "s.".toList "n1.b.com.".toList, .lame "~{ }.c.com.".toList "s.".toList "n1.b.com.".toList], v ∈ vs) ∧
      ∀ v ∈ [Violation.lame "b.com.".toList "s.".toList "n1.b.com.".toList], v ∉ vs := by
  refine ⟨cut_setting, by simp [cutJob], by unfold Member; decide, ?_, by decide +kernel, .top _ (by simp [cutWorld]), cut_delegated _ (.inl rfl),
    by unfold ServersDiffer; decide +kernel, by unfold AddressesDiffer; decide +kernel, run_of_check (by decide +kernel)⟩
  unfold InScope
  rw [if_pos (show cutJob.subdomains = true from rfl)]
  exact ⟨by decide +kernel, by decide +kernel⟩

/-- The hypotheses of the theorem about lame delegations are met: by the unknown name `x.c.com`. -/
example : PathFn.lame ∈ cutJob.pathFns ∧ InScope cutJob (nm "x.c.com.") ∧ Short (nm "x.c.com.") ∧ ¬ Known ((recordsOf cutWorld).map (·.1)) (nm "x.c.com.") ∧
    Consulted cutWorld (nm "x.c.com.") "s.".toList ∧ Refers cutWorld (nm "x.c.com.") "s.".toList "n1.b.com.".toList ∧
    cutWorld.Listed "n1.b.com.".toList ∧ ¬ Encloses cutWorld "n1.b.com.".toList (nm "x.c.com.") := by
  refine ⟨by simp [cutJob], ?_, by decide +kernel, by decide +kernel, .top _ (by simp [cutWorld]), ⟨1, nm "c.com.", ⟨[], [], by decide +kernel, by decide +kernel,
    by simp, by simp⟩, ⟨by decide +kernel, by decide +kernel, ?_, .inl (by decide +kernel)⟩, by decide +kernel, by decide +kernel⟩, by unfold World.Listed; decide +kernel, by decide +kernel⟩
  · unfold InScope
    rw [if_pos (show cutJob.subdomains = true from rfl)]
    exact ⟨by decide +kernel, by decide +kernel⟩
  · exact (encloser_self (log := cutWorld.log 1) (n := nm "c.com.") (by decide +kernel) (by decide +kernel)).2.2.1

/-- **C82** (disagreement) A delegation can be perfectly consistent — parent and child name the same servers, with the same addresses — and is still
reported as inconsistent: the child's own address records at the delegated name are taken for addresses of servers. -/
theorem C82_disagreement_own_address :
    Setting (contextOf agreeWorld) agreeWorld (recordsOf agreeWorld) cutJob ∧
    Delegated agreeWorld (nm "b.com.") "s.".toList "n1.b.com.".toList 1 2 ∧ ¬ ServersDiffer agreeWorld (nm "b.com.") 1 2 ∧
    SameRecords (glueAt (agreeWorld.log 1) (nm "b.com.")) (glueAt (agreeWorld.log 2) (nm "b.com.")) ∧
    ∃ g ts vs, Driver.runSequential 300 500 (contextOf agreeWorld) (labelGraph 500 (recordsOf agreeWorld)) cutJob = .ok (g, ts, vs) ∧
      .delegation "b.com.".toList "s.".toList "n1.b.com.".toList true ∈ vs := by
  obtain ⟨g, ts, vs, h1, h2, _⟩ := run_of_check (w := agreeWorld) (job := cutJob)
    (good := [.delegation "b.com.".toList "s.".toList "n1.b.com.".toList true]) (bad := []) (by decide +kernel)
  exact ⟨agree_setting, cut_delegated _ (.inr rfl), by unfold ServersDiffer; decide +kernel, by decide +kernel, g, ts, vs, h1, h2 _ (by simp)⟩

end Groot
