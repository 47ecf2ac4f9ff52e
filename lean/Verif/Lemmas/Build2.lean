import Verif.Lemmas.Build

/-! # The construction of interpretation graphs: every call, and termination -/

namespace Groot

open Spec

theorem dnameRest_append (o rest : Name) : dnameRest o (o ++ rest) = .ok rest := by
  induction o with
  | nil => cases rest <;> rfl
  | cons l o ih => simp [dnameRest, ih]

theorem processDname_ok (r : RR) (q : EC) (rest : Name) (h : q.name = r.name ++ rest) :
    processDname r q = .ok { name := stringToLabels r.rdata ++ rest, types := q.types, excluded := q.excluded } := by
  unfold processDname
  rw [h, dnameRest_append]
  rfl

theorem member_remove (ts : TypeSet) (t : RRType) : Member (ts.remove .CNAME) t ↔ Member ts t ∧ t ≠ .CNAME := by
  rw [← has_iff, ← has_iff, has_remove _ _ _ (by decide), Bool.and_eq_true, decide_eq_true_eq]
  exact and_congr_right (fun _ => ne_comm)

theorem rewritten_cname (r : RR) (q : EC) (h : r.type = .CNAME) : Rewritten r (ask q) (ask (processCname r q)) :=
  .cname h rfl (fun t => member_remove _ t) rfl

theorem rewritten_unique {r : RR} {a a1 a2 : Ask} (h1 : Rewritten r a a1) (h2 : Rewritten r a a2) : a1 = a2 := by
  obtain ⟨n1, t1, b1⟩ := a1
  obtain ⟨n2, t2, b2⟩ := a2
  cases h1 with
  | cname x1 x2 x3 x4 =>
    cases h2 with
    | cname y1 y2 y3 y4 =>
      simp only at x2 x3 x4 y2 y3 y4
      have : t1 = t2 := by
        apply typeSet_ext
        intro t
        rw [Bool.eq_iff_iff, has_iff, has_iff, x3, y3]
      rw [x2, y2, this, x4, y4]
    | dname rest y1 => rw [x1] at y1; cases y1
  | dname rest x1 x2 x3 x4 x5 =>
    cases h2 with
    | cname y1 => rw [x1] at y1; cases y1
    | dname rest' y1 y2 y3 y4 y5 =>
      simp only at x3 x4 x5 y3 y4 y5
      have : rest = rest' := by
        rw [x2] at y2; exact List.append_cancel_left y2
      rw [x3, y3, this, x4, y4, x5, y5]

theorem BInv.head {w : World} {a0 : Ask} {g : IG} {x : Work} {rest : List Work} (h : BInv w a0 g (x :: rest)) :
    Valid w g x := h.valid x (by simp)

/-- A bound for the number of calls made by one call. -/
def wt (w : World) : Work → Nat
  | .top .. => 1
  | .nsSub .. => 1
  | .refer .. => 2
  | .rewrite .. => w.top.length + 2
  | .resolve .. => 1 + w.allRecords.length * (w.top.length + 2)

def wts (w : World) (ws : List Work) : Nat := (ws.map (wt w)).sum

@[simp] theorem wts_nil (w : World) : wts w [] = 0 := rfl
@[simp] theorem wts_cons (w : World) (x : Work) (ws : List Work) : wts w (x :: ws) = wt w x + wts w ws := by simp [wts]
@[simp] theorem wts_append (w : World) (a b : List Work) : wts w (a ++ b) = wts w a + wts w b := by simp [wts]

def perNode (w : World) : Nat := 1 + w.allRecords.length * (w.top.length + 2) + w.top.length + 2

theorem wts_topWorks {ctx : Context} {w : World} (hr : Represents ctx w) (q : EC) (f : Nat) :
    wts w (topWorks ctx q f) = w.top.length := by
  unfold topWorks
  rw [hr.2.1]
  induction w.top with
  | nil => rfl
  | cons t ts ih => simp only [List.map_cons, wts_cons, wt, ih, List.length_cons]; omega

theorem mem_topWorks {ctx : Context} {w : World} (hr : Represents ctx w) (q : EC) (f : Nat) (x : Work) :
    x ∈ topWorks ctx q f ↔ ∃ s ∈ w.top, x = .top s q f := by
  unfold topWorks
  rw [hr.2.1, List.mem_map]
  simp [eq_comm]

theorem log_length_le {ctx : Context} {w : World} (_ : Represents ctx w) (id : Nat) :
    (w.log id).length ≤ w.allRecords.length := by
  by_cases h : w.zones.lookup id = none
  · simp [World.log, h, stored]
  · have hm := lookup_mem h
    unfold World.allRecords
    have key : ∀ l : List Nat, id ∈ l → (w.log id).length ≤ (l.flatMap (fun i => w.log i)).length := by
      intro l
      induction l with
      | nil => intro hm; simp at hm
      | cons i l ih =>
        intro hm
        rw [List.flatMap_cons, List.length_append]
        rcases List.mem_cons.mp hm with rfl | hm
        · omega
        · have := ih hm; omega
    exact key _ hm

/-- The effect of one call: normal outcome, invariant, progress. -/
def Progress (w : World) (a0 : Ask) (thr : Nat) (ctx : Context) (g : IG) (x : Work) (rest : List Work) : Prop :=
  ∃ g' new, doWork thr ctx g x = .ok (g', new) ∧ BInv w a0 g' (new ++ rest) ∧
    (g'.verts.length = g.verts.length ∧ wts w new < wt w x ∨
     g'.verts.length = g.verts.length + 1 ∧ wts w new ≤ perNode w)

theorem BInv.doTop {ctx : Context} {w : World} (hr : Represents ctx w) (hw : WellFormed w) {a0 : Ask} {g : IG}
    {ns : Str} {q : EC} {f : Nat} {rest : List Work} (h : BInv w a0 g (.top ns q f :: rest)) (thr : Nat) :
    Progress w a0 thr ctx g (.top ns q f) rest := by
  obtain ⟨s, a, hf, ht, hs, hst⟩ := h.head
  obtain ⟨o, ho, hb, hn⟩ := relevantZone_spec hr hw ns q.name
  obtain ⟨g1, o1, hi, hc, hext, hed, hedge, hvtx, hcase⟩ := h.core.insertNode (side := none) hf hst (Or.inl ⟨rfl, rfl⟩)
  have hpend : ∀ v s a, At g v s a → ∀ s' a' sd, Step w s a s' a' sd → Pending w g v s a s' a' sd (.top ns q f) →
      EdgeFor g1 v s' a' sd := by
    rintro v s a - s' a' sd - ⟨rfl, rfl, rfl, rfl⟩
    exact hedge
  unfold Progress doWork
  simp only [ho, Res.ok_bind, hi]
  rcases hcase with ⟨rfl, hl, hold⟩ | ⟨rfl, hl, hat, _, hold⟩
  · exact ⟨g1, [], rfl, h.insertOld hc hext hed hvtx hold (by simp) hpend, Or.inl ⟨hl, by simp [wt]⟩⟩
  · rcases o with _ | zid
    · refine ⟨_, _, rfl, ?_, Or.inr ⟨by simp [IG.setAnswer, hl], by simp⟩⟩
      exact h.insertAnswer hc hext hed hvtx hold (by simp) hpend hat (hw.top _ ht)
        (.refused hs (hn rfl) (Or.inr ht)) (Or.inr (hn rfl))
    · refine ⟨_, _, rfl, ?_, Or.inr ⟨hl, by simp [wt, perNode]; omega⟩⟩
      exact h.insertResolve hc hext hed hvtx hold (by simp) hpend hat (hw.top _ ht) hs (hb zid rfl)

theorem BInv.doNsSub {ctx : Context} {w : World} (hr : Represents ctx w) (hw : WellFormed w) {a0 : Ask} {g : IG}
    {v : Nat} {ns : Str} {side : Option Nat} {rest : List Work} (h : BInv w a0 g (.nsSub v ns side :: rest)) (thr : Nat) :
    Progress w a0 thr ctx g (.nsSub v ns side) rest := by
  obtain ⟨s, a, sd, hv, hs, hns, hst, hsd⟩ := h.head
  obtain ⟨hlt, rfl, rfl⟩ := id hv
  obtain ⟨o, ho, hb, hn⟩ := relevantZone_spec hr hw ns (g.vtx v).query.name
  obtain ⟨g1, o1, hi, hc, hext, hed, hedge, hvtx, hcase⟩ := h.core.insertNode (q := (g.vtx v).query) hv hst hsd
  have hpend : ∀ u s a, At g u s a → ∀ s' a' sd', Step w s a s' a' sd' → Pending w g u s a s' a' sd' (.nsSub v ns side) →
      EdgeFor g1 u s' a' sd' := by
    rintro u s a hu s' a' sd' - ⟨rfl, rfl, rfl, h4⟩
    obtain ⟨rfl, rfl⟩ := hv.unique hu
    have : sd' = sd := by
      rcases h4 with ⟨h4, rfl⟩ | ⟨n, b, h4, rfl, h5⟩ <;> rcases hsd with ⟨h6, rfl⟩ | ⟨n', b', h6, rfl, h7⟩
      · rfl
      · rw [h4] at h6; cases h6
      · rw [h4] at h6; cases h6
      · rw [h4] at h6; obtain rfl := Option.some.inj h6
        rw [(h5.unique h7).2]
    subst this
    exact hedge
  unfold Progress doWork
  simp only [hi]
  rcases hcase with ⟨rfl, hl, hold⟩ | ⟨rfl, hl, hat, _, hold⟩
  · exact ⟨g1, [], rfl, h.insertOld hc hext hed hvtx hold (by simp) hpend, Or.inl ⟨hl, by simp [wt]⟩⟩
  · rw [hr.1]
    rcases hz : w.nsZones.lookup ns with _ | ids
    · have hnl : ¬ w.Listed ns := by unfold World.Listed; simp [hz]
      refine ⟨_, _, rfl, ?_, Or.inr ⟨by simp [IG.setAnswer, hl], by simp⟩⟩
      exact h.insertAnswer hc hext hed hvtx hold (by simp) hpend hat hns
        (.unknown hs hnl) (Or.inr (fun he => hnl he.listed))
    · have hli : w.Listed ns := by unfold World.Listed; simp [hz]
      simp only [ho, Res.ok_bind]
      rcases o with _ | zid
      · refine ⟨_, _, rfl, ?_, Or.inr ⟨by simp [IG.setAnswer, hl], by simp⟩⟩
        exact h.insertAnswer hc hext hed hvtx hold (by simp) hpend hat hns
          (.refused hs (hn rfl) (Or.inl hli)) (Or.inr (hn rfl))
      · refine ⟨_, _, rfl, ?_, Or.inr ⟨hl, by simp [wt, perNode]; omega⟩⟩
        exact h.insertResolve hc hext hed hvtx hold (by simp) hpend hat hns hs (hb zid rfl)

theorem BInv.doRefer {ctx : Context} {w : World} (hr : Represents ctx w) (hw : WellFormed w) {a0 : Ask} {g : IG}
    {v : Nat} {ns : Str} {glue : List RR} {rest : List Work} (h : BInv w a0 g (.refer v ns glue :: rest)) (thr : Nat) :
    Progress w a0 thr ctx g (.refer v ns glue) rest := by
  obtain ⟨s, a, as, x, r, hv, hs, hsay, hx, htag, hrx, hty, rfl, hglue⟩ := h.head
  obtain ⟨hsh, id, e, hb, hrrs, _, _⟩ := hsay.ref hx htag
  have hm := nsAt_sub (withGlue_ns (hrrs ▸ hrx) hty)
  have hns := hw.ns id r hm.1 hty
  have hcond : (glue.length ≠ 0 || ctx.top.contains r.rdata) = true ↔ (HasGlue x r ∨ r.rdata ∈ w.top) := by
    rw [← hglue, hr.2.1]
    simp [List.length_eq_zero_iff]
  have hcond2 : (glue ≠ [] ∨ r.rdata ∈ w.top) ↔ (HasGlue x r ∨ r.rdata ∈ w.top) := by rw [hglue]
  unfold Progress
  -- the common part: the follow-up call in an extended graph
  have follow : ∀ (g' : IG) (side : Option Nat) (sd : Option Ask) (pre : List Work), Core w a0 g' → Ext g g' →
      g.edges ⊆ g'.edges → (∀ u, u < g.verts.length → g'.vtx u = g.vtx u) → SideOk g' side sd → sideAsk w x r sd →
      (∀ y ∈ pre, Valid w g' y) →
      (∀ u s a, At g' u s a → ¬ At g u s a → s = [] ∧
        ∀ s' a' sd, Step w s a s' a' sd → ∃ y ∈ pre, Pending w g' u s a s' a' sd y) →
      BInv w a0 g' (pre ++ [.nsSub v r.rdata side] ++ rest) := by
    intro g' side sd pre hc hext hed hvtx hsd hask hpre hnew
    refine h.next (new := pre ++ [.nsSub v r.rdata side]) hc hext hed ?_ ?_ ?_ ?_ ?_ ?_
    · intro y hy
      rcases List.mem_append.mp hy with hy | hy
      · exact hpre y hy
      · obtain rfl := List.mem_singleton.mp hy
        exact ⟨s, a, sd, hext _ _ _ hv, hsh, hns.1, .referral s a as x r sd hs hsay hx htag hrx hty hask, hsd⟩
    · intro u s a hu _ hd; exact hd.ext (hvtx u hu.1)
    · intro zid u hx; cases hx
    · intro u s a hu hn hs; exact absurd (hnew u s a hu hn).1 hs
    · rintro u s1 a1 hu s' a' sd' - ⟨rfl, rfl, rfl, hp⟩
      have : sd' = sd := by
        rw [hcond2] at hp
        rcases hp with ⟨p1, rfl⟩ | ⟨p1, rfl⟩ <;> rcases hask with ⟨p2, rfl⟩ | ⟨p2, rfl⟩
        · rfl
        · exact absurd p1 p2
        · exact absurd p2 p1
        · rfl
      subst this
      exact Or.inr ⟨.nsSub v r.rdata side, by simp, rfl, rfl, rfl, hsd⟩
    · intro u s a hu hn s' a' sd hst
      obtain ⟨y, hy, hp⟩ := (hnew u s a hu hn).2 s' a' sd hst
      exact Or.inr ⟨y, by simp [hy], hp⟩
  by_cases hc : (glue.length ≠ 0 || ctx.top.contains r.rdata) = true
  · refine ⟨g, _, by simp only [doWork]; rw [if_pos hc], ?_, Or.inl ⟨rfl, by simp [wt]⟩⟩
    exact follow g none none [] h.core (fun _ _ _ h => h) (fun _ h => h) (fun _ _ => rfl) (Or.inl ⟨rfl, rfl⟩)
      (Or.inl ⟨hcond.mp hc, rfl⟩) (by simp) (fun u s a h1 h2 => absurd h1 h2)
  · simp only [doWork]
    rw [if_neg hc]
    have hask : sideAsk w x r (some (addressAsk r.rdata)) := Or.inr ⟨fun hh => hc (hcond.mpr hh), rfl⟩
    have haq : ask (sideEC r.rdata) = addressAsk r.rdata := rfl
    rcases h.core.findNode [] (sideEC r.rdata) with ⟨n, h1, h2⟩ | ⟨h1, h2⟩
    · simp only [h1]
      refine ⟨g, _, rfl, ?_, Or.inl ⟨rfl, by simp [wt]⟩⟩
      exact follow g (some n) _ [] h.core (fun _ _ _ h => h) (fun _ h => h) (fun _ _ => rfl)
        (Or.inr ⟨n, _, rfl, rfl, haq ▸ h2⟩) hask (by simp) (fun u s a h1 h2 => absurd h1 h2)
    · simp only [h1]
      have hstep : Step w s a r.rdata a (some (addressAsk r.rdata)) :=
        .referral s a as x r _ hs hsay hx htag hrx hty hask
      have hreach : Reached w a0 [] (ask (sideEC r.rdata)) := .side _ _ _ _ _ (h.core.reach v s a hv) hstep
      have hext : Ext g (g.addVertex [] (sideEC r.rdata)) := fun v s a hv => at_addVertex.mpr (Or.inl hv)
      have hat : At (g.addVertex [] (sideEC r.rdata)) g.verts.length [] (addressAsk r.rdata) :=
        at_addVertex.mpr (Or.inr ⟨rfl, rfl, rfl⟩)
      refine ⟨_, _, rfl, ?_, Or.inr ⟨by simp [IG.addVertex], ?_⟩⟩
      · refine follow _ (some g.verts.length) _ _ (h.core.addVertex h2 hreach) hext (fun _ h => h) ?_
          (Or.inr ⟨_, _, rfl, rfl, hat⟩) hask ?_ ?_
        · intro u hu; exact vtx_append_lt (es' := g.edges) (m' := g.nsMap) hu
        · intro y hy
          obtain ⟨t, ht, rfl⟩ := (mem_topWorks hr _ _ _).mp hy
          exact ⟨[], _, hat, ht, hns.2, .top _ t ht⟩
        · intro u s1 a1 hu hnu
          rcases at_addVertex.mp hu with hu' | ⟨rfl, rfl, rfl⟩
          · exact absurd hu' hnu
          · refine ⟨rfl, ?_⟩
            intro s' a' sd hst
            generalize hz : ([] : Str) = z at hst
            cases hst with
            | top _ _ ht => exact ⟨.top s' (sideEC r.rdata) g.verts.length, (mem_topWorks hr _ _ _).mpr ⟨s', ht, rfl⟩, rfl, rfl, rfl, rfl⟩
            | rewriteHere _ _ _ _ _ _ hs => exact absurd hz.symm hs
            | rewriteTop _ _ _ _ _ _ _ hs => exact absurd hz.symm hs
            | referral _ _ _ _ _ _ hs => exact absurd hz.symm hs
      · rw [wts_append, wts_topWorks hr]
        simp [wt, perNode]; omega

/-- The second half of the treatment of a rewriting answer. -/
def rewriteTail (ctx : Context) (g : IG) (v : Nat) (newQ : EC) : Res (IG × List Work) :=
  if (lengthCheck newQ.name).1 then do
    let start ← relevantZone ctx (g.vtx v).ns newQ.name
    match start with
    | some zid =>
      let (g, node) := g.insertNode (g.vtx v).ns newQ v none
      match node with
      | some u => .ok (g, [.resolve zid u])
      | none => .ok (g, [])
    | none => .ok (g, topWorks ctx newQ v)
  else
    let (g, node) := g.insertNode (g.vtx v).ns newQ v none
    match node with
    | some u => .ok (g.setAnswer u [⟨.YX, newQ.types, []⟩], [])
    | none => .ok (g, [])

theorem doWork_rewrite {thr : Nat} {ctx : Context} {g : IG} {r : RR} {v : Nat} {newQ : EC}
    (h : (if r.type = .CNAME then (.ok (processCname r (g.vtx v).query) : Res EC)
      else processDname r (g.vtx v).query) = .ok newQ) :
    doWork thr ctx g (.rewrite r v) = rewriteTail ctx g v newQ := by
  unfold doWork rewriteTail
  by_cases hc : r.type = .CNAME
  · rw [if_pos hc] at h
    obtain rfl := Res.ok.inj h
    simp only [hc, if_true]
    rfl
  · rw [if_neg hc] at h
    simp only [hc, if_false, h]
    rfl

theorem BInv.doRewrite {ctx : Context} {w : World} (hr : Represents ctx w) (hw : WellFormed w) {a0 : Ask} {g : IG}
    {v : Nat} {r : RR} {rest : List Work} (h : BInv w a0 g (.rewrite r v :: rest)) (thr : Nat) :
    Progress w a0 thr ctx g (.rewrite r v) rest := by
  obtain ⟨s, a, as, x, hv, hs, hsay, hx, htag, hrx⟩ := h.head
  obtain ⟨hlt, rfl, rfl⟩ := id hv
  obtain ⟨hsh, _, _, _, hkind⟩ := hsay.rewrite hx htag hrx
  have hnew : ∃ newQ, (if r.type = .CNAME then (.ok (processCname r (g.vtx v).query) : Res EC)
      else processDname r (g.vtx v).query) = .ok newQ ∧ Rewritten r (ask (g.vtx v).query) (ask newQ) := by
    by_cases hc : r.type = .CNAME
    · exact ⟨_, by rw [if_pos hc], rewritten_cname r _ hc⟩
    · rcases hkind with ⟨h1, _⟩ | ⟨h1, rst, h2⟩
      · exact absurd h1 hc
      · refine ⟨{ name := stringToLabels r.rdata ++ rst, types := (g.vtx v).query.types, excluded := (g.vtx v).query.excluded }, ?_, .dname rst h1 h2 rfl rfl rfl⟩
        rw [if_neg hc]; exact processDname_ok r _ rst h2
  obtain ⟨newQ, hq, hrw⟩ := hnew
  have hpd : ∀ u s1 a1, At g u s1 a1 → ∀ s' a' sd, Pending w g u s1 a1 s' a' sd (.rewrite r v) →
      u = v ∧ a' = ask newQ ∧ sd = none ∧
      (s' = (g.vtx v).ns ∧ (¬ Short newQ.name ∨ Encloses w (g.vtx v).ns newQ.name) ∨
        Short newQ.name ∧ ¬ Encloses w (g.vtx v).ns newQ.name ∧ s' ∈ w.top) := by
    rintro u s1 a1 hu s' a' sd ⟨rfl, p1, p2, p3⟩
    obtain ⟨rfl, rfl⟩ := hv.unique hu
    obtain rfl := rewritten_unique hrw p1
    exact ⟨rfl, rfl, p2, p3⟩
  unfold Progress
  rw [doWork_rewrite hq]
  unfold rewriteTail
  by_cases hlen : Short newQ.name
  · rw [if_pos ((short_iff _).mpr hlen)]
    obtain ⟨o, ho, hb, hn⟩ := relevantZone_spec hr hw (g.vtx v).ns newQ.name
    simp only [ho, Res.ok_bind]
    rcases o with _ | zid
    · refine ⟨g, _, rfl, ?_, Or.inl ⟨rfl, by rw [wts_topWorks hr]; simp [wt]⟩⟩
      refine h.next h.core (fun _ _ _ h => h) (fun _ h => h) ?_ (fun _ _ _ _ _ h => h) (by simp)
        (fun _ _ _ h1 h2 => absurd h1 h2) ?_ (fun _ _ _ h1 h2 => absurd h1 h2)
      · intro y hy
        obtain ⟨t, ht, rfl⟩ := (mem_topWorks hr _ _ _).mp hy
        exact ⟨_, _, hv, ht, hlen, .rewriteTop _ _ as x r _ t hs hsay hx htag hrx hrw hlen (hn rfl) ht⟩
      · intro u s1 a1 hu s' a' sd hst hp
        obtain ⟨rfl, rfl, rfl, p⟩ := hpd u s1 a1 hu s' a' sd hp
        rcases p with ⟨_, p | p⟩ | ⟨_, _, p⟩
        · exact absurd hlen p
        · exact absurd p (hn rfl)
        · exact Or.inr ⟨.top s' newQ u, (mem_topWorks hr _ _ _).mpr ⟨s', p, rfl⟩, rfl, rfl, rfl, rfl⟩
    · have hbest := hb zid rfl
      have hstep : Step w (g.vtx v).ns (ask (g.vtx v).query) (g.vtx v).ns (ask newQ) none :=
        .rewriteHere _ _ as x r _ hs hsay hx htag hrx hrw (Or.inr hbest.encloses)
      obtain ⟨g1, o1, hi, hc, hext, hed, hedge, hvtx, hcase⟩ := h.core.insertNode (side := none) hv hstep (Or.inl ⟨rfl, rfl⟩)
      have hpend : ∀ u s a, At g u s a → ∀ s' a' sd, Step w s a s' a' sd → Pending w g u s a s' a' sd (.rewrite r v) →
          EdgeFor g1 u s' a' sd := by
        intro u s1 a1 hu s' a' sd hst hp
        obtain ⟨rfl, rfl, rfl, p⟩ := hpd u s1 a1 hu s' a' sd hp
        rcases p with ⟨rfl, _⟩ | ⟨_, p, _⟩
        · exact hedge
        · exact absurd hbest.encloses p
      simp only [hi]
      rcases hcase with ⟨rfl, hl, hold⟩ | ⟨rfl, hl, hat, _, hold⟩
      · exact ⟨g1, [], rfl, h.insertOld hc hext hed hvtx hold (by simp) hpend, Or.inl ⟨hl, by simp [wt]⟩⟩
      · refine ⟨_, _, rfl, ?_, Or.inr ⟨hl, by simp [wt, perNode]; omega⟩⟩
        exact h.insertResolve hc hext hed hvtx hold (by simp) hpend hat hs hlen hbest
  · rw [if_neg (fun hh => hlen ((short_iff _).mp hh))]
    have hstep : Step w (g.vtx v).ns (ask (g.vtx v).query) (g.vtx v).ns (ask newQ) none :=
      .rewriteHere _ _ as x r _ hs hsay hx htag hrx hrw (Or.inl hlen)
    obtain ⟨g1, o1, hi, hc, hext, hed, hedge, hvtx, hcase⟩ := h.core.insertNode (side := none) hv hstep (Or.inl ⟨rfl, rfl⟩)
    have hpend : ∀ u s a, At g u s a → ∀ s' a' sd, Step w s a s' a' sd → Pending w g u s a s' a' sd (.rewrite r v) →
        EdgeFor g1 u s' a' sd := by
      intro u s1 a1 hu s' a' sd hst hp
      obtain ⟨rfl, rfl, rfl, p⟩ := hpd u s1 a1 hu s' a' sd hp
      rcases p with ⟨rfl, _⟩ | ⟨p, _, _⟩
      · exact hedge
      · exact absurd p hlen
    simp only [hi]
    rcases hcase with ⟨rfl, hl, hold⟩ | ⟨rfl, hl, hat, _, hold⟩
    · exact ⟨g1, [], rfl, h.insertOld hc hext hed hvtx hold (by simp) hpend, Or.inl ⟨hl, by simp [wt]⟩⟩
    · refine ⟨_, _, rfl, ?_, Or.inr ⟨by simp [IG.setAnswer, hl], by simp⟩⟩
      exact h.insertAnswer hc hext hed hvtx hold (by simp) hpend hat hs (.tooLong hlen) (Or.inl hlen)

/-- The calls made for a list of answers. -/
theorem answerFold_none (v : Nat) (as : List Answer) (h : ∀ x ∈ as, x.tag ≠ .REWRITE ∧ x.tag ≠ .REF) :
    ∀ acc, as.foldlM (fun acc a => do
        let w ← answerWorks v a
        (.ok (acc ++ w) : Res (List Work))) acc = .ok acc := by
  induction as with
  | nil => intro acc; rfl
  | cons x as ih =>
    intro acc
    obtain ⟨h1, h2⟩ := h x (by simp)
    have : answerWorks v x = .ok [] := by
      unfold answerWorks
      split <;> simp_all
    rw [List.foldlM_cons, this, Res.ok_bind, Res.ok_bind, List.append_nil]
    exact ih (fun y hy => h y (by simp [hy])) acc

theorem BInv.doResolve {ctx : Context} {w : World} (hr : Represents ctx w) (hw : WellFormed w) {a0 : Ask} {g : IG}
    {zid v : Nat} {rest : List Work} (h : BInv w a0 g (.resolve zid v :: rest)) (thr : Nat) :
    Progress w a0 thr ctx g (.resolve zid v) rest := by
  obtain ⟨s, a, hv, hs, hsh, hb⟩ := h.head
  obtain ⟨hlt, rfl, rfl⟩ := id hv
  obtain ⟨z, names, hz, hrep⟩ := hr.zone (hw.zones _ zid hb.hosted)
  obtain ⟨as, c, hl, hreply⟩ := hrep.lookup (hw.supported zid) thr (g.vtx v).query
  have hsay : Says w (g.vtx v).ns (ask (g.vtx v).query) as := .zone zid as hsh hb (reply_ask.mpr hreply)
  -- the calls
  have hworks : ∃ new, as.foldlM (fun acc a => do
        let w ← answerWorks v a
        (.ok (acc ++ w) : Res (List Work))) [] = .ok new ∧ (∀ y ∈ new, Valid w g y) ∧
      (∀ s' a' sd, Step w (g.vtx v).ns (ask (g.vtx v).query) s' a' sd →
        ∃ y ∈ new, Pending w g v (g.vtx v).ns (ask (g.vtx v).query) s' a' sd y) ∧
      wts w new ≤ w.allRecords.length * (w.top.length + 2) := by
    have huniq : ∀ as', Says w (g.vtx v).ns (ask (g.vtx v).query) as' → as' = as :=
      fun as' h' => Says.unique hsh hb h' (reply_ask.mpr hreply)
    by_cases h1 : ∃ x ∈ as, x.tag = .REWRITE
    · obtain ⟨x, hx, ht⟩ := h1
      obtain ⟨r, he, hrr, hk⟩ := hreply.rewrite hx ht
      have hpos : 0 < w.allRecords.length := by
        have := mem_allRecords (hreply.mem hx (r := r) (by rw [hrr]; simp))
        exact List.length_pos_of_mem this
      refine ⟨[.rewrite r v], ?_, ?_, ?_, ?_⟩
      · rw [he, List.foldlM_cons]
        simp [answerWorks, ht, hrr]
      · intro y hy; obtain rfl := List.mem_singleton.mp hy
        exact ⟨_, _, as, x, hv, hs, hsay, hx, ht, by rw [hrr]; simp⟩
      · intro s' a' sd hst
        refine ⟨_, List.mem_singleton.mpr rfl, ?_⟩
        have hx' : ∀ x', x' ∈ as → x' = x := by intro x' h'; rw [he] at h'; simpa using h'
        generalize hss : (g.vtx v).ns = s0 at *
        generalize haa : ask (g.vtx v).query = a1 at *
        cases hst with
        | top _ _ ht => exact absurd rfl hs
        | rewriteHere _ _ as' x' r' _ hs' hsay' hxx ht' hr' hrw hsh' =>
          obtain rfl := huniq _ hsay'
          obtain rfl := hx' _ hxx
          rw [hrr] at hr'; obtain rfl := List.mem_singleton.mp hr'
          exact ⟨rfl, hrw, rfl, Or.inl ⟨rfl, hsh'⟩⟩
        | rewriteTop _ _ as' x' r' _ _ hs' hsay' hxx ht' hr' hrw hsh' hne htt =>
          obtain rfl := huniq _ hsay'
          obtain rfl := hx' _ hxx
          rw [hrr] at hr'; obtain rfl := List.mem_singleton.mp hr'
          exact ⟨rfl, hrw, rfl, Or.inr ⟨hsh', hne, htt⟩⟩
        | referral _ _ as' x' r' _ hs' hsay' hxx ht' =>
          obtain rfl := huniq _ hsay'
          obtain rfl := hx' _ hxx
          rw [ht] at ht'; cases ht'
      · simp only [wts_cons, wts_nil, wt, Nat.add_zero]
        exact Nat.le_mul_of_pos_left _ hpos
    · by_cases h2 : ∃ x ∈ as, x.tag = .REF
      · obtain ⟨x, hx, ht⟩ := h2
        obtain ⟨e, he, hrr, hne⟩ := hreply.ref hx ht
        have hns : ∀ r ∈ nsAt (w.log zid) e, r.type = .NS := fun r hr => (nsAt_sub hr).2.2
        refine ⟨(nsAt (w.log zid) e).map (fun r => .refer v r.rdata (glueFor (w.log zid) r)), ?_, ?_, ?_, ?_⟩
        · rw [he, List.foldlM_cons]
          simp only [answerWorks, ht, hrr, matchNsGlue_withGlue _ _ hns, Res.ok_bind, List.foldlM_nil, Res.pure_eq,
            List.nil_append, List.map_map]
          rfl
        · intro y hy
          obtain ⟨r, hr', rfl⟩ := List.mem_map.mp hy
          exact ⟨_, _, as, x, r, hv, hs, hsay, hx, ht, by rw [hrr]; exact mem_withGlue.mpr (Or.inl hr'), hns r hr', rfl,
            (hasGlue_iff hr' hrr).symm⟩
        · intro s' a' sd hst
          have hx' : ∀ x', x' ∈ as → x' = x := by intro x' h'; rw [he] at h'; simpa using h'
          generalize hss : (g.vtx v).ns = s0 at *
          generalize haa : ask (g.vtx v).query = a1 at *
          cases hst with
          | top _ _ ht => exact absurd rfl hs
          | rewriteHere _ _ as' x' r' _ hs' hsay' hxx ht' hr' hrw hsh' =>
            obtain rfl := huniq _ hsay'
            exact absurd ⟨x', hxx, ht'⟩ h1
          | rewriteTop _ _ as' x' r' _ _ hs' hsay' hxx ht' hr' hrw hsh' hne htt =>
            obtain rfl := huniq _ hsay'
            exact absurd ⟨x', hxx, ht'⟩ h1
          | referral _ _ as' x' r' _ hs' hsay' hxx ht' hr' hty hask =>
            obtain rfl := huniq _ hsay'
            obtain rfl := hx' _ hxx
            rw [hrr] at hr'
            have hm := withGlue_ns hr' hty
            refine ⟨_, List.mem_map.mpr ⟨r', hm, rfl⟩, rfl, rfl, rfl, ?_⟩
            rw [← hasGlue_iff hm hrr]
            exact hask
        · have e1 : wts w ((nsAt (w.log zid) e).map (fun r => .refer v r.rdata (glueFor (w.log zid) r))) =
              2 * (nsAt (w.log zid) e).length := by
            induction nsAt (w.log zid) e with
            | nil => rfl
            | cons r l ih => simp only [List.map_cons, wts_cons, wt, ih, List.length_cons]; omega
          have e2 : (nsAt (w.log zid) e).length ≤ w.allRecords.length := by
            refine le_trans ?_ (log_length_le hr zid)
            unfold nsAt recordsAt
            exact le_trans (List.length_filter_le _ _) (List.length_filter_le _ _)
          rw [e1]
          calc 2 * (nsAt (w.log zid) e).length ≤ 2 * w.allRecords.length := Nat.mul_le_mul_left 2 e2
            _ = w.allRecords.length * 2 := Nat.mul_comm _ _
            _ ≤ w.allRecords.length * (w.top.length + 2) := Nat.mul_le_mul_left _ (by omega)
      · refine ⟨[], answerFold_none v as ?_ [], by simp, ?_, by simp⟩
        · intro x hx; exact ⟨fun ht => h1 ⟨x, hx, ht⟩, fun ht => h2 ⟨x, hx, ht⟩⟩
        · intro s' a' sd hst
          exfalso
          generalize hss : (g.vtx v).ns = s0 at *
          generalize haa : ask (g.vtx v).query = a1 at *
          cases hst with
          | top _ _ ht => exact absurd rfl hs
          | rewriteHere _ _ as' x' r' _ hs' hsay' hxx ht' hr' hrw hsh' =>
            obtain rfl := huniq _ hsay'
            exact absurd ⟨x', hxx, ht'⟩ h1
          | rewriteTop _ _ as' x' r' _ _ hs' hsay' hxx ht' hr' hrw hsh' hne htt =>
            obtain rfl := huniq _ hsay'
            exact absurd ⟨x', hxx, ht'⟩ h1
          | referral _ _ as' x' r' _ hs' hsay' hxx ht' hr' hty hask =>
            obtain rfl := huniq _ hsay'
            exact absurd ⟨x', hxx, ht'⟩ h2
  obtain ⟨new, hnew, hvalid, hcomp, hwt⟩ := hworks
  unfold Progress doWork
  simp only [hz, hl, Res.ok_bind, hnew]
  have hext : Ext g (g.setAnswer v as) := fun u s a hu => at_setAnswer.mpr hu
  refine ⟨_, _, rfl, ?_, Or.inl ⟨by simp [IG.setAnswer], by simp only [wt]; omega⟩⟩
  refine h.next (h.core.setAnswer hs) hext (fun _ h => h) (fun y hy => (hvalid y hy).ext hext) ?_ ?_ ?_ ?_ ?_
  · intro u s1 a1 hu _ hd
    by_cases hvu : v = u
    · subst hvu
      obtain ⟨rfl, rfl⟩ := hv.unique hu
      exact ⟨as, by rw [vtx_setAnswer, if_pos ⟨rfl, hlt⟩], hsay⟩
    · exact hd.ext (by rw [vtx_setAnswer, if_neg (fun hh => hvu hh.1)])
  · intro zid' u hxx s1 a1 hu
    have : v = u := by cases hxx; rfl
    subst this
    obtain ⟨rfl, rfl⟩ := hv.unique hu
    exact ⟨as, by rw [vtx_setAnswer, if_pos ⟨rfl, hlt⟩], hsay⟩
  · intro u s1 a1 hu hn; exact absurd (at_setAnswer.mp hu) hn
  · intro u s1 a1 hu s' a' sd hst hp
    have : v = u := hp
    subst this
    obtain ⟨rfl, rfl⟩ := hv.unique hu
    obtain ⟨y, hy, hpy⟩ := hcomp s' a' sd hst
    exact Or.inr ⟨y, hy, hpy.ext hext⟩
  · intro u s1 a1 hu hn; exact absurd (at_setAnswer.mp hu) hn

theorem BInv.doWork {ctx : Context} {w : World} (hr : Represents ctx w) (hw : WellFormed w) {a0 : Ask} {g : IG}
    {x : Work} {rest : List Work} (h : BInv w a0 g (x :: rest)) (thr : Nat) : Progress w a0 thr ctx g x rest := by
  cases x with
  | top ns q f => exact h.doTop hr hw thr
  | resolve zid v => exact h.doResolve hr hw thr
  | rewrite r v => exact h.doRewrite hr hw thr
  | refer v ns gl => exact h.doRefer hr hw thr
  | nsSub v ns sd => exact h.doNsSub hr hw thr

/-! ### Termination -/

theorem Core.length_le {w : World} (hw : WellFormed w) {a0 : Ask} (h0 : Short a0.name) {g : IG} (h : Core w a0 g) :
    g.verts.length ≤ (allAsks w a0).length := by
  let f : Nat → Str × Ask := fun v => ((g.vtx v).ns, ask (g.vtx v).query)
  have hnd : ((List.range g.verts.length).map f).Nodup := by
    rw [List.nodup_map_iff_inj_on List.nodup_range]
    intro x hx y hy hxy
    rw [List.mem_range] at hx hy
    have h1 : At g x (g.vtx x).ns (ask (g.vtx x).query) := ⟨hx, rfl, rfl⟩
    have h2 : At g y (g.vtx x).ns (ask (g.vtx x).query) := by
      refine ⟨hy, ?_, ?_⟩
      · exact (congrArg Prod.fst hxy).symm
      · exact (congrArg Prod.snd hxy).symm
    exact h.uniq _ _ _ _ h1 h2
  have hsub : (List.range g.verts.length).map f ⊆ allAsks w a0 := by
    intro p hp
    obtain ⟨v, hv, rfl⟩ := List.mem_map.mp hp
    rw [List.mem_range] at hv
    exact (h.reach v _ _ ⟨hv, rfl, rfl⟩).mem_universe hw h0
  have := (hnd.subperm hsub).length_le
  simpa using this

/-- Calls still to be made, at most. -/
def budget (w : World) (a0 : Ask) (g : IG) (ws : List Work) : Nat :=
  ((allAsks w a0).length - g.verts.length) * perNode w + wts w ws

theorem exec_ok {ctx : Context} {w : World} (hr : Represents ctx w) (hw : WellFormed w) {a0 : Ask} (h0 : Short a0.name)
    (thr : Nat) : ∀ (fuel : Nat) (g : IG) (ws : List Work), BInv w a0 g ws → budget w a0 g ws ≤ fuel →
    ∃ g', exec thr ctx fuel g ws = .ok g' ∧ BInv w a0 g' [] := by
  intro fuel
  induction fuel with
  | zero =>
    intro g ws h hb
    cases ws with
    | nil => exact ⟨g, rfl, h⟩
    | cons x ws =>
      exfalso
      have : 1 ≤ wt w x := by cases x <;> simp [wt]
      unfold budget at hb
      rw [wts_cons] at hb
      omega
  | succ fuel ih =>
    intro g ws h hb
    cases ws with
    | nil => exact ⟨g, rfl, h⟩
    | cons x ws =>
      obtain ⟨g', new, h1, h2, h3⟩ := h.doWork hr hw thr
      unfold exec
      rw [h1, Res.ok_bind]
      apply ih _ _ h2
      have hx : 1 ≤ wt w x := by cases x <;> simp [wt]
      have hle := h2.core.length_le hw h0
      unfold budget at hb ⊢
      rw [wts_cons] at hb
      rw [wts_append]
      rcases h3 with ⟨h3, h4⟩ | ⟨h3, h4⟩
      · simp only [h3]; omega
      · simp only [h3] at hle ⊢
        have e : (allAsks w a0).length - g.verts.length = ((allAsks w a0).length - (g.verts.length + 1)) + 1 := by omega
        rw [e, Nat.add_mul, Nat.one_mul] at hb
        omega

theorem exec_mono (thr : Nat) (ctx : Context) : ∀ (f : Nat) (g : IG) (ws : List Work) (g' : IG),
    exec thr ctx f g ws = .ok g' → ∀ f', f ≤ f' → exec thr ctx f' g ws = .ok g' := by
  intro f
  induction f with
  | zero =>
    intro g ws g' h f' _
    cases ws with
    | nil => simpa [exec] using h
    | cons x ws => simp [exec] at h
  | succ f ih =>
    intro g ws g' h f' hf
    cases ws with
    | nil => simpa [exec] using h
    | cons x ws =>
      obtain ⟨k, rfl⟩ : ∃ k, f' = k + 1 := ⟨f' - 1, by omega⟩
      unfold exec at h ⊢
      rcases hd : Groot.doWork thr ctx g x with r | _ | _ | _ | _ <;> rw [hd] at h <;> simp at h ⊢
      exact ih _ _ _ h k (by omega)

theorem BInv.start {ctx : Context} {w : World} (hr : Represents ctx w) (q : EC) (h0 : Short q.name) :
    BInv w (ask q) (IG.start q) (topWorks ctx q 0) := by
  have hat : ∀ v s a, At (IG.start q) v s a ↔ v = 0 ∧ s = [] ∧ a = ask q := by
    intro v s a
    unfold At IG.start IG.vtx
    simp only [List.length_cons, List.length_nil, Nat.zero_add, Nat.lt_one_iff]
    constructor
    · rintro ⟨rfl, h2, h3⟩; simp at h2 h3; exact ⟨rfl, h2, h3.symm⟩
    · rintro ⟨rfl, rfl, rfl⟩; simp
  refine ⟨⟨(hat _ _ _).mpr ⟨rfl, rfl, rfl⟩, ?_, ?_, ?_, ?_, ?_⟩, ?_, ?_, ?_⟩
  · intro s v
    unfold IG.start IG.vtx
    simp only [List.lookup_cons, List.lookup_nil, List.length_cons, List.length_nil, Nat.zero_add, Nat.lt_one_iff]
    by_cases h : s = []
    · subst h; simp; intro hv; subst hv; rfl
    · have : (s == []) = false := by simpa using h
      simp only [this]
      constructor
      · rintro ⟨_, h, _⟩; cases h
      · rintro ⟨rfl, h2⟩; simp at h2; exact absurd h2 h
  · intro u v s a hu hv; rw [((hat _ _ _).mp hu).1, ((hat _ _ _).mp hv).1]
  · intro v s a hv
    obtain ⟨rfl, rfl, rfl⟩ := (hat _ _ _).mp hv
    exact .start
  · intro v a hv
    obtain ⟨rfl, _⟩ := (hat _ _ _).mp hv
    rfl
  · intro e he; simp [IG.start] at he
  · intro x hx
    obtain ⟨t, ht, rfl⟩ := (mem_topWorks hr _ _ _).mp hx
    exact ⟨[], ask q, (hat _ _ _).mpr ⟨rfl, rfl, rfl⟩, ht, h0, .top _ t ht⟩
  · intro v s a hv hs
    exact absurd ((hat _ _ _).mp hv).2.1 hs
  · intro v s a hv s' a' sd hst
    obtain ⟨rfl, rfl, rfl⟩ := (hat _ _ _).mp hv
    right
    generalize hz : ([] : Str) = z at hst
    cases hst with
    | top _ _ ht => exact ⟨.top s' q 0, (mem_topWorks hr _ _ _).mpr ⟨s', ht, rfl⟩, rfl, rfl, rfl, rfl⟩
    | rewriteHere _ _ _ _ _ _ hs => exact absurd hz.symm hs
    | rewriteTop _ _ _ _ _ _ _ hs => exact absurd hz.symm hs
    | referral _ _ _ _ _ _ hs => exact absurd hz.symm hs

/-- Building a graph: terminates normally in a finished state. -/
theorem buildIG_ok {ctx : Context} {w : World} (hr : Represents ctx w) (hw : WellFormed w) (thr : Nat) (q : EC)
    (h0 : Short q.name) : ∃ N g, (∀ fuel, N ≤ fuel → buildIG fuel thr ctx q = .ok g) ∧ BInv w (ask q) g [] := by
  obtain ⟨g, h1, h2⟩ := exec_ok hr hw (a0 := ask q) h0 thr _ _ _ (BInv.start hr q h0) (le_refl _)
  exact ⟨_, g, fun fuel hf => exec_mono thr ctx _ _ _ _ h1 fuel hf, h2⟩

theorem buildIG_inv {ctx : Context} {w : World} (hr : Represents ctx w) (hw : WellFormed w) {thr fuel : Nat} {q : EC}
    (h0 : Short q.name) {g : IG} (h : buildIG fuel thr ctx q = .ok g) : BInv w (ask q) g [] := by
  obtain ⟨N, g', h1, h2⟩ := buildIG_ok hr hw thr q h0
  have e1 := exec_mono thr ctx _ _ _ _ h (max N fuel) (le_max_right _ _)
  have e2 := h1 (max N fuel) (le_max_left _ _)
  unfold buildIG at e2
  rw [e1] at e2
  obtain rfl := Res.ok.inj e2
  exact h2

end Groot
