import Verif.Lemmas.Process
import Verif.Lemmas.CharsRun

/-!
# Which parts of a job throw

`Calm P r`: `r` is no exception, and if it has a value then one with `P`.
-/

namespace Groot

open Spec Driver

def Calm {α : Type} (P : α → Prop) : Res α → Prop
  | .ok a => P a
  | .throw => False
  | _ => True

namespace Calm

variable {α β : Type} {P : α → Prop} {Q : β → Prop}

theorem bind {x : Res α} {f : α → Res β} (h : Calm P x) (hf : ∀ a, P a → Calm Q (f a)) : Calm Q (x >>= f) := by
  cases x with
  | ok a => exact hf a h
  | throw => exact h.elim
  | exit => trivial
  | ub => trivial
  | oof => trivial

theorem mono {R : α → Prop} {x : Res α} (h : Calm P x) (hr : ∀ a, P a → R a) : Calm R x := by
  cases x with
  | ok a => exact hr a h
  | throw => exact h.elim
  | exit => trivial
  | ub => trivial
  | oof => trivial

theorem foldlM {f : β → α → Res β} (hf : ∀ b a, Q b → Calm Q (f b a)) : ∀ (l : List α) (b : β), Q b → Calm Q (l.foldlM f b)
  | [], b, h => h
  | a :: l, b, h => by
    rw [List.foldlM_cons]
    exact (hf b a h).bind (fun b' h' => foldlM hf l b' h')

theorem concatM {f : α → Res (List β)} (hf : ∀ a, Calm (fun _ => True) (f a)) : ∀ l : List α, Calm (fun _ => True) (concatM f l)
  | [] => trivial
  | a :: l => by
    unfold Groot.concatM
    exact (hf a).bind (fun _ _ => (concatM hf l).bind (fun _ _ => trivial))

theorem noThrow {x : Res α} (h : Calm P x) : x ≠ .throw := by
  rintro rfl
  exact h

end Calm

/-- No record of the unsupported type. -/
def Supp (rs : List RR) : Prop := ∀ r ∈ rs, r.type ≠ .N

/-- None in the answers. -/
def SuppAns (as : List Answer) : Prop := ∀ a ∈ as, Supp a.rrs

theorem Supp.append {a b : List RR} (ha : Supp a) (hb : Supp b) : Supp (a ++ b) := by
  intro r hr
  rcases List.mem_append.mp hr with h | h
  · exact ha r h
  · exact hb r h

theorem Supp.one {r : RR} (h : r.type ≠ .N) : Supp [r] := by
  intro x hx
  rw [List.mem_singleton.mp hx]; exact h

theorem supp_nil : Supp [] := fun _ h => nomatch h

theorem suppAns_one {t : Tag} {ts : TypeSet} {rs : List RR} (h : Supp rs) : SuppAns [⟨t, ts, rs⟩] := by
  intro a ha
  rw [List.mem_singleton.mp ha]; exact h

theorem suppAns_nil : SuppAns [] := fun _ h => nomatch h

theorem SuppAns.append {a b : List Answer} (ha : SuppAns a) (hb : SuppAns b) : SuppAns (a ++ b) := by
  intro r hr
  rcases List.mem_append.mp hr with h | h
  · exact ha r h
  · exact hb r h

/-! ### Look-ups -/

theorem nodeTypes_calm (rs : List RR) : Calm (fun _ => True) (Zone.nodeTypes rs) := by
  unfold Zone.nodeTypes
  refine Calm.foldlM (fun ts r _ => ?_) rs 0 trivial
  unfold TypeSet.setBit
  split <;> trivial

theorem closestEncloser_calm (z : Zone) : ∀ (ls : List Label) (v : Nat), Calm (fun _ => True) (z.closestEncloser v ls)
  | [], _ => trivial
  | l :: ls, v => by
    unfold Zone.closestEncloser
    split
    · trivial
    · refine (nodeTypes_calm _).bind (fun ts _ => ?_)
      split
      · trivial
      · split
        · trivial
        · exact (closestEncloser_calm z ls _).bind (fun _ _ => trivial)

theorem wildcardScan_calm (q : EC) : ∀ (rs m : List RR) (t : TypeSet), Supp m →
    Calm (fun x => match x with | .inl r => r.type ≠ .N | .inr p => Supp p.1) (Zone.wildcardScan q rs m t)
  | [], m, t, h => h
  | r :: rs, m, t, h => by
    unfold Zone.wildcardScan
    split_ifs with hc
    · show r.type ≠ .N
      rw [hc]; decide
    · by_cases hN : r.type = .N
      · unfold TypeSet.getBit
        rw [if_pos hN]
        trivial
      · unfold TypeSet.getBit TypeSet.setChecked
        rw [if_neg hN, if_neg hN]
        simp only [Res.ok_bind]
        split
        · exact wildcardScan_calm q rs _ _ (h.append (.one hN))
        · exact wildcardScan_calm q rs _ _ h

theorem exactScan_calm (q : EC) : ∀ (rs m ns : List RR) (t : TypeSet), Supp m → Supp ns →
    Calm (fun x => match x with | .inl r => r.type ≠ .N | .inr p => Supp p.1 ∧ Supp p.2.1) (Zone.exactScan q rs m ns t)
  | [], m, ns, t, h, h' => ⟨h, h'⟩
  | r :: rs, m, ns, t, h, h' => by
    unfold Zone.exactScan
    by_cases hns : r.type = .NS
    · rw [if_pos hns]
      exact exactScan_calm q rs _ _ _ h (h'.append (.one (by rw [hns]; decide)))
    · rw [if_neg hns]
      by_cases hN : r.type = .N
      · unfold TypeSet.getBit
        rw [if_pos hN]
        trivial
      · unfold TypeSet.getBit TypeSet.setChecked
        rw [if_neg hN, if_neg hN]
        simp only [Res.ok_bind]
        split
        · split
          · exact hN
          · exact exactScan_calm q rs _ _ _ (h.append (.one hN)) h'
        · split
          · exact hN
          · exact exactScan_calm q rs _ _ _ h h'

theorem addGlue_supp (thr : Nat) (z : Zone) {ns : List RR} (h : Supp ns) : Supp (z.addGlue thr ns) := by
  unfold Zone.addGlue
  have : ∀ (ns acc : List RR), Supp ns → Supp acc → Supp (ns.foldl (fun merged record =>
      let nsName := stringToLabels record.rdata
      let merged := merged ++ [record]
      let r := z.ancestor thr nsName
      if nsName.length = r.2 then
        merged ++ (z.rrsAt r.1).filter (fun x => x.type == .A || x.type == .AAAA)
      else merged) acc) := by
    intro ns
    induction ns with
    | nil => exact fun acc _ h => h
    | cons r ns ih =>
      intro acc h ha
      rw [List.foldl_cons]
      refine ih _ (fun x hx => h x (List.mem_cons_of_mem _ hx)) ?_
      dsimp only
      have h1 : Supp (acc ++ [r]) := ha.append (.one (h r List.mem_cons_self))
      split
      · refine h1.append (fun x hx => ?_)
        have := (List.mem_filter.mp hx).2
        intro e
        rw [e] at this
        exact absurd this (by decide)
      · exact h1
  exact this ns [] h supp_nil

theorem dnameAns_supp (ts : TypeSet) (rs : List RR) : SuppAns (Zone.dnameAns ts rs) := by
  intro a ha
  obtain ⟨r, hr, rfl⟩ := List.mem_map.mp ha
  refine .one ?_
  intro e
  have := (List.mem_filter.mp hr).2
  rw [e] at this
  exact absurd this (by decide)

theorem ansOf_supp (q : EC) (t : TypeSet) {rs : List RR} (h : Supp rs) : SuppAns (Zone.ansOf q t rs) := by
  unfold Zone.ansOf
  refine SuppAns.append ?_ ?_
  · split
    · exact suppAns_one h
    · exact suppAns_nil
  · split
    · exact suppAns_one supp_nil
    · exact suppAns_nil

theorem cnameAns_supp (q : EC) (t : TypeSet) {r : RR} (h : r.type ≠ .N) : SuppAns (Zone.cnameAns q t r) := by
  unfold Zone.cnameAns
  split <;> exact suppAns_one (.one h)

theorem wildcardMatch_calm (z : Zone) (ce : Nat) (ts : TypeSet) (q : EC) :
    Calm (fun w => ∀ as, w = some as → SuppAns as) (z.wildcardMatch ce ts q) := by
  unfold Zone.wildcardMatch
  split
  · intro as h; cases h
  · refine (wildcardScan_calm q _ [] 0 supp_nil).bind (fun x hx => ?_)
    cases x with
    | inl r => intro as h; injection h with h; rw [← h]; exact cnameAns_supp q ts hx
    | inr p => intro as h; injection h with h; rw [← h]; exact ansOf_supp q _ hx

theorem lookup_calm (thr : Nat) (z : Zone) (q : EC) : Calm (fun r => SuppAns r.1) (z.lookup thr q) := by
  unfold Zone.lookup
  have wild : ∀ (ce : Nat) (ts : TypeSet), Calm (fun r : List Answer × Bool => SuppAns r.1) (z.wildcardMatch ce ts q >>= fun w =>
      match w with
      | some a => .ok (a, true)
      | none => .ok ([⟨.NX, q.types, []⟩], false)) := by
    intro ce ts
    refine (wildcardMatch_calm z ce ts q).bind (fun w hw => ?_)
    cases w with
    | none => exact suppAns_one supp_nil
    | some as => exact hw as rfl
  have filt : ∀ rs : List RR, Supp (rs.filter (fun x => x.type == .NS)) := by
    intro rs x hx e
    have := (List.mem_filter.mp hx).2
    rw [e] at this
    exact absurd this (by decide)
  refine (closestEncloser_calm z _ _).bind (fun r _ => ?_)
  refine (nodeTypes_calm _).bind (fun ts _ => ?_)
  split
  · split
    · split
      · exact dnameAns_supp _ _
      · exact wild _ _
    · split
      · dsimp only
        split
        · exact suppAns_one (addGlue_supp _ _ (filt _))
        · exact suppAns_nil
      · split
        · exact dnameAns_supp _ _
        · exact wild _ _
  · refine (exactScan_calm q _ [] [] 0 supp_nil supp_nil).bind (fun x hx => ?_)
    cases x with
    | inl r => exact cnameAns_supp q ts hx
    | inr p =>
      obtain ⟨m, ns, t⟩ := p
      have hg : Supp (if ts.has .NS then z.addGlue thr ns else ns) := by
        split
        · exact addGlue_supp _ _ hx.2
        · exact hx.2
      dsimp only
      generalize (if ts.has .NS then z.addGlue thr ns else ns) = ns' at hg ⊢
      split
      · exact suppAns_one hg
      · split
        · exact ansOf_supp _ _ (hx.1.append hg)
        · exact ansOf_supp _ _ hx.1

/-! ### The graph of a class -/

/-- No answer in the graph has a record of the unsupported type. -/
def SuppG (g : IG) : Prop := ∀ x ∈ g.verts, ∀ as, x.answer = some as → SuppAns as

theorem SuppG.vtx {g : IG} (h : SuppG g) (v : Nat) : ∀ as, (g.vtx v).answer = some as → SuppAns as := by
  unfold IG.vtx
  rw [List.getD_eq_getElem?_getD]
  cases hv : g.verts[v]? with
  | none => exact (fun _ h => nomatch h)
  | some x => exact h x (List.mem_of_getElem? hv)

theorem SuppG.setAnswer {g : IG} (h : SuppG g) (v : Nat) {as : List Answer} (ha : SuppAns as) : SuppG (g.setAnswer v as) := by
  intro x hx
  rcases mem_modify hx with hx | ⟨y, hy, rfl⟩
  · exact h x hx
  · exact fun bs hb => by injection hb with hb; rw [← hb]; exact ha

theorem SuppG.addVertex {g : IG} (h : SuppG g) (ns : Str) (q : EC) : SuppG (g.addVertex ns q) := by
  intro x hx
  rcases List.mem_append.mp hx with hx | hx
  · exact h x hx
  · rw [List.mem_singleton.mp hx]; exact (fun _ h => nomatch h)

theorem SuppG.insertNode {g : IG} (h : SuppG g) (ns : Str) (q : EC) (v : Nat) (side : Option Nat) : SuppG (g.insertNode ns q v side).1 := by
  unfold IG.insertNode
  split
  · exact h
  · exact h.addVertex ns q

theorem relevantZone_calm (ctx : Context) (ns : Str) (n : Name) : Calm (fun _ => True) (relevantZone ctx ns n) := by
  unfold relevantZone
  split
  · trivial
  · refine (Calm.foldlM (Q := fun _ => True) (fun best zid _ => ?_) _ none trivial).bind (fun _ _ => trivial)
    unfold relevantStep
    split
    · trivial
    · split
      · trivial
      · split
        · trivial
        · split <;> trivial

theorem answerWorks_calm (v : Nat) (a : Answer) : Calm (fun _ => True) (answerWorks v a) := by
  unfold answerWorks
  split
  · split <;> trivial
  · trivial
  · trivial

theorem dnameRest_calm : ∀ (l q : Name), Calm (fun _ => True) (dnameRest l q)
  | [], q => trivial
  | _ :: _, [] => trivial
  | l :: ls, q :: qs => by
    unfold dnameRest
    split
    · exact dnameRest_calm ls qs
    · trivial

theorem doWork_calm (thr : Nat) (ctx : Context) {g : IG} (hg : SuppG g) : ∀ w : Work, Calm (fun r => SuppG r.1) (doWork thr ctx g w)
  | .top ns q v => by
    unfold doWork
    refine (relevantZone_calm ctx ns q.name).bind (fun start _ => ?_)
    have hi := hg.insertNode ns q v none
    dsimp only
    split
    · exact hi
    · exact hi.setAnswer _ (suppAns_one supp_nil)
    · exact hi
  | .resolve zid v => by
    unfold doWork
    dsimp only
    split
    · trivial
    · refine (lookup_calm thr _ _).bind (fun r hr => ?_)
      refine Calm.bind (P := fun _ => True) (Calm.foldlM (fun acc a _ => ?_) _ [] trivial) (fun ws _ => ?_)
      · exact (answerWorks_calm v a).bind (fun _ _ => trivial)
      exact hg.setAnswer v hr
  | .rewrite record v => by
    unfold doWork
    have hd : Calm (fun _ => True) (processDname record (g.vtx v).query) := by
      unfold processDname
      exact (dnameRest_calm _ _).bind (fun _ _ => trivial)
    dsimp only
    split
    case' isTrue => refine Calm.bind (P := fun _ => True) (x := Res.ok _) trivial (fun q _ => ?_)
    case' isFalse => refine hd.bind (fun q _ => ?_)
    all_goals
      have hi := hg.insertNode (g.vtx v).ns q v none
      split
      · refine (relevantZone_calm ctx _ _).bind (fun start _ => ?_)
        cases start with
        | none => exact hg
        | some zid =>
          dsimp only
          split <;> exact hi
      · split
        · exact hi.setAnswer _ (suppAns_one supp_nil)
        · exact hi
  | .refer v ns glue => by
    unfold doWork
    dsimp only
    split
    · exact hg
    · split
      · exact hg
      · exact hg.addVertex _ _
  | .nsSub v ns side => by
    unfold doWork
    have hi := hg.insertNode ns (g.vtx v).query v side
    dsimp only
    split
    · exact hi
    · split
      · exact hi.setAnswer _ (suppAns_one supp_nil)
      · refine (relevantZone_calm ctx _ _).bind (fun start _ => ?_)
        cases start with
        | none => exact hi.setAnswer _ (suppAns_one supp_nil)
        | some zid => exact hi

theorem exec_calm (thr : Nat) (ctx : Context) : ∀ (fuel : Nat) (g : IG) (ws : List Work), SuppG g → Calm SuppG (exec thr ctx fuel g ws)
  | 0, g, [], h => h
  | _ + 1, g, [], h => h
  | 0, _, _ :: _, _ => trivial
  | fuel + 1, g, w :: ws, h => by
    unfold exec
    exact (doWork_calm thr ctx h w).bind (fun r hr => exec_calm thr ctx fuel r.1 _ hr)

theorem buildIG_calm (fuel thr : Nat) (ctx : Context) (q : EC) : Calm SuppG (buildIG fuel thr ctx q) := by
  refine exec_calm thr ctx fuel _ _ (fun x hx => ?_)
  rw [List.mem_singleton.mp hx]
  exact (fun _ h => nomatch h)

/-! ### The checks -/

/-- No exception. -/
abbrev Quiet {α : Type} (r : Res α) : Prop := Calm (fun _ => True) r

theorem answer0_calm {g : IG} (hg : SuppG g) (v : Nat) : Calm (fun a => Supp a.rrs) (g.answer0 v) := by
  unfold IG.answer0
  split
  · rename_i a as h
    exact hg.vtx v _ h a List.mem_cons_self
  · trivial

theorem answerIs_calm (g : IG) (v : Nat) (t : Tag) : Quiet (Check.answerIs g v t) := by
  unfold Check.answerIs
  split <;> trivial

theorem checkLoops_calm (g : IG) : ∀ (fuel v : Nat) (p : List Nat), Quiet (g.checkLoops fuel v p)
  | 0, _, _ => trivial
  | fuel + 1, v, p => by
    unfold IG.checkLoops
    split
    · refine Calm.bind (P := fun _ => True) ?_ (fun _ _ => trivial)
      unfold IG.prettyLoop
      refine Calm.bind (P := fun _ => True) (Calm.foldlM (fun acc a _ => ?_) _ [] trivial) (fun _ _ => trivial)
      refine Calm.bind (P := fun _ => True) ?_ (fun _ _ => trivial)
      unfold IG.loopNode
      split <;> trivial
    · refine Calm.foldlM (fun found e _ => ?_) _ none trivial
      cases found with
      | some x => trivial
      | none =>
        dsimp only
        split
        · refine (checkLoops_calm g fuel _ _).bind (fun r _ => ?_)
          cases r with
          | some x => trivial
          | none => exact checkLoops_calm g fuel _ _
        · exact checkLoops_calm g fuel _ _

theorem enumerate_calm (g : IG) : ∀ (fuel v : Nat) (p : List Nat) (s : IG.Enum), Quiet (g.enumerate fuel v p s)
  | 0, _, _, _ => trivial
  | fuel + 1, v, p, s => by
    unfold IG.enumerate
    refine Calm.bind (P := fun _ => True) ?_ (fun c _ => ?_)
    · unfold IG.cnameEnd
      split
      · trivial
      · split
        · split
          · split <;> trivial
          · trivial
        · trivial
    · dsimp only
      generalize (if c = true then _ else s) = s'
      split
      · trivial
      · refine Calm.bind (P := fun _ => True) (Calm.foldlM (fun s e _ => enumerate_calm g fuel _ _ s) _ _ trivial) (fun s _ => ?_)
        split <;> trivial

theorem toStr_calm {r : RR} (h : r.type ≠ .N) : Quiet r.toStr := by
  unfold RR.toStr
  rw [if_neg h]
  trivial

theorem responseReturned_calm (g : IG) (ts : TypeSet) : ∀ l, Quiet (Check.responseReturned g ts l)
  | [] => trivial
  | v :: l => by
    unfold Check.responseReturned
    split
    · trivial
    · split
      · split
        · exact responseReturned_calm g ts l
        · trivial
        · exact (responseReturned_calm g ts l).bind (fun _ _ => trivial)
      · exact responseReturned_calm g ts l

theorem rdataSet_calm (ts : TypeSet) : ∀ l, Quiet (Check.rdataSet ts l)
  | [] => trivial
  | r :: l => by
    unfold Check.rdataSet TypeSet.getBit
    split
    · trivial
    · exact (rdataSet_calm ts l).bind (fun _ _ => trivial)

theorem valueMismatches_calm {g : IG} (hg : SuppG g) (ts : TypeSet) (vs : List Str) : ∀ l, Quiet (Check.valueMismatches g ts vs l)
  | [] => trivial
  | v :: l => by
    have ih := valueMismatches_calm hg ts vs l
    unfold Check.valueMismatches
    split
    · refine (answer0_calm hg v).bind (fun a _ => ?_)
      dsimp only
      split
      · exact (rdataSet_calm ts _).bind (fun _ _ => ih.bind (fun _ _ => trivial))
      · split
        · exact ih.bind (fun _ _ => trivial)
        · exact ih
    · exact ih

theorem sameLoop_calm (g : IG) (ts : TypeSet) : ∀ l resp diff cn, Quiet (Check.sameLoop g ts l resp diff cn)
  | [], _, _, _ => trivial
  | v :: l, resp, diff, cn => by
    unfold Check.sameLoop
    split
    · split
      · exact sameLoop_calm g ts l _ _ _
      · trivial
      · split
        · exact sameLoop_calm g ts l _ _ _
        · dsimp only
          split <;> exact sameLoop_calm g ts l _ _ _
    · exact sameLoop_calm g ts l _ _ _

theorem cnameLoop_calm {g : IG} (hg : SuppG g) : ∀ l resp diff, Quiet (Check.cnameLoop g l resp diff)
  | [], _, _ => trivial
  | v :: l, none, diff => by
    unfold Check.cnameLoop
    exact (answer0_calm hg v).bind (fun _ _ => cnameLoop_calm hg l _ _)
  | v :: l, some b, diff => by
    unfold Check.cnameLoop
    exact (answer0_calm hg v).bind (fun _ _ => cnameLoop_calm hg l _ _)

theorem zeroAt_calm (g : IG) (first v : Nat) : ∀ l, Supp l → Quiet (Check.zeroAt g first v l)
  | [], _ => trivial
  | r :: l, h => by
    have ih := zeroAt_calm g first v l (fun x hx => h x (List.mem_cons_of_mem _ hx))
    unfold Check.zeroAt
    split
    · exact (toStr_calm (h r List.mem_cons_self)).bind (fun _ _ => ih.bind (fun _ _ => trivial))
    · exact ih

theorem zeroLoop_calm {g : IG} (hg : SuppG g) (ts : TypeSet) (first : Nat) : ∀ l, Quiet (Check.zeroLoop g ts first l)
  | [] => trivial
  | v :: l => by
    have ih := zeroLoop_calm hg ts first l
    unfold Check.zeroLoop
    split
    · split
      · exact ih
      · trivial
      · rename_i a as ha
        have hz := zeroAt_calm g first v _ (hg.vtx v _ ha a List.mem_cons_self)
        dsimp only
        split
        · exact ih.bind (fun _ _ => trivial)
        · exact hz.bind (fun _ _ => ih.bind (fun _ _ => trivial))
    · exact ih

theorem node_calm {g : IG} (hg : SuppG g) (ends : List Nat) (f : NodeFn) : Quiet (f.run g ends) := by
  cases f with
  | consistency ts =>
    show Quiet (Check.responseConsistency g ts ends)
    unfold Check.responseConsistency
    refine (sameLoop_calm g ts ends none false []).bind (fun p _ => ?_)
    refine (cnameLoop_calm hg p.2 none p.1).bind (fun d _ => ?_)
    split
    · split <;> trivial
    · trivial
  | returned ts => exact responseReturned_calm g ts ends
  | value ts vs => exact (valueMismatches_calm hg ts vs ends).bind (fun _ _ => trivial)
  | zeroTTL ts =>
    show Quiet (Check.zeroTTL g ts ends)
    unfold Check.zeroTTL
    split
    · trivial
    · exact zeroLoop_calm hg ts _ _

theorem allAliases_calm (g : IG) (ns : List Name) : ∀ l, Quiet (Check.allAliases g ns l)
  | [] => trivial
  | v :: l => by
    unfold Check.allAliases
    exact (answerIs_calm g v _).bind (fun _ _ => (allAliases_calm g ns l).bind (fun _ _ => trivial))

/-- The records met so far are of supported types. -/
def SuppMap (m : Check.DMap) : Prop := ∀ e ∈ m, e.1.type ≠ .N

theorem dnameStep_calm (g : IG) (v : Nat) {m : Check.DMap} (hm : SuppMap m) {r : RR} (hr : r.type ≠ .N) :
    Calm (fun x => ∀ m', x = .inr m' → SuppMap m') (Check.dnameStep g v m r) := by
  unfold Check.dnameStep
  dsimp only
  split
  · split
    · have : ∀ (l : Check.DMap) (acc : List Str), SuppMap l → Quiet (l.foldlM (fun acc e => do
          let x ← e.1.toStr
          Res.ok (acc ++ [x])) acc) := by
        intro l
        induction l with
        | nil => exact fun _ _ => trivial
        | cons e l ih =>
          intro acc hl
          rw [List.foldlM_cons]
          refine Calm.bind (P := fun _ => True) ?_ (fun acc' _ => ih acc' (fun x hx => hl x (List.mem_cons_of_mem _ hx)))
          exact (toStr_calm (hl e List.mem_cons_self)).bind (fun _ _ => trivial)
      refine (this m [] hm).bind (fun _ _ => ?_)
      intro m' e; cases e
    · intro m' e
      injection e with e
      subst e
      intro x hx
      obtain ⟨y, hy, rfl⟩ := List.mem_map.mp hx
      split
      · exact hm y hy
      · exact hm y hy
  · intro m' e
    injection e with e
    subst e
    intro x hx
    rcases List.mem_append.mp hx with hx | hx
    · exact hm x hx
    · rw [List.mem_singleton.mp hx]; exact hr

theorem dnameNode_calm (g : IG) (v : Nat) : ∀ (l : List RR) (m : Check.DMap), SuppMap m → Supp l →
    Calm (fun x => ∀ m', x = .inr m' → SuppMap m') (Check.dnameNode g v m l)
  | [], m, hm, _ => fun m' e => by injection e with e; rw [← e]; exact hm
  | r :: l, m, hm, hl => by
    unfold Check.dnameNode
    refine (dnameStep_calm g v hm (hl r List.mem_cons_self)).bind (fun x hx => ?_)
    cases x with
    | inl w => intro m' e; cases e
    | inr m' => exact dnameNode_calm g v l m' (hx m' rfl) (fun x hx => hl x (List.mem_cons_of_mem _ hx))

theorem infiniteDnameLoop_calm {g : IG} (hg : SuppG g) : ∀ (l : List Nat) (m : Check.DMap), SuppMap m → Quiet (Check.infiniteDnameLoop g m l)
  | [], _, _ => trivial
  | v :: l, m, hm => by
    unfold Check.infiniteDnameLoop
    refine (answerIs_calm g v _).bind (fun b _ => ?_)
    split
    · refine (dnameNode_calm g v _ m hm ?_).bind (fun x hx => ?_)
      · intro r hr
        obtain ⟨rs, hrs, hr⟩ := List.mem_flatten.mp hr
        obtain ⟨a, ha, rfl⟩ := List.mem_map.mp hrs
        cases h : (g.vtx v).answer with
        | none => rw [h] at ha; cases ha
        | some as => rw [h] at ha; exact hg.vtx v as h a ha r hr
      · cases x with
        | inl w => trivial
        | inr m' => exact infiniteDnameLoop_calm hg l m' (hx m' rfl)
    · exact infiniteDnameLoop_calm hg l m hm

theorem lastDelegation_calm (g : IG) (n : Name) : ∀ (l : List Nat) (best : Option (Nat × Nat)), Quiet (Check.lastDelegation g n best l)
  | [], _ => trivial
  | v :: l, best => by
    unfold Check.lastDelegation
    refine (answerIs_calm g v _).bind (fun b _ => ?_)
    split
    · split
      · exact lastDelegation_calm g n _ _
      · trivial
      · split <;> exact lastDelegation_calm g n _ _
    · exact lastDelegation_calm g n _ _

theorem lameLoop_calm (g : IG) (q : EC) : ∀ l : List Nat, Quiet (Check.lameLoop g q l)
  | [] => trivial
  | v :: l => by
    unfold Check.lameLoop
    refine (answerIs_calm g v _).bind (fun b _ => ?_)
    split
    · split
      · exact lameLoop_calm g q _
      · trivial
      · refine (lameLoop_calm g q _).bind (fun _ _ => ?_)
        split <;> trivial
    · exact lameLoop_calm g q _

theorem labelListToString_calm (ds : List Name) : Quiet (labelListToString ds) := by
  unfold labelListToString
  dsimp only
  split <;> trivial

theorem nsContact_calm (g : IG) (ds : List Name) : ∀ l : List Nat, Quiet (Check.nsContact g ds l)
  | [] => trivial
  | v :: l => by
    unfold Check.nsContact
    split
    · exact (labelListToString_calm ds).bind (fun _ _ => (nsContact_calm g ds l).bind (fun _ _ => trivial))
    · exact nsContact_calm g ds l

theorem hopServers_calm {g : IG} (hg : SuppG g) : ∀ (l : List Nat) (acc : List Str), Quiet (Check.hopServers g acc l)
  | [], _ => trivial
  | v :: l, acc => by
    unfold Check.hopServers
    split
    · exact (answer0_calm hg v).bind (fun _ _ => hopServers_calm hg l _)
    · exact hopServers_calm hg l _

theorem rewriteCount_calm {g : IG} (hg : SuppG g) : ∀ l : List Nat, Quiet (Check.rewriteCount g l)
  | [] => trivial
  | v :: l => by
    unfold Check.rewriteCount
    split
    · exact (answer0_calm hg v).bind (fun _ _ => (rewriteCount_calm hg l).bind (fun _ _ => trivial))
    · exact rewriteCount_calm hg l

theorem queryRewrite_calm (g : IG) (ds : List Name) : ∀ l : List Nat, Quiet (Check.queryRewrite g ds l)
  | [] => trivial
  | v :: l => by
    unfold Check.queryRewrite
    refine (answerIs_calm g v _).bind (fun b _ => ?_)
    split
    · split
      · exact (labelListToString_calm ds).bind (fun _ _ => (queryRewrite_calm g ds _).bind (fun _ _ => trivial))
      · exact queryRewrite_calm g ds _
    · exact queryRewrite_calm g ds _

theorem blackholeLoop_calm {g : IG} (hg : SuppG g) (last : Nat) : ∀ l : List Nat, Quiet (Check.blackholeLoop g last l)
  | [] => trivial
  | v :: l => by
    unfold Check.blackholeLoop
    refine (answerIs_calm g v _).bind (fun b _ => ?_)
    split
    · split
      · exact (answer0_calm hg last).bind (fun _ _ => trivial)
      · trivial
    · exact blackholeLoop_calm hg last l

/-- Only a value that is no number throws. -/
theorem path_calm {g : IG} (hg : SuppG g) (p : List Nat) {f : PathFn} (hf : f ≠ .misfit false) : Quiet (f.run g p) := by
  cases f with
  | hops n =>
    show Quiet (Check.hops g n p)
    unfold Check.hops
    refine (hopServers_calm hg p []).bind (fun _ _ => ?_)
    split
    · split <;> trivial
    · trivial
  | rewrites n =>
    show Quiet (Check.rewrites g n p)
    unfold Check.rewrites
    refine (rewriteCount_calm hg p).bind (fun _ _ => ?_)
    split
    · split <;> trivial
    · trivial
  | delegation =>
    show Quiet (Check.delegationConsistency g p)
    unfold Check.delegationConsistency
    split
    · split
      · refine (lastDelegation_calm g _ _ none).bind (fun b _ => ?_)
        cases b with
        | none => trivial
        | some b =>
          obtain ⟨v, u⟩ := b
          show Quiet (Check.compareDelegation g _ v u)
          unfold Check.compareDelegation
          refine (answer0_calm hg v).bind (fun _ _ => (answer0_calm hg u).bind (fun _ _ => ?_))
          dsimp only
          split <;> split <;> trivial
      · trivial
    · trivial
  | infiniteDname => exact infiniteDnameLoop_calm hg p [] (fun _ h => nomatch h)
  | lame =>
    show Quiet (Check.lameDelegation g p)
    unfold Check.lameDelegation
    split
    · split
      · exact lameLoop_calm g _ _
      · trivial
    · trivial
  | queryRewrite ds => exact queryRewrite_calm g ds p
  | nsContact ds => exact nsContact_calm g ds p
  | blackholing =>
    show Quiet (Check.blackholing g p)
    unfold Check.blackholing
    split
    · trivial
    · exact blackholeLoop_calm hg _ p
  | allAliases ds => exact allAliases_calm g ds p
  | dnameLength =>
    show Quiet (Check.dnameLength g p)
    unfold Check.dnameLength
    split
    · exact (answerIs_calm g _ _).bind (fun _ _ => trivial)
    · trivial
  | misfit b =>
    cases b with
    | true => trivial
    | false => exact absurd rfl hf

theorem concatM_calm' {α β : Type} {f : α → Res (List β)} : ∀ l : List α, (∀ a ∈ l, Quiet (f a)) → Quiet (concatM f l)
  | [], _ => trivial
  | a :: l, h => by
    unfold Groot.concatM
    exact (h a List.mem_cons_self).bind (fun _ _ => (concatM_calm' l (fun x hx => h x (List.mem_cons_of_mem _ hx))).bind (fun _ _ => trivial))

theorem processEC_calm (fuel thr : Nat) (ctx : Context) {pf : List PathFn} (hp : .misfit false ∉ pf) (nf : List NodeFn) (q : EC) :
    Quiet (processEC fuel thr ctx pf nf q) := by
  unfold processEC
  refine (buildIG_calm fuel thr ctx q).bind (fun g hg => ?_)
  refine (checkLoops_calm g fuel 0 []).bind (fun _ _ => ?_)
  refine Calm.bind (P := fun _ => True) ?_ (fun _ _ => trivial)
  unfold checkProperties
  refine (enumerate_calm g fuel 0 [] {}).bind (fun s _ => ?_)
  refine Calm.bind (P := fun _ => True) (Calm.concatM (fun p => concatM_calm' pf (fun f hf => path_calm hg p (fun e => hp (e ▸ hf)))) _) (fun _ _ => ?_)
  exact (Calm.concatM (fun f => node_calm hg _ f) _).bind (fun _ _ => trivial)

/-! ### The classes and the structural check -/

theorem searchNode_calm : ∀ (fuel : Nat) (g : LGraph) (v : Nat) (ls : List Label) (i : Nat), Quiet (LGraph.searchNode fuel g v ls i)
  | 0, _, _, _, _ => trivial
  | fuel + 1, g, v, ls, i => by
    unfold LGraph.searchNode
    split
    · trivial
    · split
      · trivial
      · dsimp only
        refine Calm.bind (P := fun _ => True) (Calm.foldlM (fun st e _ => ?_) _ _ trivial) (fun p _ => ?_)
        · split
          · exact (searchNode_calm fuel _ _ _ _).bind (fun _ _ => trivial)
          · trivial
        · skip
          split
          · refine (searchNode_calm fuel _ _ _ _).bind (fun _ _ => ?_)
            trivial
          · trivial

theorem subDomainECs_calm (ts : TypeSet) : ∀ (fuel : Nat) (g : LGraph) (v : Nat) (n : Name) (skip st : Bool),
    Quiet (LGraph.subDomainECs ts fuel g v n skip st)
  | 0, _, _, _, _, _ => trivial
  | fuel + 1, g, v, n, skip, st => by
    unfold LGraph.subDomainECs
    dsimp only
    split
    · trivial
    · split
      · trivial
      · refine Calm.bind (P := fun _ => True) (Calm.foldlM (fun st e _ => ?_) _ _ trivial) (fun p _ => trivial)
        split
        · exact (subDomainECs_calm ts fuel _ _ _ _ _).bind (fun _ _ => trivial)
        · exact (subDomainECs_calm ts fuel _ _ _ _ _).bind (fun _ _ => trivial)

theorem generateECs_calm (fuel : Nat) (g : LGraph) (r : LGraph.Req) : Quiet (LGraph.generateECs fuel g r) := by
  unfold LGraph.generateECs
  dsimp only
  split
  · trivial
  · refine (searchNode_calm fuel g 0 _ 0).bind (fun p _ => ?_)
    skip
    split
    · trivial
    · split
      · trivial
      · split
        · split
          · refine Calm.foldlM (fun st e _ => ?_) _ _ trivial
            exact (subDomainECs_calm _ fuel _ _ _ _ _).bind (fun _ _ => trivial)
          · trivial
        · trivial

/-- Every zone has a name server. -/
def Served (ctx : Context) : Prop := ∀ id, (ctx.zones.lookup id).isSome → (ctx.zoneNs.lookup id).isSome

theorem structStep_calm (thr : Nat) {ctx : Context} (hc : Served ctx) {st : LGraph.SState}
    (h : ∀ p ∈ st.parents ++ st.children, (ctx.zoneNs.lookup p.1).isSome) (zv : Nat × Nat) :
    Calm (fun st => ∀ p ∈ st.parents ++ st.children, (ctx.zoneNs.lookup p.1).isSome) (LGraph.structStep thr ctx st zv) := by
  unfold LGraph.structStep
  split
  · trivial
  · rename_i z hz
    have hs : (ctx.zoneNs.lookup zv.1).isSome := hc zv.1 (by rw [hz]; rfl)
    simp only [List.mem_append] at h
    dsimp only
    split
    · intro p hp
      simp only [List.mem_append, List.mem_singleton] at hp
      rcases hp with hp | hp | rfl
      · exact h p (.inl hp)
      · exact h p (.inr hp)
      · exact hs
    · split
      · split
        · intro p hp
          simp only [List.mem_append, List.mem_singleton] at hp
          rcases hp with (hp | rfl) | hp
          · exact h p (.inl hp)
          · exact hs
          · exact h p (.inr hp)
        · split
          · intro p hp
            simp only [List.mem_append, List.mem_singleton] at hp
            rcases hp with rfl | hp
            · exact hs
            · exact h p (.inr hp)
          · intro p hp
            exact h p (List.mem_append.mp hp)
      · intro p hp
        simp only [List.mem_append, List.mem_singleton] at hp
        rcases hp with (hp | rfl) | hp
        · exact h p (.inl hp)
        · exact hs
        · exact h p (.inr hp)

theorem comparePair_calm (ctx : Context) (kind : Nat) {p c : LGraph.ZGN} (hp : (ctx.zoneNs.lookup p.1).isSome) (hc : (ctx.zoneNs.lookup c.1).isSome) :
    Quiet (LGraph.comparePair ctx kind p c) := by
  obtain ⟨a, ha⟩ := Option.isSome_iff_exists.mp hp
  obtain ⟨b, hb⟩ := Option.isSome_iff_exists.mp hc
  unfold LGraph.comparePair
  dsimp only
  rw [ha, hb]
  split
  · split <;> trivial
  · split
    · split <;> trivial
    · trivial

theorem pairs_mem {α : Type} : ∀ {l : List α} {x : α × α}, x ∈ LGraph.allPairs l → x.1 ∈ l ∧ x.2 ∈ l
  | [], _, h => by cases h
  | a :: l, x, h => by
    unfold LGraph.allPairs at h
    rcases List.mem_append.mp h with h | h
    · obtain ⟨y, hy, rfl⟩ := List.mem_map.mp h
      exact ⟨List.mem_cons_self, List.mem_cons_of_mem _ hy⟩
    · exact ⟨List.mem_cons_of_mem _ (pairs_mem h).1, List.mem_cons_of_mem _ (pairs_mem h).2⟩

theorem foldlM_calm' {α β : Type} {f : β → α → Res β} : ∀ (l : List α) (b : β), (∀ b, ∀ a ∈ l, Quiet (f b a)) → Quiet (l.foldlM f b)
  | [], _, _ => trivial
  | a :: l, b, h => by
    rw [List.foldlM_cons]
    exact (h b a List.mem_cons_self).bind (fun b' _ => foldlM_calm' l b' (fun b x hx => h b x (List.mem_cons_of_mem _ hx)))

theorem trimGlue_fst (n : Name) (p : LGraph.ZGN) : (LGraph.trimGlue n p).1 = p.1 := by
  unfold LGraph.trimGlue
  split <;> rfl

theorem structuralCheck_calm (thr : Nat) (g : LGraph) {ctx : Context} (hc : Served ctx) (d : Str) (n : Nat) :
    Quiet (LGraph.structuralCheck thr g ctx d n) := by
  unfold LGraph.structuralCheck
  dsimp only
  split
  · refine Calm.bind (P := fun st : LGraph.SState => ∀ p ∈ st.parents ++ st.children, (ctx.zoneNs.lookup p.1).isSome)
      (Calm.foldlM (fun st zv h => structStep_calm thr hc h zv) _ _ (fun _ h => nomatch h)) (fun st hst => ?_)
    have hp : ∀ p ∈ st.parents.map (LGraph.trimGlue st.childZone), (ctx.zoneNs.lookup p.1).isSome := by
      intro p hp
      obtain ⟨q, hq, rfl⟩ := List.mem_map.mp hp
      rw [trimGlue_fst]
      exact hst q (List.mem_append_left _ hq)
    have hch : ∀ p ∈ st.children, (ctx.zoneNs.lookup p.1).isSome := fun p h => hst p (List.mem_append_right _ h)
    generalize st.parents.map (LGraph.trimGlue st.childZone) = ps at hp ⊢
    refine Calm.bind (P := fun _ => True) (foldlM_calm' _ _ (fun acc j hj => ?_)) (fun _ _ => ?_)
    · refine Calm.bind (P := fun _ => True) ?_ (fun _ _ => trivial)
      rcases List.mem_append.mp hj with hj | hj
      · rcases List.mem_append.mp hj with hj | hj
        · obtain ⟨p, h1, hj⟩ := List.mem_flatMap.mp hj
          obtain ⟨c, h2, rfl⟩ := List.mem_map.mp hj
          exact comparePair_calm ctx _ (hp p h1) (hch c h2)
        · obtain ⟨x, hx, rfl⟩ := List.mem_map.mp hj
          exact comparePair_calm ctx _ (hp _ (pairs_mem hx).1) (hp _ (pairs_mem hx).2)
      · obtain ⟨x, hx, rfl⟩ := List.mem_map.mp hj
        exact comparePair_calm ctx _ (hch _ (pairs_mem hx).1) (hch _ (pairs_mem hx).2)
    · split <;> trivial
  · trivial

theorem task_calm (fuel thr : Nat) {ctx : Context} (hc : Served ctx) (lg : LGraph) {job : Job} (hj : .misfit false ∉ job.pathFns) (t : Task) :
    Quiet (Driver.process fuel thr ctx lg job t) := by
  cases t with
  | ec q => exact (processEC_calm fuel thr ctx hj _ q).bind (fun _ _ => trivial)
  | structural n d => exact structuralCheck_calm thr lg hc d n

theorem runJob_calm (fuel thr : Nat) {ctx : Context} (hc : Served ctx) (lg : LGraph) (t : Totals) {job : Job} (hj : .misfit false ∉ job.pathFns) :
    Quiet (runJob fuel thr ctx lg t job) := by
  unfold runJob runSequential
  refine Calm.bind (P := fun _ => True) ?_ (fun _ _ => trivial)
  refine (generateECs_calm fuel lg _).bind (fun r _ => ?_)
  exact (Calm.concatM (fun t => task_calm fuel thr hc r.1 hj t) _).bind (fun _ _ => trivial)

end Groot
