import Verif.Lemmas.Chars
import Verif.Lemmas.Build2

/-!
# The characters of the report come from the input
-/

namespace Groot

open Spec Driver

section

variable {K : Str → Prop}

/-- The context. -/
def CtxHas (K : Str → Prop) (ctx : Context) : Prop :=
  (∀ s ∈ ctx.top, Has K s) ∧ (∀ p ∈ ctx.zoneNs, Has K p.2) ∧ ∀ p ∈ ctx.zones, ZHas K p.2

/-- A vertex of the graph of a class. -/
def VHas (K : Str → Prop) (x : IVtx) : Prop := Has K x.ns ∧ NameHas K x.query.name ∧ ∀ as, x.answer = some as → AnsHas K as

/-- The graph of a class. -/
def IGHas (K : Str → Prop) (g : IG) : Prop := ∀ x ∈ g.verts, VHas K x

/-- A pending call. -/
def WorkHas (K : Str → Prop) : Work → Prop
  | .top ns q _ => Has K ns ∧ NameHas K q.name
  | .resolve _ _ => True
  | .rewrite r _ => RRHas K r
  | .refer _ ns _ => Has K ns
  | .nsSub _ ns _ => Has K ns

theorem IGHas.vtx (hk : TextLike K) {g : IG} (h : IGHas K g) (v : Nat) : VHas K (g.vtx v) := by
  unfold IG.vtx
  rw [List.getD_eq_getElem?_getD]
  cases hv : g.verts[v]? with
  | none => exact ⟨(has_nil hk), (fun _ h => nomatch h), (fun _ h => nomatch h)⟩
  | some x => exact h x (List.mem_of_getElem? hv)

theorem IGHas.clean (hk : TextLike K) {g : IG} (h : IGHas K g) : CleanG (Has K) g :=
  fun v => ⟨ec_toStr_has hk (h.vtx hk v).2.1, (h.vtx hk v).1, fun as ha a h1 r h2 => ((h.vtx hk v).2.2 as ha a h1 r h2).clean hk⟩

theorem IGHas.setAnswer {g : IG} (h : IGHas K g) (v : Nat) {as : List Answer} (ha : AnsHas K as) : IGHas K (g.setAnswer v as) := by
  intro x hx
  rcases mem_modify hx with hx | ⟨y, hy, rfl⟩
  · exact h x hx
  · exact ⟨(h y hy).1, (h y hy).2.1, fun bs hb => by injection hb with hb; rw [← hb]; exact ha⟩

theorem IGHas.addVertex {g : IG} (h : IGHas K g) {ns : Str} {q : EC} (hn : Has K ns) (hq : NameHas K q.name) : IGHas K (g.addVertex ns q) := by
  intro x hx
  rcases List.mem_append.mp hx with hx | hx
  · exact h x hx
  · rw [List.mem_singleton.mp hx]; exact ⟨hn, hq, (fun _ h => nomatch h)⟩

theorem IGHas.insertNode {g : IG} (h : IGHas K g) {ns : Str} {q : EC} (hn : Has K ns) (hq : NameHas K q.name) (v : Nat) (side : Option Nat) :
    IGHas K (g.insertNode ns q v side).1 := by
  unfold IG.insertNode
  split
  · exact h
  · exact h.addVertex hn hq

theorem topWorks_has {ctx : Context} (hc : CtxHas K ctx) {q : EC} (hq : NameHas K q.name) (v : Nat) : ∀ w ∈ topWorks ctx q v, WorkHas K w := by
  intro w hw
  obtain ⟨ns, hns, rfl⟩ := List.mem_map.mp hw
  exact ⟨hc.1 ns hns, hq⟩

theorem matchNsGlue_mem : ∀ (l : List RR) (p : RR × List RR), p ∈ matchNsGlue l → p.1 ∈ l
  | [], p, h => by cases h
  | r :: l, p, h => by
    unfold matchNsGlue at h
    split_ifs at h
    · rcases List.mem_cons.mp h with h | h
      · rw [h]; simp
      · simp [matchNsGlue_mem l p h]
    · simp [matchNsGlue_mem l p h]

theorem answerWorks_has {a : Answer} (ha : ∀ r ∈ a.rrs, RRHas K r) (v : Nat) : Yields (fun ws => ∀ w ∈ ws, WorkHas K w) (answerWorks v a) := by
  unfold answerWorks
  split
  · split
    · exact .ub
    · rename_i r rs hr
      exact .ok (fun w hw => by rw [List.mem_singleton.mp hw]; exact ha r (by rw [hr]; simp))
  · refine .ok (fun w hw => ?_)
    obtain ⟨p, hp, rfl⟩ := List.mem_map.mp hw
    exact (ha _ (matchNsGlue_mem _ _ hp)).2
  · exact .ok (by simp)

/-- What one call leaves. -/
def StepHas (K : Str → Prop) (r : IG × List Work) : Prop := IGHas K r.1 ∧ ∀ w ∈ r.2, WorkHas K w

theorem dnameRest_mem : ∀ (l q : Name), Yields (fun r => ∀ x ∈ r, x ∈ q) (dnameRest l q)
  | [], q => .ok (fun _ h => h)
  | _ :: _, [] => .ub
  | l :: ls, q :: qs => by
    unfold dnameRest
    split_ifs
    · exact fun r hr x hx => List.mem_cons_of_mem _ (dnameRest_mem ls qs r hr x hx)
    · exact .exit

theorem nameHas_append {a b : Name} (ha : NameHas K a) (hb : NameHas K b) : NameHas K (a ++ b) := by
  intro l hl
  rcases List.mem_append.mp hl with h | h
  · exact ha l h
  · exact hb l h

theorem doWork_has (hk : TextLike K) (thr : Nat) {ctx : Context} (hc : CtxHas K ctx) {g : IG} (hg : IGHas K g) : ∀ {w : Work}, WorkHas K w →
    Yields (StepHas K) (doWork thr ctx g w)
  | .top ns q v, hw => by
    unfold doWork
    refine .any (fun start => ?_)
    have hi := hg.insertNode hw.1 hw.2 v none
    dsimp only
    split
    · exact .ok ⟨hi, by simp [WorkHas]⟩
    · exact .ok ⟨hi.setAnswer _ .none, by simp⟩
    · exact .ok ⟨hi, by simp⟩
  | .resolve zid v, _ => by
    unfold doWork
    dsimp only
    split
    · exact .ub
    · rename_i z hz
      refine .bind (lookup_has (hc.2.2 _ (mem_of_lookup hz)) thr _) (fun r hr => ?_)
      refine .bind (Q := fun ws => ∀ w ∈ ws, WorkHas K w) (.foldlM _ _ (fun b hb a ha => ?_) (by simp)) (fun ws hws => .ok ⟨hg.setAnswer v hr, hws⟩)
      refine .bind (answerWorks_has (hr a ha) v) (fun w hw => .ok ?_)
      intro x hx
      rcases List.mem_append.mp hx with hx | hx
      · exact hb x hx
      · exact hw x hx
  | .rewrite r v, hw => by
    have hw : RRHas K r := hw
    have hQ : Yields (fun q : EC => NameHas K q.name) (if r.type = .CNAME then (.ok (processCname r (g.vtx v).query) : Res EC)
        else processDname r (g.vtx v).query) := by
      split_ifs
      · exact .ok (stringToLabels_has hk hw.2)
      · unfold processDname
        refine .bind (dnameRest_mem _ _) (fun rest hrest => .ok ?_)
        exact nameHas_append (stringToLabels_has hk hw.2) (fun l hl => (hg.vtx hk v).2.1 l (hrest l hl))
    cases hq : (if r.type = .CNAME then (.ok (processCname r (g.vtx v).query) : Res EC) else processDname r (g.vtx v).query) with
    | ok newQ =>
      have hn := hQ newQ hq
      rw [doWork_rewrite hq]
      unfold rewriteTail
      have hi := hg.insertNode (hg.vtx hk v).1 hn v none
      split_ifs
      · refine .any (fun start => ?_)
        split
        · dsimp only
          split
          · exact .ok ⟨hi, by simp [WorkHas]⟩
          · exact .ok ⟨hi, by simp⟩
        · exact .ok ⟨hg, topWorks_has hc hn v⟩
      · dsimp only
        split
        · exact .ok ⟨hi.setAnswer _ .none, by simp⟩
        · exact .ok ⟨hi, by simp⟩
    | _ =>
      intro x hx
      exfalso
      unfold doWork at hx
      by_cases hcn : r.type = .CNAME
      · rw [if_pos hcn] at hq; cases hq
      · rw [if_neg hcn] at hq
        dsimp only at hx
        rw [if_neg hcn, hq] at hx
        cases hx
  | .refer v ns glue, hw => by
    have hw : Has K ns := hw
    unfold doWork
    dsimp only
    split_ifs
    · exact .ok ⟨hg, by simpa [WorkHas] using hw⟩
    · split
      · exact .ok ⟨hg, by simpa [WorkHas] using hw⟩
      · refine .ok ⟨hg.addVertex (has_nil hk) (stringToLabels_has hk hw), ?_⟩
        intro x hx
        rcases List.mem_append.mp hx with hx | hx
        · exact topWorks_has hc (stringToLabels_has hk hw) _ x hx
        · rw [List.mem_singleton.mp hx]; exact hw
  | .nsSub v ns side, hw => by
    have hw : Has K ns := hw
    unfold doWork
    dsimp only
    have hi := hg.insertNode hw (hg.vtx hk v).2.1 v side
    split
    · exact .ok ⟨hi, by simp⟩
    · split
      · exact .ok ⟨hi.setAnswer _ .none, by simp⟩
      · refine .any (fun start => ?_)
        split
        · exact .ok ⟨hi, by simp [WorkHas]⟩
        · exact .ok ⟨hi.setAnswer _ .none, by simp⟩

theorem exec_has (hk : TextLike K) (thr : Nat) {ctx : Context} (hc : CtxHas K ctx) : ∀ (fuel : Nat) (g : IG) (ws : List Work), IGHas K g → (∀ w ∈ ws, WorkHas K w) →
    Yields (IGHas K) (exec thr ctx fuel g ws)
  | 0, g, [], hg, _ => by unfold exec; exact .ok hg
  | _ + 1, g, [], hg, _ => by unfold exec; exact .ok hg
  | 0, _, _ :: _, _, _ => by unfold exec; exact .oof
  | fuel + 1, g, w :: ws, hg, hw => by
    unfold exec
    refine .bind (doWork_has hk thr hc hg (hw w (by simp))) (fun r hr => exec_has hk thr hc fuel _ _ hr.1 ?_)
    intro x hx
    rcases List.mem_append.mp hx with hx | hx
    · exact hr.2 x hx
    · exact hw x (by simp [hx])

theorem buildIG_has (hk : TextLike K) (fuel thr : Nat) {ctx : Context} (hc : CtxHas K ctx) {q : EC} (hq : NameHas K q.name) :
    Yields (IGHas K) (buildIG fuel thr ctx q) := by
  refine exec_has hk thr hc fuel _ _ ?_ (topWorks_has hc hq 0)
  intro x hx
  rw [List.mem_singleton.mp hx]
  exact ⟨(has_nil hk), hq, (fun _ h => nomatch h)⟩

/-! ## The tasks -/

/-- The label graph. -/
abbrev LGHas (K : Str → Prop) (g : LGraph) : Prop := TrieHas K (fun _ => True) g

theorem LGHas.setLen {g : LGraph} (h : LGHas K g) (v : Nat) (n : Int) : LGHas K (LGraph.setLen g v n) := TrieHas.setData h v trivial

/-- A task. -/
def TaskHas (K : Str → Prop) : Task → Prop
  | .ec q => NameHas K q.name
  | .structural _ d => Has K d

theorem ecName_has {label : Label} {parent : Name} (hl : Has K label) (hp : NameHas K parent) (skip : Bool) : NameHas K (LGraph.ecName label parent skip) := by
  have : NameHas K (parent ++ [label]) := nameHas_append hp (fun l h => by rw [List.mem_singleton.mp h]; exact hl)
  unfold LGraph.ecName
  split_ifs <;> assumption

theorem subDomainECs_has (hk : TextLike K) (types : TypeSet) : ∀ (fuel : Nat) (g : LGraph) (start : Nat) (parent : Name) (skip structural : Bool),
    LGHas K g → NameHas K parent → Yields (fun r => LGHas K r.1 ∧ ∀ t ∈ r.2, TaskHas K t) (LGraph.subDomainECs types fuel g start parent skip structural)
  | 0, _, _, _, _, _, _, _ => by unfold LGraph.subDomainECs; exact .oof
  | fuel + 1, g, start, parent, skip, structural, hg, hp => by
    have hname := ecName_has (TrieHas.label hk hg start) hp skip
    unfold LGraph.subDomainECs
    dsimp only
    split_ifs
    · exact .ok ⟨hg, by simp⟩
    · exact .ok ⟨hg, by simp⟩
    all_goals
      refine .bind (Q := fun st : LGraph × List Task × Bool => LGHas K st.1 ∧ ∀ t ∈ st.2.1, TaskHas K t) (.foldlM _ _ (fun st hst e _ => ?_) ?_) (fun st hst => ?_)
      · split_ifs
        all_goals
          refine .bind (subDomainECs_has hk types fuel _ _ _ _ _ hst.1 hname) (fun r hr => .ok ⟨hr.1, ?_⟩)
          intro t ht
          rcases List.mem_append.mp ht with ht | ht
          · exact hst.2 t ht
          · exact hr.2 t ht
      · refine ⟨hg.setLen _ _, ?_⟩
        intro t ht
        first
          | (rw [List.mem_singleton.mp ht]; exact labelsToString_has hk hname)
          | cases ht
      · refine .ok ⟨hst.1.setLen _ _, ?_⟩
        have hl : ∀ wild, TaskHas K (Task.ec (LGraph.lastEC wild (LGraph.ecName (g.vtx start).label parent skip) types)) := by
          intro wild
          unfold LGraph.lastEC
          split_ifs <;> exact hname
        intro t ht
        simp only [List.mem_append, List.mem_singleton] at ht
        rcases ht with (ht | ht) | ht
        · exact hst.2 t ht
        · first
            | (rw [ht]; exact hname)
            | cases ht
        · rw [ht]; exact hl _

theorem searchNode_has : ∀ (fuel : Nat) (g : LGraph) (v : Nat) (rest : List Label) (i : Nat), LGHas K g →
    Yields (fun r => LGHas K r.1) (LGraph.searchNode fuel g v rest i)
  | 0, _, _, _, _, _ => by unfold LGraph.searchNode; exact .oof
  | fuel + 1, g, v, [], i, hg => by unfold LGraph.searchNode; exact .ok hg
  | fuel + 1, g, v, l :: ls, i, hg => by
    unfold LGraph.searchNode
    dsimp only
    split_ifs
    · exact .ok hg
    · refine .bind (Q := fun st : LGraph × List (Nat × Int) => LGHas K st.1) (.foldlM _ _ (fun st hst e _ => ?_) (hg.setLen _ _)) (fun st hst => ?_)
      · split_ifs
        · exact .bind (searchNode_has fuel _ _ _ _ hst) (fun r hr => .ok hr)
        · exact .ok hst
      · split
        · exact .bind (Q := fun st : LGraph × List (Nat × Int) => LGHas K st.1) (searchNode_has fuel _ _ _ _ hst) (fun r hr => .ok (LGHas.setLen hr _ _))
        · exact .bind (Q := fun st : LGraph × List (Nat × Int) => LGHas K st.1) (.ok hst) (fun st hst => .ok (hst.setLen _ _))

theorem generateECs_has (hk : TextLike K) (fuel : Nat) {g : LGraph} (hg : LGHas K g) {job : LGraph.Req} (hj : Has K job.domain) :
    Yields (fun r => LGHas K r.1 ∧ ∀ t ∈ r.2, TaskHas K t) (LGraph.generateECs fuel g job) := by
  have hn := stringToLabels_has hk hj
  unfold LGraph.generateECs
  dsimp only
  by_cases hl : (!(lengthCheck (stringToLabels job.domain)).1) = true
  · rw [if_pos hl]
    exact .ok ⟨hg, by simp⟩
  · rw [if_neg hl]
    refine .bind (Q := fun st : LGraph × List (Nat × Int) => LGHas K st.1) (searchNode_has fuel _ _ _ _ hg) (fun st hst => ?_)
    split
    · exact .exit
    · split_ifs
      · exact .exit
      · refine .foldlM _ _ (fun b hb r _ => ?_) ⟨hst, by simp⟩
        refine .bind (subDomainECs_has hk _ fuel _ _ _ _ _ hb.1 (fun l hl => hn l (List.dropLast_subset _ hl))) (fun x hx => .ok ⟨hx.1, ?_⟩)
        intro t ht
        rcases List.mem_append.mp ht with ht | ht
        · exact hb.2 t ht
        · exact hx.2 t ht
      · exact .ok ⟨hst, by simpa [TaskHas] using hn⟩
      · refine .ok ⟨hst, ?_⟩
        intro t ht
        rw [List.mem_singleton.mp ht]
        exact fun l hl => hn l (List.mem_of_mem_take hl)

/-! ## The lexer and the parser -/

/-- The token ends at the end of the text, after an ASCII character or before one. -/
def CutsAt (s : Str) (n : Nat) : Prop :=
  n = 0 ∨ s.length ≤ n ∨ (∃ c, s[n]? = some c ∧ c.toNat < 128) ∨ ∃ c, s[n - 1]? = some c ∧ c.toNat < 128

theorem cutsAt_has (hk : TextLike K) {s : Str} {n : Nat} (hc : CutsAt s n) (h : Has K s) : Has K (s.take n) ∧ Has K (s.drop n) := by
  rw [← List.take_append_drop n s] at h
  refine has_cut hk h ?_
  rcases hc with rfl | hc | ⟨c, e, hc⟩ | ⟨c, e, hc⟩
  · exact .inr (.inr (.inl (by simp)))
  · exact .inr (.inr (.inr (List.drop_eq_nil_of_le hc)))
  · refine .inr (.inl ⟨c, s.drop (n + 1), ?_, hc⟩)
    obtain ⟨hl, e⟩ := List.getElem?_eq_some_iff.mp e
    rw [← e]
    exact List.drop_eq_getElem_cons hl
  · cases n with
    | zero => exact .inr (.inr (.inl (by simp)))
    | succ n =>
      refine .inl ⟨c, s.take n, ?_, hc⟩
      obtain ⟨hl, e⟩ := List.getElem?_eq_some_iff.mp e
      rw [← e]
      exact (List.take_append_getElem hl).symm

open Lexer in
theorem not_wordChar_ascii {c : Char} (h : wordChar c = false) : c.toNat < 128 := by
  unfold wordChar at h
  simp only [Bool.not_eq_false', Bool.or_eq_true, beq_iff_eq] at h
  rcases h with ((((((h | h) | h) | h) | h) | h) | h) | h <;> (rw [h]; decide)

open Lexer in
/-- Where the loop of the word rule stops: `pre` has been read; what was accepted last ended with it, or beside an ASCII character. -/
theorem wordLoop_cuts : ∀ (s pre : Str) (q : WState) (best : Nat), CutsAt (pre ++ s) best ∨ best = pre.length →
    CutsAt (pre ++ s) (wordLoop q pre.length best s)
  | [], pre, q, best, h => by
    unfold wordLoop
    rcases h with h | h
    · exact h
    · exact .inr (.inl (by simp [h]))
  | c :: s, pre, q, best, h => by
    have hlen : (pre ++ [c]).length = pre.length + 1 := by simp
    have happ : pre ++ c :: s = (pre ++ [c]) ++ s := by simp
    have hc : (pre ++ c :: s)[pre.length]? = some c := by simp
    have hc1 : c.toNat < 128 → CutsAt (pre ++ c :: s) pre.length := fun hc' => .inr (.inr (.inl ⟨c, hc, hc'⟩))
    unfold wordLoop
    cases hst : wstep q c with
    | none =>
      dsimp only
      rcases h with h | h
      · exact h
      · rw [h]
        apply hc1
        cases hw : wordChar c with
        | false => exact not_wordChar_ascii hw
        | true =>
          exfalso
          cases q <;> simp only [wstep] at hst <;> split_ifs at hst
    | some q' =>
      dsimp only
      have ih := wordLoop_cuts s (pre ++ [c]) q' (if waccept q' then pre.length + 1 else best)
      rw [hlen, ← happ] at ih
      refine ih ?_
      split_ifs with hna
      · exact .inr rfl
      · left
        rcases h with h | h
        · exact h
        · rw [h]
          apply hc1
          have : c = '(' ∨ c = ')' := by
            cases q <;> simp only [wstep] at hst <;> split_ifs at hst with h1 h2 h3 h4 <;>
              first
                | exact .inl h1
                | exact .inr h1
                | exact .inr h2
                | (injection hst with hst; rw [← hst] at hna; exact absurd rfl hna)
          rcases this with rfl | rfl <;> decide

open Lexer in
theorem wordLoop_ge : ∀ (s : Str) (q : WState) (n best : Nat), best ≤ n → best ≤ wordLoop q n best s
  | [], _, _, _, _ => by unfold wordLoop; exact Nat.le_refl _
  | c :: s, q, n, best, h => by
    unfold wordLoop
    split
    · exact Nat.le_refl _
    · refine Nat.le_trans ?_ (wordLoop_ge s _ _ _ ?_)
      · split_ifs <;> omega
      · split_ifs <;> omega

open Lexer in
theorem rules_cut (c : Char) (cs : Str) (r : TokId × Nat) (hr : r ∈ rules (c :: cs)) (h : r.1 = .OTHER → c.toNat < 128 ∨ r.2 = 0) : CutsAt (c :: cs) r.2 := by
  have one : c.toNat < 128 → CutsAt (c :: cs) 1 := fun hc => .inr (.inr (.inr ⟨c, rfl, hc⟩))
  have ch : ∀ p : Char → Bool, (p c = true → c.toNat < 128) → CutsAt (c :: cs) (charLen p (c :: cs)) := by
    intro p hp
    unfold charLen
    dsimp only
    split_ifs with hpc
    · exact one (hp hpc)
    · exact .inl rfl
  unfold rules at hr
  simp only [List.mem_cons, List.not_mem_nil, or_false] at hr
  rcases hr with rfl | rfl | rfl | rfl | rfl | rfl | rfl | rfl
  · show CutsAt _ (textLen _)
    unfold textLen
    split
    · rename_i cs' heq
      injection heq with e1 e2
      subst e1; subst e2
      split_ifs with hq
      · right; right; right
        refine ⟨'"', ?_, by decide⟩
        have hq' : '"' ∈ cs := by simpa using hq
        have hsplit := List.takeWhile_append_dropWhile (p := (· != '"')) (l := cs)
        cases hd : cs.dropWhile (· != '"') with
        | nil =>
          exfalso
          rw [hd, List.append_nil] at hsplit
          rw [← hsplit] at hq'
          have := List.mem_takeWhile_imp hq'
          simp at this
        | cons d ds =>
          have hdq : d = '"' := by
            have := List.head_dropWhile_not (p := (· != '"')) (l := cs) (by rw [hd]; simp)
            simp only [hd, List.head_cons] at this
            simpa using this
          rw [hd, hdq] at hsplit
          have e : (cs.takeWhile (· != '"')).length + 2 - 1 = (cs.takeWhile (· != '"')).length + 1 := by omega
          rw [e, List.getElem?_cons_succ]
          generalize cs.takeWhile (· != '"') = t at hsplit ⊢
          rw [← hsplit]
          simp
      · exact .inl rfl
    · exact .inl rfl
  · show CutsAt _ (commentLen _)
    unfold commentLen
    split
    · rename_i cs' heq
      injection heq with e1 e2
      subst e1; subst e2
      dsimp only
      split_ifs with hq
      · exact .inl rfl
      · right
        have hsplit := List.takeWhile_append_dropWhile (p := (· != '\n')) (l := cs)
        cases hd : cs.dropWhile (· != '\n') with
        | nil =>
          left
          rw [hd, List.append_nil] at hsplit
          rw [hsplit]
          simp
        | cons d ds =>
          right; left
          have hdq : d = '\n' := by
            have := List.head_dropWhile_not (p := (· != '\n')) (l := cs) (by rw [hd]; simp)
            simp only [hd, List.head_cons] at this
            simpa using this
          rw [hd, hdq] at hsplit
          refine ⟨'\n', ?_, by decide⟩
          rw [List.getElem?_cons_succ]
          generalize cs.takeWhile (· != '\n') = t at hsplit ⊢
          rw [← hsplit]
          simp
    · exact .inl rfl
  · exact wordLoop_cuts (c :: cs) [] .s 0 (.inl (.inl rfl))
  · exact ch (· == '(') (fun h => by rw [beq_iff_eq.mp h]; decide)
  · exact ch (· == ')') (fun h => by rw [beq_iff_eq.mp h]; decide)
  · exact ch (· == '\n') (fun h => by rw [beq_iff_eq.mp h]; decide)
  · show CutsAt (c :: cs) ((c :: cs).takeWhile (fun c => c == ' ' || c == '\t')).length
    generalize c :: cs = s
    have hsplit := List.takeWhile_append_dropWhile (p := fun c => c == ' ' || c == '\t') (l := s)
    rcases List.eq_nil_or_concat (s.takeWhile (fun c => c == ' ' || c == '\t')) with e | ⟨t, d, e⟩
    · rw [e]; exact .inl rfl
    · right; right; right
      have hd : d ∈ s.takeWhile (fun c => c == ' ' || c == '\t') := by rw [e]; simp
      have hd := List.mem_takeWhile_imp hd
      refine ⟨d, ?_, ?_⟩
      · rw [e] at hsplit ⊢
        generalize s.dropWhile (fun c => c == ' ' || c == '\t') = u at hsplit
        rw [← hsplit]
        simp
      · rcases Bool.or_eq_true _ _ |>.mp hd with h | h <;> (rw [beq_iff_eq.mp h]; decide)
  · rcases h rfl with hc | h0
    · exact ch (· != '\n') (fun _ => hc)
    · exact .inl h0

open Lexer in
theorem best_cuts (c : Char) (cs : Str) : CutsAt (c :: cs) (best (c :: cs)).2 := by
  have fold : ∀ (rs : List (TokId × Nat)) (b : TokId × Nat), (rs.foldl (fun b r => if r.2 > b.2 then r else b) b ∈ rs ∨
      rs.foldl (fun b r => if r.2 > b.2 then r else b) b = b) ∧ (b.2 ≤ (rs.foldl (fun b r => if r.2 > b.2 then r else b) b).2) ∧
      ∀ r ∈ rs, r.2 ≤ (rs.foldl (fun b r => if r.2 > b.2 then r else b) b).2 := by
    intro rs
    induction rs with
    | nil => intro b; exact ⟨.inr rfl, Nat.le_refl _, by simp⟩
    | cons x rs ih =>
      intro b
      rw [List.foldl_cons]
      by_cases hx : x.2 > b.2
      · rw [if_pos hx]
        obtain ⟨h1, h2, h3⟩ := ih x
        refine ⟨?_, by omega, ?_⟩
        · left
          rcases h1 with h1 | h1
          · simp [h1]
          · rw [h1]; simp
        · intro r hr
          rcases List.mem_cons.mp hr with rfl | hr
          · exact h2
          · exact h3 r hr
      · rw [if_neg hx]
        obtain ⟨h1, h2, h3⟩ := ih b
        refine ⟨?_, h2, ?_⟩
        · rcases h1 with h1 | h1
          · left; simp [h1]
          · right; exact h1
        · intro r hr
          rcases List.mem_cons.mp hr with rfl | hr
          · omega
          · exact h3 r hr
  obtain ⟨h1, -, h3⟩ := fold (rules (c :: cs)) (.OTHER, 0)
  have hword : (TokId.WORD, wordLen (c :: cs)) ∈ rules (c :: cs) := by unfold rules; simp
  change best (c :: cs) ∈ rules (c :: cs) ∨ best (c :: cs) = (.OTHER, 0) at h1
  change ∀ r ∈ rules (c :: cs), r.2 ≤ (best (c :: cs)).2 at h3
  rcases h1 with h1 | h1
  · by_cases hc : c.toNat < 128
    · exact rules_cut c cs _ h1 (fun _ => .inl hc)
    · by_cases ho : (best (c :: cs)).1 = .OTHER
      · have hone : (best (c :: cs)).2 ≤ 1 := by
          unfold rules at h1
          simp only [List.mem_cons, List.not_mem_nil, or_false] at h1
          rcases h1 with h1 | h1 | h1 | h1 | h1 | h1 | h1 | h1 <;> rw [h1] at ho <;> first | (cases ho; done) | skip
          rw [h1]
          show charLen (· != '\n') (c :: cs) ≤ 1
          unfold charLen
          dsimp only
          split_ifs <;> omega
        have hw : 1 ≤ wordLen (c :: cs) := by
          have hwc : wordChar c = true := by
            by_contra h
            exact hc (not_wordChar_ascii (by simpa using h))
          have hnb : c ≠ '\\' := by rintro rfl; exact hc (by decide)
          unfold wordLen wordLoop
          have : wstep .s c = some .w := by simp [wstep, hnb, hwc]
          rw [this]
          dsimp only
          exact wordLoop_ge cs .w 1 1 (Nat.le_refl _)
        have := h3 _ hword
        have e : (best (c :: cs)).2 = wordLen (c :: cs) := by
          dsimp only at this
          omega
        rw [e]
        exact rules_cut c cs _ hword (fun h => nomatch h)
      · exact rules_cut c cs _ h1 (fun h => absurd h ho)
  · rw [h1]; exact .inl rfl

theorem tokensFuel_has (hk : TextLike K) : ∀ (fuel : Nat) (s : Str), Has K s → ∀ t ∈ Lexer.tokensFuel fuel s, Has K t.text
  | 0, _, _, t, ht => by unfold Lexer.tokensFuel at ht; cases ht
  | _ + 1, [], _, t, ht => by unfold Lexer.tokensFuel at ht; cases ht
  | fuel + 1, c :: cs, h, t, ht => by
    obtain ⟨h1, h2⟩ := cutsAt_has hk (best_cuts c cs) h
    unfold Lexer.tokensFuel at ht
    rcases List.mem_cons.mp ht with ht | ht
    · rw [ht]
      exact h1
    · exact tokensFuel_has hk fuel _ h2 t ht

/-- An issue. -/
def IssueHas (K : Str → Prop) (i : Parser.Issue) : Prop := Has K i.current ∧ Has K i.violation ∧ Has K i.previous

/-- The state of the parser. -/
structure PHas (K : Str → Prop) (st : Parser.PState) : Prop where
  suffix : Has K st.suffix
  defName : NameHas K st.defName
  cur : ∀ s ∈ st.cur, Has K s
  lg : LGHas K st.lg
  zone : ZHas K st.zone
  issues : ∀ i ∈ st.issues, IssueHas K i

open Groot.Parser

theorem LGHas.addRecord (hk : TextLike K) {g : LGraph} (h : LGHas K g) (thr : Nat) {r : RR} (hr : RRHas K r) (z v : Nat) : LGHas K (LGraph.addRecord thr g r z v) := by
  unfold LGraph.addRecord
  split_ifs
  · exact h
  · dsimp only
    refine TrieHas.setData ?_ _ trivial
    have h1 : LGHas K (g.ensure thr r.name).1 := TrieHas.ensure trivial thr h hr.1
    have h2 : LGHas K ((g.ensure thr r.name).1.ensure thr (stringToLabels r.rdata)).1 := TrieHas.ensure trivial thr h1 (stringToLabels_has hk hr.2)
    unfold LGraph.addDnameEdge
    split_ifs
    · exact h2
    · intro x hx
      rcases mem_modify hx with hx | ⟨y, hy, rfl⟩
      · exact h2 x hx
      · exact h2 y hy
  · exact TrieHas.setData (TrieHas.ensure trivial thr h hr.1) _ trivial

theorem PHas.addIssue {st : PState} (h : PHas K st) {a b c : Str} (ha : Has K a) (hb : Has K b) (hc : Has K c) : PHas K (Parser.addIssue st a b c) := by
  unfold Parser.addIssue
  split_ifs
  · refine ⟨h.suffix, h.defName, h.cur, h.lg, h.zone, ?_⟩
    intro i hi
    rcases List.mem_append.mp hi with hi | hi
    · exact h.issues i hi
    · rw [List.mem_singleton.mp hi]; exact ⟨ha, hb, hc⟩
  · exact h

theorem lengthCheckLoop_has (hk : TextLike K) : ∀ (n : Name) (k : Nat), NameHas K n → Has K (lengthCheckLoop k n).2
  | [], k, _ => by unfold lengthCheckLoop; split_ifs <;> exact (has_nil hk)
  | l :: n, k, h => by
    unfold lengthCheckLoop
    split_ifs
    · exact h l (by simp)
    · exact lengthCheckLoop_has hk n _ (fun x hx => h x (by simp [hx]))

theorem PHas.count {st : PState} (h : PHas K st) (k : Str) : PHas K (st.count k) := ⟨h.suffix, h.defName, h.cur, h.lg, h.zone, h.issues⟩

theorem lengthIssue_has (hk : TextLike K) {st : PState} (h : PHas K st) {r : RR} (hr : RRHas K r) {a b c : Str} (ha : Has K a) (hb : Has K b) (hc : Has K c) :
    Yields (PHas K) (lengthIssue st r a b c) := by
  unfold lengthIssue
  refine .bind (hr.toStr hk) (fun s hs => ?_)
  split_ifs
  · exact .ok ((h.count _).addIssue hs (has_append hk ha hb) (has_nil hk))
  · exact .ok ((h.count _).addIssue hs hc (has_nil hk))

theorem rejected_has (hk : TextLike K) {st : PState} (h : PHas K st) {r : RR} (hr : RRHas K r) (code : AddCode) (node : Option Nat) :
    Yields (PHas K) (rejected st r code node) := by
  unfold rejected
  split
  · exact .ok h
  · exact .bind (hr.toStr hk) (fun s hs => .ok ((h.count _).addIssue hs (has_ascii hk (by decide)) (has_nil hk)))
  · split
    · exact .ub
    · split
      · exact .ub
      · rename_i first rest hf
        refine .bind ((h.zone.rrs _ first (by rw [hf]; simp)).toStr hk) (fun p hp => .bind (hr.toStr hk) (fun s hs => ?_))
        dsimp only
        split
        all_goals exact .ok ((h.count _).addIssue hs (has_ascii hk (by decide)) hp)

theorem addRR_has (hk : TextLike K) (thr : Nat) {st : PState} (h : PHas K st) {r : RR} (hr : RRHas K r) : Yields (PHas K) (addRR thr st r) := by
  have h0 : PHas K { st with rrsParsed := st.rrsParsed + 1 } := ⟨h.suffix, h.defName, h.cur, h.lg, h.zone, h.issues⟩
  unfold addRR
  dsimp only
  split_ifs
  · exact lengthIssue_has hk h0 hr (lengthCheckLoop_has hk _ _ hr.1) (has_ascii hk (by decide)) (has_ascii hk (by decide))
  · exact lengthIssue_has hk h0 hr (lengthCheckLoop_has hk _ _ (stringToLabels_has hk hr.2)) (has_ascii hk (by decide)) (has_ascii hk (by decide))
  · refine .any (fun b => ?_)
    have hz := h.zone.addRecord thr hr
    split_ifs
    · split
      · exact .ok ⟨h.suffix, h.defName, h.cur, LGHas.addRecord hk h.lg thr hr _ _, hz, h.issues⟩
      · exact rejected_has hk (st := { st with rrsParsed := st.rrsParsed + 1, zone := (st.zone.addRecord thr r).1 })
          ⟨h.suffix, h.defName, h.cur, h.lg, hz, h.issues⟩ hr _ _
    · exact .bind (hr.toStr hk) (fun s hs => .ok ((h0.count _).addIssue hs (has_ascii hk (by decide)) (has_nil hk)))

/-- The variables of the loop over the fields. -/
def FHas (K : Str → Prop) (f : FState) : Prop := Has K f.name ∧ (Has K f.rdata ∧ Has K f.rdata.dropLast) ∧ NameHas K f.defName

theorem fieldLoop_has (hk : TextLike K) (ti : Nat) : ∀ (l : List Str) (i : Nat) (f : FState), (∀ s ∈ l, Has K s) → FHas K f →
    Yields (fun r => FHas K r.1) (fieldLoop ti i l f)
  | [], _, _, _, hf => by unfold fieldLoop; exact .ok hf
  | s :: l, i, f, hl, hf => by
    have hs : Has K s := hl s (by simp)
    have hl' : ∀ s ∈ l, Has K s := fun x hx => hl x (by simp [hx])
    unfold fieldLoop
    split_ifs
    · exact fieldLoop_has hk ti l _ _ hl' ⟨hf.1, ⟨has_append hk (has_append hk hf.2.1.1 hs) (has_ascii hk (by decide)),
        (by rw [List.dropLast_concat]; exact has_append hk hf.2.1.1 hs)⟩, hf.2.2⟩
    · exact fieldLoop_has hk ti l _ _ hl' ⟨hs, hf.2.1, stringToLabels_has hk hs⟩
    · exact fieldLoop_has hk ti l _ _ hl' hf
    · exact fieldLoop_has hk ti l _ _ hl' hf
    · exact fieldLoop_has hk ti l _ _ hl' hf
    · exact .any (fun v => fieldLoop_has hk ti l _ _ hl' hf)
    · exact .any (fun v => fieldLoop_has hk ti l _ _ hl' hf)
    · exact .ok hf
    · exact fieldLoop_has hk ti l _ _ hl' hf

theorem complete_has (hk : TextLike K) {st : PState} (h : PHas K st) (type : Str) {f : FState} (hf : FHas K f) :
    PHas K (complete st type f).1 ∧ RRHas K (complete st type f).2 := by
  have hrd : Has K f.rdata.dropLast := hf.2.1.2
  have key : ∀ (st1 : PState) (name : Str), PHas K st1 → Has K name →
      PHas K (if !endsDot name then { st1 with defName := stringToLabels (name ++ ['.'] ++ st1.suffix) } else st1) ∧
      Has K (if !endsDot name then name ++ ['.'] ++ st1.suffix else name) := by
    intro st1 name h1 hn
    have hn' : Has K (name ++ ['.'] ++ st1.suffix) := has_append hk (has_append hk hn (has_dot hk)) h1.suffix
    split_ifs
    · exact ⟨⟨h1.suffix, stringToLabels_has hk hn', h1.cur, h1.lg, h1.zone, h1.issues⟩, hn'⟩
    · exact ⟨h1, hn⟩
  have fin : ∀ (st2 : PState) (name : Str), PHas K st2 → Has K name → RRHas K (mkRR (toLower name) type f.cls f.ttl (toLower
      (if (type = "NS".toList ∨ type = "CNAME".toList ∨ type = "DNAME".toList ∨ type = "MX".toList) ∧ !endsDot f.rdata.dropLast then
        f.rdata.dropLast ++ ['.'] ++ st2.suffix else f.rdata.dropLast))) := by
    intro st2 name h2 hn
    refine ⟨stringToLabels_has hk (toLower_has hk hn), toLower_has hk ?_⟩
    split_ifs
    · exact has_append hk (has_append hk hrd (has_dot hk)) h2.suffix
    · exact hrd
  have h1 : PHas K { st with defName := f.defName, defTtl := f.defTtl } := ⟨h.suffix, hf.2.2, h.cur, h.lg, h.zone, h.issues⟩
  have h2 : PHas K { st with defName := f.defName, defTtl := f.defTtl, foundSOA := true, suffix := if st.suffix.length = 0 then f.name else st.suffix } := by
    refine ⟨?_, hf.2.2, h.cur, h.lg, h.zone, h.issues⟩
    dsimp only
    split_ifs
    · exact hf.1
    · exact h.suffix
  have go : ∀ (st1 : PState) (name : Str), PHas K st1 → Has K name →
      PHas K (match (if !endsDot name then ({ st1 with defName := stringToLabels (name ++ ['.'] ++ st1.suffix) }, name ++ ['.'] ++ st1.suffix) else (st1, name)) with
        | (st, name) => (st, mkRR (toLower name) type f.cls f.ttl (toLower
          (if (type = "NS".toList ∨ type = "CNAME".toList ∨ type = "DNAME".toList ∨ type = "MX".toList) ∧ !endsDot f.rdata.dropLast then
            f.rdata.dropLast ++ ['.'] ++ st.suffix else f.rdata.dropLast)))).1 ∧
      RRHas K (match (if !endsDot name then ({ st1 with defName := stringToLabels (name ++ ['.'] ++ st1.suffix) }, name ++ ['.'] ++ st1.suffix) else (st1, name)) with
        | (st, name) => (st, mkRR (toLower name) type f.cls f.ttl (toLower
          (if (type = "NS".toList ∨ type = "CNAME".toList ∨ type = "DNAME".toList ∨ type = "MX".toList) ∧ !endsDot f.rdata.dropLast then
            f.rdata.dropLast ++ ['.'] ++ st.suffix else f.rdata.dropLast)))).2 := by
    intro st1 name h1 hn
    have hn' : Has K (name ++ ['.'] ++ st1.suffix) := has_append hk (has_append hk hn (has_dot hk)) h1.suffix
    by_cases hd : (!endsDot name) = true
    · rw [if_pos hd]
      have h3 : PHas K { st1 with defName := stringToLabels (name ++ ['.'] ++ st1.suffix) } :=
        ⟨h1.suffix, stringToLabels_has hk hn', h1.cur, h1.lg, h1.zone, h1.issues⟩
      exact ⟨h3, fin _ _ h3 hn'⟩
    · rw [if_neg hd]
      exact ⟨h1, fin _ _ h1 hn⟩
  unfold complete
  dsimp only
  by_cases hz : f.name.length = 0
  · rw [if_pos hz]
    exact go _ _ h1 (labelsToString_has hk hf.2.2)
  · rw [if_neg hz]
    by_cases hs : type = "SOA".toList
    · rw [if_pos hs]
      exact go _ _ h2 hf.1
    · rw [if_neg hs]
      exact go _ _ h1 hf.1

theorem PHas.clear {st : PState} (h : PHas K st) : PHas K { st with cur := [] } := ⟨h.suffix, h.defName, by simp, h.lg, h.zone, h.issues⟩

theorem processRecord_has (hk : TextLike K) (thr : Nat) {st : PState} (h : PHas K st) : Yields (PHas K) (processRecord thr st) := by
  unfold processRecord
  split
  · exact .ok h.clear
  · split_ifs
    · exact .ok h.clear
    · dsimp only
      refine .bind (fieldLoop_has hk _ _ _ _ h.cur ⟨has_nil hk, ⟨has_nil hk, has_nil hk⟩, h.defName⟩) (fun r hr => ?_)
      split_ifs
      · exact .ok ⟨h.suffix, hr.2.2, by simp, h.lg, h.zone, h.issues⟩
      · obtain ⟨e1, e2⟩ := complete_has hk h (toUpper (st.cur.getD _ [])) hr
        exact .bind (addRR_has hk thr e1 e2) (fun st hst => .ok hst.clear)

theorem endOfRecord_has (hk : TextLike K) (thr : Nat) {st : PState} (h : PHas K st) : Yields (fun r => PHas K r.1) (endOfRecord thr st) := by
  unfold endOfRecord
  split
  · exact .ok h
  · rename_i first rest hcur
    have hc : ∀ s ∈ rest, Has K s := fun s hs => h.cur s (by rw [hcur]; simp [hs])
    split_ifs
    · split
      · exact .ub
      · exact .ok ⟨toLower_has hk (hc _ (by simp)), h.defName, by simp, h.lg, h.zone, h.issues⟩
    · exact .ok h
    · split
      · exact .ub
      · exact .any (fun v => .ok ⟨h.suffix, h.defName, by simp, h.lg, h.zone, h.issues⟩)
    · refine .bind (processRecord_has hk thr ⟨h.suffix, stringToLabels_has hk h.suffix, ?_, h.lg, h.zone, h.issues⟩) (fun st hst => .ok hst)
      intro s hs
      rcases List.mem_cons.mp hs with e | e
      · rw [e]; exact h.suffix
      · exact hc s e
    · exact .ok h
    · exact .bind (processRecord_has hk thr h) (fun st hst => .ok hst)

theorem step_has (hk : TextLike K) (thr : Nat) {st : PState} (h : PHas K st) {t : Tok} (ht : Has K t.text) : Yields (fun r => PHas K r.1) (Parser.step thr st t) := by
  have hcur : PHas K { st with cur := st.cur ++ [t.text] } := by
    refine ⟨h.suffix, h.defName, ?_, h.lg, h.zone, h.issues⟩
    intro s hs
    rcases List.mem_append.mp hs with hs | hs
    · exact h.cur s hs
    · rw [List.mem_singleton.mp hs]; exact ht
  have same : ∀ n : Int, PHas K { st with paren := n } := fun n => ⟨h.suffix, h.defName, h.cur, h.lg, h.zone, h.issues⟩
  have hline : PHas K { st with line := st.line + 1 } := ⟨h.suffix, h.defName, h.cur, h.lg, h.zone, h.issues⟩
  unfold Parser.step
  split
  · exact .ok (same _)
  · split_ifs
    · exact .ok (same _)
    · exact .ok (same _)
  · exact .ok hcur
  · exact .ok hcur
  · refine .ok ?_
    dsimp only
    split_ifs
    · exact ⟨h.suffix, h.defName, by simp [(has_nil hk)], h.lg, h.zone, h.issues⟩
    · exact h
  · dsimp only
    split_ifs
    · exact endOfRecord_has hk thr hline
    · exact .ok hline
  · exact .ok h
  · exact .ok h

theorem run_has (hk : TextLike K) (thr : Nat) : ∀ (ts : List Tok) (st : PState), PHas K st → (∀ t ∈ ts, Has K t.text) → Yields (PHas K) (Parser.run thr st ts)
  | [], st, h, _ => by unfold Parser.run; exact .ok h
  | t :: ts, st, h, ht => by
    unfold Parser.run
    refine .bind (step_has hk thr h (ht t (by simp))) (fun r hr => ?_)
    split_ifs
    · exact run_has hk thr ts _ hr (fun t h => ht t (by simp [h]))
    · exact .ok hr

/-- What loading leaves. -/
def LoadedHas (K : Str → Prop) (d : Loaded) : Prop :=
  LGHas K d.lg ∧ CtxHas K d.ctx ∧ ∀ f ∈ d.issues, Has K f.1 ∧ ∀ i ∈ f.2, IssueHas K i

theorem loadZone_has (hk : TextLike K) (thr : Nat) (lint : Bool) {d : Loaded} (h : LoadedHas K d) {file contents ns origin : Str} (hf : Has K file)
    (hc : Has K contents) (hn : Has K ns) (ho : Has K origin) : Yields (LoadedHas K) (loadZone thr lint d file contents ns origin) := by
  unfold loadZone
  dsimp only
  refine .bind (run_has hk thr _ _ ⟨ho, (fun _ h => nomatch h), (fun _ h => nomatch h), h.1, ZHas.init hk _, (fun _ h => nomatch h)⟩
    (tokensFuel_has hk _ _ hc)) (fun st hst => .ok ⟨hst.lg, ?_, ?_⟩)
  · split_ifs
    · refine ⟨h.2.1.1, ?_, ?_⟩
      · intro p hp
        rcases List.mem_append.mp hp with hp | hp
        · exact h.2.1.2.1 p hp
        · rw [List.mem_singleton.mp hp]; exact hn
      · intro p hp
        rcases List.mem_append.mp hp with hp | hp
        · exact h.2.1.2.2 p hp
        · rw [List.mem_singleton.mp hp]; exact hst.zone
    · exact h.2.1
  · intro f hf'
    rcases List.mem_append.mp hf' with hf' | hf'
    · exact h.2.2 f hf'
    · rw [List.mem_singleton.mp hf']; exact ⟨hf, hst.issues⟩

end

end Groot
