import Verif.Lemmas.Built
import Verif.Lemmas.Build2
import Verif.Lemmas.Budget

/-! # A class that is not marked as non-existent gives rise to no questions that are -/

namespace Groot
open Spec

/-- No vertex is marked. -/
def Unmarked (g : IG) : Prop := ∀ x ∈ g.verts, x.query.nonExistent = false

/-- No pending question is marked. -/
def UnmarkedWork : Work → Prop
  | .top _ q _ => q.nonExistent = false
  | _ => True

theorem Unmarked.vtx {g : IG} (h : Unmarked g) (v : Nat) : (g.vtx v).query.nonExistent = false := by
  unfold IG.vtx
  rcases Nat.lt_or_ge v g.verts.length with hv | hv
  · have e : g.verts.getD v default = g.verts[v] := by simp [hv]
    rw [e]; exact h _ (List.getElem_mem hv)
  · have e : g.verts.getD v default = default := by simp [hv]
    rw [e]; decide

theorem Unmarked.setAnswer {g : IG} (h : Unmarked g) (v : Nat) (as : List Answer) : Unmarked (g.setAnswer v as) := by
  intro x hx
  unfold IG.setAnswer at hx
  dsimp only at hx
  obtain ⟨i, hi, rfl⟩ := List.mem_iff_getElem.mp hx
  rw [List.getElem_modify]
  rw [List.length_modify] at hi
  split
  · exact h g.verts[i] (List.getElem_mem hi)
  · exact h _ (List.getElem_mem hi)

theorem Unmarked.addVertex {g : IG} (h : Unmarked g) (ns : Str) {q : EC} (hq : q.nonExistent = false) : Unmarked (g.addVertex ns q) := by
  intro x hx
  unfold IG.addVertex at hx
  rcases List.mem_append.mp hx with hx | hx
  · exact h x hx
  · rw [List.mem_singleton.mp hx]; exact hq

theorem Unmarked.insertNode {g : IG} (h : Unmarked g) (ns : Str) {q : EC} (hq : q.nonExistent = false) (f : Nat) (sd : Option Nat) :
    Unmarked (g.insertNode ns q f sd).1 := by
  unfold IG.insertNode
  split
  · exact h
  · exact h.addVertex ns hq

theorem topWorks_unmarked (ctx : Context) {q : EC} (hq : q.nonExistent = false) (f : Nat) : ∀ x ∈ topWorks ctx q f, UnmarkedWork x := by
  intro x hx
  obtain ⟨ns, _, rfl⟩ := List.mem_map.mp hx
  exact hq

theorem doWork_unmarked {thr : Nat} {ctx : Context} {g : IG} (h : Unmarked g) {x : Work} (hx : UnmarkedWork x) {r : IG × List Work}
    (hr : doWork thr ctx g x = .ok r) : Unmarked r.1 ∧ ∀ y ∈ r.2, UnmarkedWork y := by
  cases x with
  | top ns q f =>
    unfold doWork at hr
    obtain ⟨st, _, hr⟩ := bind_ok_iff.mp hr
    have hi := h.insertNode ns hx f none
    generalize g.insertNode ns q f none = gn at hi hr
    obtain ⟨g1, node⟩ := gn
    dsimp only at hi hr
    cases node with
    | none => cases hr; exact ⟨hi, by simp⟩
    | some v =>
      cases st with
      | none => cases hr; exact ⟨hi.setAnswer _ _, by simp⟩
      | some z => cases hr; exact ⟨hi, by simp [UnmarkedWork]⟩
  | resolve zid v =>
    unfold doWork at hr
    dsimp only at hr
    cases hz : ctx.zones.lookup zid with
    | none => rw [hz] at hr; cases hr
    | some z =>
      rw [hz] at hr
      dsimp only at hr
      obtain ⟨as, _, hr⟩ := bind_ok_iff.mp hr
      obtain ⟨ws, hws, hr⟩ := bind_ok_iff.mp hr
      cases hr
      refine ⟨h.setAnswer _ _, ?_⟩
      have : ∀ (l : List Answer) (acc ws : List Work), (∀ y ∈ acc, UnmarkedWork y) → l.foldlM (fun acc a => do
          let w ← answerWorks v a
          .ok (acc ++ w)) acc = .ok ws → ∀ y ∈ ws, UnmarkedWork y := by
        intro l
        induction l with
        | nil => intro acc ws h1 h2; cases h2; exact h1
        | cons a l ih =>
          intro acc ws h1 h2
          rw [List.foldlM_cons] at h2
          obtain ⟨acc', h3, h4⟩ := bind_ok_iff.mp h2
          obtain ⟨wk, h5, h6⟩ := bind_ok_iff.mp h3
          cases h6
          refine ih _ _ ?_ h4
          intro y hy
          rcases List.mem_append.mp hy with hy | hy
          · exact h1 y hy
          · unfold answerWorks at h5
            split at h5
            · split at h5
              · cases h5
              · cases h5; rw [List.mem_singleton.mp hy]; trivial
            · cases h5
              obtain ⟨p, _, rfl⟩ := List.mem_map.mp hy
              trivial
            · cases h5; cases hy
      exact this as.1 [] ws (by simp) hws
  | rewrite record v =>
    obtain ⟨nq, hq⟩ : ∃ nq, (if record.type = .CNAME then (.ok (processCname record (g.vtx v).query) : Res EC)
        else processDname record (g.vtx v).query) = .ok nq := by
      by_cases hc : record.type = .CNAME
      · exact ⟨_, if_pos hc⟩
      · rw [if_neg hc]
        unfold doWork at hr
        simp only [hc, if_false] at hr
        obtain ⟨nq, hq, _⟩ := bind_ok_iff.mp hr
        exact ⟨nq, hq⟩
    rw [doWork_rewrite hq] at hr
    unfold rewriteTail at hr
    have hq : nq.nonExistent = false := by
      split at hq
      · cases hq; rfl
      · unfold processDname at hq
        obtain ⟨rest, _, hq⟩ := bind_ok_iff.mp hq
        cases hq; rfl
    dsimp only at hr
    have hi := h.insertNode (g.vtx v).ns hq v none
    split at hr
    · obtain ⟨st, _, hr⟩ := bind_ok_iff.mp hr
      cases st with
      | none => cases hr; exact ⟨h, topWorks_unmarked ctx hq v⟩
      | some z =>
        dsimp only at hr
        generalize g.insertNode (g.vtx v).ns nq v none = gn at hi hr
        obtain ⟨g1, node⟩ := gn
        dsimp only at hi hr
        cases node with
        | none => cases hr; exact ⟨hi, by simp⟩
        | some u => cases hr; exact ⟨hi, by simp [UnmarkedWork]⟩
    · generalize g.insertNode (g.vtx v).ns nq v none = gn at hi hr
      obtain ⟨g1, node⟩ := gn
      dsimp only at hi hr
      cases node with
      | none => cases hr; exact ⟨hi, by simp⟩
      | some u => cases hr; exact ⟨hi.setAnswer _ _, by simp⟩
  | refer v ns glue =>
    unfold doWork at hr
    dsimp only at hr
    split at hr
    · cases hr; exact ⟨h, by simp [UnmarkedWork]⟩
    · split at hr
      · cases hr; exact ⟨h, by simp [UnmarkedWork]⟩
      · cases hr
        refine ⟨h.addVertex [] rfl, ?_⟩
        intro y hy
        rcases List.mem_append.mp hy with hy | hy
        · exact topWorks_unmarked ctx rfl _ y hy
        · rw [List.mem_singleton.mp hy]; trivial
  | nsSub v ns side =>
    unfold doWork at hr
    dsimp only at hr
    have hi := h.insertNode ns (h.vtx v) v side
    generalize g.insertNode ns (g.vtx v).query v side = gn at hi hr
    obtain ⟨g1, node⟩ := gn
    dsimp only at hi hr
    cases node with
    | none => cases hr; exact ⟨hi, by simp⟩
    | some u =>
      dsimp only at hr
      cases hz : ctx.nsZones.lookup ns with
      | none => rw [hz] at hr; cases hr; exact ⟨hi.setAnswer _ _, by simp⟩
      | some z =>
        rw [hz] at hr
        dsimp only at hr
        obtain ⟨st, _, hr⟩ := bind_ok_iff.mp hr
        cases st with
        | none => cases hr; exact ⟨hi.setAnswer _ _, by simp⟩
        | some z => cases hr; exact ⟨hi, by simp [UnmarkedWork]⟩

theorem exec_unmarked (thr : Nat) (ctx : Context) : ∀ (f : Nat) (g : IG) (ws : List Work) (g' : IG), Unmarked g → (∀ x ∈ ws, UnmarkedWork x) →
    exec thr ctx f g ws = .ok g' → Unmarked g' := by
  intro f
  induction f with
  | zero =>
    intro g ws g' h hx he
    cases ws with
    | nil => cases he; exact h
    | cons => cases he
  | succ f ih =>
    intro g ws g' h hx he
    cases ws with
    | nil => cases he; exact h
    | cons x ws =>
      unfold exec at he
      obtain ⟨r, h1, h2⟩ := bind_ok_iff.mp he
      obtain ⟨h3, h4⟩ := doWork_unmarked h (hx x (by simp)) h1
      refine ih _ _ _ h3 ?_ h2
      intro y hy
      rcases List.mem_append.mp hy with hy | hy
      · exact h4 y hy
      · exact hx y (by simp [hy])

theorem buildIG_unmarked {fuel thr : Nat} {ctx : Context} {q : EC} (hq : q.nonExistent = false) {g : IG} (hb : buildIG fuel thr ctx q = .ok g) (v : Nat) :
    (g.vtx v).query.nonExistent = false := by
  refine Unmarked.vtx (exec_unmarked thr ctx fuel _ _ _ ?_ (topWorks_unmarked ctx hq 0) hb) v
  intro x hx
  unfold IG.start at hx
  rw [List.mem_singleton.mp hx]; exact hq

end Groot
