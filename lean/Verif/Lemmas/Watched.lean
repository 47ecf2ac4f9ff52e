import Verif.Spec.Watched
import Verif.Lemmas.Delegation

/-! # From reports to watched resolutions, and from any sequence of steps to a complete one -/

namespace Groot
open Spec

/-! ### Sequences of steps go on to an end, or in circles -/

theorem chain_route {w : World} {s : Str} {a : Ask} {p : Trail} (h : Route w s a p) :
    List.IsChain (Needs w) ((s, a) :: p.map (fun x => (x.1, x.2.1))) := by
  induction h with
  | done => simp
  | step s a s' a' sd p h1 _ ih =>
    rw [List.map_cons]
    exact List.isChain_cons_cons.mpr ⟨.inl ⟨sd, h1⟩, ih⟩

theorem reach_chain {α : Type} {R : α → α → Prop} : ∀ (l : List α) (x y : α) (post : List α), List.IsChain R (x :: l ++ y :: post) → Relation.TransGen R x y
  | [], x, y, post, h => .single (List.isChain_cons_cons.mp h).1
  | z :: l, x, y, post, h => by
    have h' := List.isChain_cons_cons.mp h
    exact .head h'.1 (reach_chain l z y post h'.2)

theorem exists_dup {α : Type} : ∀ (l : List α), ¬ l.Nodup → ∃ a x b c, l = a ++ x :: b ++ x :: c
  | [], h => absurd List.nodup_nil h
  | y :: l, h => by
    by_cases hy : y ∈ l
    · obtain ⟨b, c, rfl⟩ := List.append_of_mem hy
      exact ⟨[], y, b, c, by simp⟩
    · obtain ⟨a, x, b, c, rfl⟩ := exists_dup l (fun hn => h (List.nodup_cons.mpr ⟨hy, hn⟩))
      exact ⟨y :: a, x, b, c, by simp⟩

/-- Coming back to where one has been is going in circles. -/
theorem circular_of_repeat {w : World} {a : Ask} {p : Trail} (h : Route w [] a p) (hn : ¬ (visited a p).Nodup) : Circular w a := by
  obtain ⟨l1, x, l2, l3, e⟩ := exists_dup _ hn
  have hc := chain_route h
  change List.IsChain (Needs w) (visited a p) at hc
  refine ⟨x, ?_, ?_⟩
  · cases l1 with
    | nil =>
      unfold visited at e
      simp at e
      rw [← e.1]
    | cons z l1 =>
      rw [e] at hc
      have hz : z = ([], a) := by unfold visited at e; simp at e; exact e.1.symm
      subst hz
      exact (reach_chain l1 _ x (l2 ++ x :: l3) (by simpa using hc)).to_reflTransGen
  · rw [e, List.append_assoc] at hc
    exact reach_chain l2 x x l3 (by simpa using hc.right_of_append)

theorem lasts_route {w : World} {s : Str} {a : Ask} {p : Trail} (h : Route w s a p) {s1 : Str} {a1 : Ask}
    (hl : ((s, a) :: p.map (fun x => (x.1, x.2.1))).getLast? = some (s1, a1)) (n : Nat) (hn : Lasts (Needs w) n (s1, a1)) :
    Lasts (Needs w) (p.length + n) (s, a) := by
  induction h with
  | done => simp at hl; obtain ⟨rfl, rfl⟩ := hl; simpa using hn
  | step s a s' a' sd p h1 _ ih =>
    rw [List.map_cons, List.getLast?_cons_cons] at hl
    have := ih hl
    rw [List.length_cons, Nat.add_right_comm]
    exact ⟨(s', a'), .inl ⟨sd, h1⟩, this⟩

theorem route_to_end {w : World} : ∀ (n : Nat) (s : Str) (a : Ask), ¬ Lasts (Needs w) n (s, a) →
    ∃ p, Route w s a p ∧ ∀ x, ((s, a) :: p.map (fun x => (x.1, x.2.1))).getLast? = some x → ∀ s' a' sd, ¬ Step w x.1 x.2 s' a' sd
  | 0, _, _, h => absurd trivial h
  | n + 1, s, a, h => by
    by_cases hs : ∃ s' a' sd, Step w s a s' a' sd
    · obtain ⟨s', a', sd, hs⟩ := hs
      obtain ⟨p, h1, h2⟩ := route_to_end n s' a' (fun hl => h ⟨(s', a'), .inl ⟨sd, hs⟩, hl⟩)
      refine ⟨(s', a', sd) :: p, .step _ _ _ _ _ _ hs h1, ?_⟩
      rw [List.map_cons, List.getLast?_cons_cons]
      exact h2
    · refine ⟨[], .done _ _, ?_⟩
      intro x hx
      simp at hx
      subst hx
      exact fun s' a' sd hst => hs ⟨s', a', sd, hst⟩

theorem route_join {w : World} {s : Str} {a : Ask} {p p' : Trail} (h : Route w s a p) {s1 : Str} {a1 : Ask}
    (hl : ((s, a) :: p.map (fun x => (x.1, x.2.1))).getLast? = some (s1, a1)) (h' : Route w s1 a1 p') : Route w s a (p ++ p') := by
  induction h with
  | done => simp at hl; obtain ⟨rfl, rfl⟩ := hl; exact h'
  | step s a s2 a2 sd p h1 _ ih =>
    rw [List.map_cons, List.getLast?_cons_cons] at hl
    exact .step _ _ _ _ _ _ h1 (ih hl)

/-- Unless resolution goes in circles, every sequence of steps can be continued to a complete resolution. -/
theorem route_completes {ctx : Context} {w : World} (hr : Represents ctx w) (hw : WellFormed w) {m : Name} (hs : Short m) {ts : TypeSet} (ht : ts ≠ 0)
    (hc : ¬ Circular w ⟨m, ts, false⟩) {p : Trail} (hp : Route w [] ⟨m, ts, false⟩ p) : ∃ p', Complete w ⟨m, ts, false⟩ (p ++ p') := by
  have : ∃ n, ¬ Lasts (Needs w) n ([], ⟨m, ts, false⟩) := by
    by_contra hall
    push Not at hall
    exact hc (circular_of_lasts hr hw hs ht hall)
  obtain ⟨n, hn⟩ := this
  obtain ⟨⟨s1, a1⟩, hl⟩ : ∃ x, (([], ⟨m, ts, false⟩) :: p.map (fun x => (x.1, x.2.1))).getLast? = some x :=
    ⟨_, List.getLast?_eq_some_getLast (by simp)⟩
  have hn' : ¬ Lasts (Needs w) n (s1, a1) := by
    intro h
    apply hn
    have := lasts_route hp hl n h
    have mono : ∀ (k j : Nat) (x : Str × Ask), Lasts (Needs w) (k + j) x → Lasts (Needs w) j x := by
      intro k j
      induction j with
      | zero => exact fun _ _ => trivial
      | succ j ih => rintro x ⟨y, h1, h2⟩; exact ⟨y, h1, ih y h2⟩
    exact mono _ _ _ this
  obtain ⟨p', h1, h2⟩ := route_to_end n s1 a1 hn'
  have hroute := route_join hp hl h1
  refine ⟨p', hroute, ?_, ?_⟩
  · by_contra hd
    exact hc (circular_of_repeat hroute hd)
  · intro x hx
    apply h2 x
    rw [← hx]
    unfold visited
    rw [List.map_append, ← List.cons_append]
    cases hp' : p'.map (fun x => (x.1, x.2.1)) with
    | nil => simp [hl]
    | cons y ys => rw [List.getLast?_append, List.getLast?_cons_cons, List.getLast?_cons]; rfl

/-! ### More steps, more hops -/

theorem runs_cons (a b : Str) (l : List Str) : runs (a :: b :: l) = (if a = b then 0 else 1) + runs (b :: l) := by
  unfold runs
  rw [if_neg (List.cons_ne_nil a (b :: l)), if_neg (List.cons_ne_nil b l)]
  rw [List.tail_cons, List.tail_cons, List.zip_cons_cons]
  by_cases h : a = b
  · rw [List.filter_cons_of_neg (by simp [h]), if_pos h, Nat.zero_add]
  · rw [List.filter_cons_of_pos (by simp [h]), if_neg h, List.length_cons, Nat.add_comm (List.length _) 1]

theorem runs_le_append (l l' : List Str) : runs l ≤ runs (l ++ l') := by
  induction l with
  | nil => simp [runs]
  | cons a l ih =>
    cases l with
    | nil =>
      unfold runs
      simp
    | cons b l =>
      rw [List.cons_append, List.cons_append, runs_cons, runs_cons]
      have := ih
      rw [List.cons_append] at this
      omega

theorem hopsOf_le (p p' : Trail) : hopsOf p ≤ hopsOf (p ++ p') := by
  unfold hopsOf
  rw [List.map_append]
  exact runs_le_append _ _

theorem rewritesOf_le (w : World) (p p' : Trail) : rewritesOf w p ≤ rewritesOf w (p ++ p') := by
  unfold rewritesOf
  rw [List.filter_append, List.length_append]
  omega

theorem Spec.RewrittenAway.append {w : World} {ds : List Name} {p : Trail} {s : Str} (h : RewrittenAway w ds p s) (p' : Trail) :
    RewrittenAway w ds (p ++ p') s := by
  obtain ⟨pre, x, y, post, rfl, h⟩ := h
  exact ⟨pre, x, y, post ++ p', by simp, h⟩

theorem Spec.ContactedAway.append {ds : List Name} {p : Trail} {s : Str} (h : ContactedAway ds p s) (p' : Trail) : ContactedAway ds (p ++ p') s := by
  obtain ⟨x, hx, h⟩ := h
  exact ⟨x, List.mem_append_left _ hx, h⟩

theorem Spec.Aliased.append {w : World} {k n : Name} {p : Trail} (h : Aliased w k n p) (p' : Trail) : Aliased w k n (p ++ p') := by
  obtain ⟨pre, x, mid, y, post, rfl, h⟩ := h
  exact ⟨pre, x, mid, y, post ++ p', by simp, h⟩

/-! ### Transcripts and trails -/

theorem tells_iff {w : World} {s : Str} {a : Ask} {as : List Answer} (h : Says w s a as) {t : Tag} (hr : t ≠ .REFUSED) (hn : t ≠ .NSNOTFOUND) :
    (Visit.mk s a as).Tells t ↔ Kind w s a t := by
  constructor
  · intro ht
    cases as with
    | nil => cases ht
    | cons x as => exact ⟨x, as, h, by simpa [Visit.Tells] using ht⟩
  · rintro ⟨x, as', h', rfl⟩
    have := says_determined h' h (by simpa using hr) (by simpa using hn)
    show as.head?.map _ = _
    rw [← this]; rfl

section
variable {w : World} {a0 : Ask} {said : Str → Ask → List Answer} {p : Trail}

theorem hops_transcript : runs ((transcript said p).map (·.server)) = hopsOf p := by
  unfold transcript hopsOf
  rw [List.map_map]
  rfl

theorem rewrites_transcript (ha : ∀ x ∈ p, Says w x.1 x.2.1 (said x.1 x.2.1)) :
    ((transcript said p).filter (fun x => decide (x.Tells .REWRITE))).length = rewritesOf w p := by
  unfold transcript rewritesOf
  rw [List.filter_map, List.length_map]
  congr 1
  apply List.filter_congr
  intro x hx
  simp only [Function.comp]
  rw [decide_eq_decide]
  exact tells_iff (ha x hx) (by simp) (by simp)

end

end Groot
