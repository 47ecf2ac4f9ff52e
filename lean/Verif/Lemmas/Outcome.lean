import Verif.Spec.Outcome
import Verif.Lemmas.Verdict3
import Mathlib.Tactic.Push

/-! # Paths of a finished graph as transcripts -/

namespace Groot
open Spec

/-- What a node shows. -/
def view (g : IG) (u : Nat) : Visit := ⟨(g.vtx u).ns, ask (g.vtx u).query, (g.vtx u).answer.getD []⟩

theorem view_head (g : IG) (u : Nat) : (view g u).said.head? = firstAns g u := by
  unfold view firstAns
  cases (g.vtx u).answer <;> rfl

theorem view_tells (g : IG) (u : Nat) (t : Tag) : (view g u).Tells t ↔ Answers g u t := by
  unfold Visit.Tells Answers; rw [view_head]

theorem view_records (g : IG) (u : Nat) : (view g u).records = ansRecords g u := by
  unfold Visit.records ansRecords; rw [view_head]

theorem showAsk_ask (q : EC) : showAsk (ask q) = showQuery q := by
  unfold showAsk
  apply toStr_of_ask
  unfold ask Ask.ec
  cases q.excluded <;> rfl

theorem view_show (g : IG) (u : Nat) : showAsk (view g u).ask = showQuery (g.vtx u).query := showAsk_ask _

open Classical in
/-- The answers recorded in a graph. -/
noncomputable def saidBy (g : IG) (s : Str) (a : Ask) : List Answer :=
  if h : ∃ u, At g u s a then (g.vtx h.choose).answer.getD [] else []

theorem saidBy_eq {w : World} {a0 : Ask} {g : IG} (h : BInv w a0 g []) {u : Nat} {s : Str} {a : Ask} (hu : At g u s a) :
    saidBy g s a = (g.vtx u).answer.getD [] := by
  unfold saidBy
  have hex : ∃ u, At g u s a := ⟨u, hu⟩
  rw [dif_pos hex]
  rw [h.core.uniq _ _ _ _ hex.choose_spec hu]

theorem answering_saidBy {w : World} {a0 : Ask} {g : IG} (h : BInv w a0 g []) : Answering w a0 (saidBy g) := by
  intro s a hr hs
  obtain ⟨u, hu⟩ := h.node hr
  rw [saidBy_eq h hu]
  obtain ⟨as, h1, h2⟩ := h.says hu hs
  rw [h1]; exact h2

theorem transcript_eq {w : World} {a0 : Ask} {g : IG} (h : BInv w a0 g []) {us : List Nat} {p : Trail}
    (hf : List.Forall₂ (fun u x => At g u x.1 x.2.1) us p) : transcript (saidBy g) p = us.map (view g) := by
  induction hf with
  | nil => rfl
  | @cons u x us p hu _ ih =>
    unfold transcript at ih ⊢
    rw [List.map_cons, List.map_cons, ih, saidBy_eq h hu]
    congr 1
    unfold view
    obtain ⟨_, h1, h2⟩ := hu
    rw [h1, h2]

theorem forall₂_at_nodup {w : World} {a0 : Ask} {g : IG} (h : Core w a0 g) {us : List Nat} {xs : List (Str × Ask)}
    (hf : List.Forall₂ (fun u x => At g u x.1 x.2) us xs) (hn : us.Nodup) : xs.Nodup := by
  induction hf with
  | nil => exact List.nodup_nil
  | @cons a y us xs h3 hr ih =>
    rw [List.nodup_cons] at hn ⊢
    refine ⟨fun hm => hn.1 ?_, ih hn.2⟩
    clear ih hn
    induction hr with
    | nil => cases hm
    | @cons b z us xs h4 _ ih =>
      rcases List.mem_cons.mp hm with rfl | hm
      · exact List.mem_cons.mpr (.inl (h.uniq a b _ _ h3 h4))
      · exact List.mem_cons_of_mem _ (ih hm)

theorem forall₂_dropLast {α β : Type} {R : α → β → Prop} {l : List α} {m : List β} (h : List.Forall₂ R l m) :
    List.Forall₂ R l.dropLast m.dropLast := by
  induction h with
  | nil => exact .nil
  | @cons a b l m hab ht ih =>
    cases ht with
    | nil => exact .nil
    | cons h1 h2 => exact .cons hab ih

theorem view_stops {g : IG} {u : Nat} (hs : Server g u) : (view g u).Stops ↔ CnameStop g u := by
  unfold Visit.Stops CnameStop
  rw [view_tells, view_records]
  exact ⟨fun h => ⟨hs, h⟩, fun h => h.2⟩

/-- The enumerated paths are the examined resolutions. -/
theorem halted_of_cname {w : World} {a0 : Ask} {g : IG} (h : BInv w a0 g []) {us : List Nat} (hp : CnamePath g 0 (0 :: us)) :
    ∃ p, Halted w (saidBy g) a0 p ∧ List.Forall₂ (fun u x => At g u x.1 x.2.1) us p := by
  obtain ⟨⟨_, hc⟩, hn, ⟨u, hu, hstop⟩⟩ := hp
  obtain ⟨p, h1, h2⟩ := route_of_path h us 0 [] a0 h.core.root hc
  have hv := forall₂_visited h.core.root h2
  refine ⟨p, ⟨h1, forall₂_at_nodup h.core (forall₂_dropLast hv) hn, ?_⟩, h2⟩
  rw [transcript_eq h h2]
  cases us with
  | nil =>
    simp at hu; subst hu
    exact absurd h.core.root.2.1 hstop.1
  | cons y ys =>
    rw [List.getLast?_cons_cons] at hu
    refine ⟨view g u, by rw [List.getLast?_map, hu]; rfl, (view_stops hstop.1).mpr hstop⟩

theorem cname_of_halted {w : World} {a0 : Ask} {g : IG} (h : BInv w a0 g []) (hw : WellFormed w) {p : Trail} (hp : Halted w (saidBy g) a0 p) :
    ∃ us, CnamePath g 0 (0 :: us) ∧ List.Forall₂ (fun u x => At g u x.1 x.2.1) us p := by
  obtain ⟨us, h1, h2⟩ := path_of_route h hp.route 0 h.core.root
  have hv := forall₂_visited h.core.root h2
  refine ⟨us, ⟨⟨rfl, h1⟩, nodup_of_at (forall₂_dropLast hv) hp.simple, ?_⟩, h2⟩
  obtain ⟨x, hx, hst⟩ := hp.ended
  have hsrv := route_server hw hp.route
  rw [transcript_eq h h2, List.getLast?_map] at hx
  cases hl : us.getLast? with
  | none => rw [hl] at hx; cases hx
  | some u =>
    rw [hl] at hx
    simp only [Option.map_some, Option.some.injEq] at hx
    subst hx
    refine ⟨u, ?_, ?_⟩
    · cases us with
      | nil => cases hl
      | cons y ys => rw [List.getLast?_cons_cons]; exact hl
    · refine (view_stops ?_).mp hst
      obtain ⟨x, hx, hat⟩ := forall₂_mem' h2 (List.mem_of_getLast? hl)
      unfold Server
      rw [hat.2.1]
      exact hsrv x hx

variable {w : World} {pf : List PathFn} {nf : List NodeFn} {q : EC} {vs : List Violation} {g : IG} {l : Option Violation} {s : IG.Enum}

theorem Processed.examined (h : Processed w pf nf q vs g l s) (hw : WellFormed w) {p : Trail} (hp : Examined w (saidBy g) (ask q) p) :
    ∃ us, (0 :: us) ∈ s.paths ∧ List.Forall₂ (fun u x => At g u x.1 x.2.1) us p := by
  rcases hp with hp | hp
  · exact h.of_complete hp
  · obtain ⟨us, h1, h2⟩ := cname_of_halted h.inv hw hp
    exact ⟨us, (h.paths _).mpr (.inr h1), h2⟩

theorem Processed.to_examined (h : Processed w pf nf q vs g l s) {us : List Nat} (hp : (0 :: us) ∈ s.paths) :
    ∃ p, Examined w (saidBy g) (ask q) p ∧ List.Forall₂ (fun u x => At g u x.1 x.2.1) us p := by
  rcases (h.paths _).mp hp with h1 | h1
  · obtain ⟨p, h2, h3⟩ := complete_of_maximal h.inv h1
    exact ⟨p, .inl h2, h3⟩
  · obtain ⟨p, h2, h3⟩ := halted_of_cname h.inv h1
    exact ⟨p, .inr h2, h3⟩

theorem Processed.path_cons (h : Processed w pf nf q vs g l s) {p : List Nat} (hp : p ∈ s.paths) : ∃ us, p = 0 :: us := by
  obtain ⟨hh, _⟩ := h.walk p hp
  cases p with
  | nil => cases hh
  | cons v us =>
    simp only [List.head?_cons, Option.some.injEq] at hh
    exact ⟨us, by rw [hh]⟩

end Groot
