import Verif.Spec.Members
import Verif.Lemmas.Reached
import Verif.Lemmas.Closest

/-! # A class of unknown names is answered like each of its members -/

namespace Groot
open Spec

/-- The next label is new. -/
theorem encloser_member {log : List RR} {n : Name} {l : Label} {rest : Name} (hf : ¬ NameExists log (n ++ [l])) (e : Name) :
    Encloser log n e ↔ Encloser log (n ++ l :: rest) e := by
  have hex : ∀ m, AtOrBelow (n ++ [l]) m → ¬ NameExists log m := by
    rintro m ⟨r, rfl⟩ (h | ⟨x, hx, r', h⟩)
    · simp at h
    · exact hf (Or.inr ⟨x, hx, r ++ r', by rw [h]; simp⟩)
  have hnext : ∀ l', AtOrBelow (n ++ [l']) (n ++ l :: rest) → l' = l := by
    rintro l' ⟨r, h⟩
    simp at h
    exact h.1.symm
  have hlow : ∀ e : Name, AtOrBelow e (n ++ l :: rest) → NameExists log e → AtOrBelow e n := by
    rintro e ⟨r, hr⟩ he
    rcases List.append_eq_append_iff.mp hr with ⟨a, h1, h2⟩ | ⟨a, h1, h2⟩
    · cases a with
      | nil => rw [List.append_nil] at h1; exact ⟨[], by simp [h1]⟩
      | cons b a =>
        exfalso
        simp at h2
        exact hex e ⟨a, by rw [h1, ← h2.1]; simp⟩ he
    · exact ⟨a, h1⟩
  constructor
  · rintro ⟨⟨r, h1⟩, h2, h3, h4⟩
    refine ⟨⟨r ++ l :: rest, by rw [h1]; simp⟩, h2, h3, ?_⟩
    rcases h4 with h4 | h4 | h4
    · exact Or.inl h4
    · right; right
      intro l' hl'
      rw [h4] at hl' ⊢
      rw [hnext l' hl']
      exact hf
    · right; right
      intro l' hl' hx
      exact h4 l' (hlow _ hl' hx) hx
  · rintro ⟨h1, h2, h3, h4⟩
    refine ⟨hlow e h1 h2, h2, h3, ?_⟩
    rcases h4 with h4 | h4 | h4
    · exact Or.inl h4
    · exfalso
      exact hex e ⟨rest, by rw [h4]; simp⟩ h2
    · right; right
      intro l' ⟨r, hl'⟩
      exact h4 l' ⟨r ++ l :: rest, by rw [hl']; simp⟩

theorem reply_member {log : List RR} {q q' : EC} {l : Label} {rest : Name} (hn : q'.name = q.name ++ l :: rest) (ht : q'.types = q.types)
    (hx : q.excluded ≠ none) (hx' : q'.excluded = none) (hf : ¬ NameExists log (q.name ++ [l])) (as : List Answer) :
    Reply log q as ↔ Reply log q' as := by
  have he : ∀ e, Encloser log q.name e ↔ Encloser log q'.name e := by rw [hn]; exact encloser_member hf
  have hq : ∀ e, ¬ ExactFor q e := fun e h => hx h.2
  have hq' : ∀ e, Encloser log q'.name e → ¬ ExactFor q' e := by
    intro e h ⟨h1, _⟩
    have h2 := h.2.1
    rw [← h1, hn] at h2
    rcases h2 with h2 | ⟨x, hx, r, h2⟩
    · simp at h2
    · exact hf (Or.inr ⟨x, hx, rest ++ r, by rw [h2]; simp⟩)
  have hO : OnlyCname q ↔ OnlyCname q' := by unfold OnlyCname; rw [ht]
  have hD : ∀ m, dataFor log q m false = dataFor log q' m false := by intro m; unfold dataFor; rw [ht]
  constructor
  · intro h
    cases h with
    | referral e ts h1 h2 h3 => exact .referral e ts ((he e).mp h1) h2 h3
    | dname e ts r h1 h2 _ h4 h5 h6 h7 => exact .dname e ts r ((he e).mp h1) h2 (hq' e ((he e).mp h1)) h4 h5 h6 h7
    | cname e m exact ts r tag h1 h2 h3 h4 h5 h6 h7 =>
      obtain ⟨hc, ⟨_, hc2, _⟩ | ⟨hc1, _, hc3⟩⟩ := h2
      · exact absurd hc2 (hq e)
      · exact .cname e m false ts r tag ((he e).mp h1) ⟨hc, Or.inr ⟨rfl, hq' e ((he e).mp h1), hc3⟩⟩ h3 h4 h5 h6 (by rw [← hO]; exact h7)
    | data e m exact found missing h1 h2 h3 h4 h5 =>
      obtain ⟨hc, ⟨_, hc2, _⟩ | ⟨hc1, _, hc3⟩⟩ := h2
      · exact absurd hc2 (hq e)
      · subst hc1
        rw [hD]
        exact .data e m false found missing ((he e).mp h1) ⟨hc, Or.inr ⟨rfl, hq' e ((he e).mp h1), hc3⟩⟩ h3 (by rw [ht]; exact h4) (by rw [ht]; exact h5)
    | nx e h1 h2 _ h4 h5 => rw [← ht]; exact .nx e ((he e).mp h1) h2 (hq' e ((he e).mp h1)) h4 h5
  · intro h
    cases h with
    | referral e ts h1 h2 h3 => exact .referral e ts ((he e).mpr h1) h2 h3
    | dname e ts r h1 h2 _ h4 h5 h6 h7 => exact .dname e ts r ((he e).mpr h1) h2 (hq e) h4 h5 h6 h7
    | cname e m exact ts r tag h1 h2 h3 h4 h5 h6 h7 =>
      obtain ⟨hc, ⟨_, hc2, _⟩ | ⟨hc1, _, hc3⟩⟩ := h2
      · exact absurd hc2 (hq' e h1)
      · exact .cname e m false ts r tag ((he e).mpr h1) ⟨hc, Or.inr ⟨rfl, hq e, hc3⟩⟩ h3 h4 h5 h6 (by rw [hO]; exact h7)
    | data e m exact found missing h1 h2 h3 h4 h5 =>
      obtain ⟨hc, ⟨_, hc2, _⟩ | ⟨hc1, _, hc3⟩⟩ := h2
      · exact absurd hc2 (hq' e h1)
      · subst hc1
        rw [← hD]
        exact .data e m false found missing ((he e).mpr h1) ⟨hc, Or.inr ⟨rfl, hq e, hc3⟩⟩ h3 (by rw [← ht]; exact h4) (by rw [← ht]; exact h5)
    | nx e h1 h2 _ h4 h5 => rw [ht]; exact .nx e ((he e).mpr h1) h2 (hq e) h4 h5

theorem short_prefix {n m : Name} (h : Short (n ++ m)) : Short n := by
  refine ⟨fun l hl => h.1 l (by simp [hl]), ?_⟩
  by_cases hn : n = []
  · subst hn; decide
  · have h2 := h.2
    unfold present at h2 ⊢
    rw [if_neg hn]
    rw [if_neg (by simp [hn])] at h2
    rw [List.reverse_append, List.map_append, List.flatten_append, List.length_append] at h2
    omega

theorem soaOwner_exists (log : List RR) : NameExists log (soaOwner log) := by
  unfold soaOwner
  generalize h : (log.filter (fun r => decide (r.type = .SOA))).getLast? = o
  cases o with
  | none => exact Or.inl rfl
  | some r => exact Or.inr ⟨r, List.mem_of_mem_filter (List.mem_of_getLast? h), [], by simp⟩

/-- The conditions on a question under which the member is answered like the class. -/
def Meets (w : World) (l : Label) (rest : Name) (a : Ask) : Prop :=
  a.below = true → Short (a.name ++ l :: rest) ∧ ∀ id, ¬ NameExists (w.log id) (a.name ++ [l])

section
variable {w : World} {l : Label} {rest : Name} {a : Ask}

theorem origin_member (hg : ∀ id, ¬ NameExists (w.log id) (a.name ++ [l])) (id : Nat) :
    AtOrBelow (w.origin id) a.name ↔ AtOrBelow (w.origin id) (a.name ++ l :: rest) := by
  constructor
  · rintro ⟨r, hr⟩; exact ⟨r ++ l :: rest, by rw [hr]; simp⟩
  · rintro ⟨r, hr⟩
    rcases List.append_eq_append_iff.mp hr with ⟨c, h1, h2⟩ | ⟨c, h1, h2⟩
    · cases c with
      | nil => rw [List.append_nil] at h1; exact ⟨[], by simp [h1]⟩
      | cons b c =>
        exfalso
        simp at h2
        refine hg id ?_
        have := soaOwner_exists (w.log id)
        rcases this with h | ⟨x, hx, r', h⟩
        · have h3 : w.origin id = [] := h
          rw [h1] at h3; simp at h3
        · exact Or.inr ⟨x, hx, c ++ r', by rw [h]; show w.origin id ++ r' = _; rw [h1, ← h2.1]; simp⟩
    · exact ⟨c, h1⟩

theorem encloses_member (hg : ∀ id, ¬ NameExists (w.log id) (a.name ++ [l])) (s : Str) :
    Encloses w s a.name ↔ Encloses w s (a.name ++ l :: rest) := by
  unfold Encloses
  constructor
  · rintro ⟨id, h1, h2⟩; exact ⟨id, h1, (origin_member hg id).mp h2⟩
  · rintro ⟨id, h1, h2⟩; exact ⟨id, h1, (origin_member hg id).mpr h2⟩

theorem best_member (hg : ∀ id, ¬ NameExists (w.log id) (a.name ++ [l])) (s : Str) (id : Nat) :
    Best w s a.name id ↔ Best w s (a.name ++ l :: rest) id := by
  unfold Best
  simp only [origin_member (rest := rest) hg]

theorem member_below (h : a.below = true) : a.member l rest = ⟨a.name ++ l :: rest, a.types, false⟩ := by
  unfold Ask.member; rw [if_pos h]

theorem member_exact (h : a.below = false) : a.member l rest = a := by
  unfold Ask.member; rw [if_neg (by simp [h])]

theorem says_member (hg : Meets w l rest a) (s : Str) (as : List Answer) : Says w s a as ↔ Says w s (a.member l rest) as := by
  cases hb : a.below with
  | false => rw [member_exact hb]
  | true =>
    obtain ⟨h1, h2⟩ := hg hb
    rw [member_below hb]
    have hs := short_prefix h1
    have hrep : ∀ id, Reply (w.log id) a.ec as ↔ Reply (w.log id) (Ask.ec ⟨a.name ++ l :: rest, a.types, false⟩) as := by
      intro id
      refine reply_member (q := a.ec) (q' := Ask.ec ⟨a.name ++ l :: rest, a.types, false⟩) (l := l) (rest := rest) rfl rfl ?_ rfl (h2 id) as
      unfold Ask.ec; simp [hb]
    constructor
    · intro h
      cases h with
      | tooLong h => exact absurd hs h
      | zone id _ _ hB hR => exact .zone id as h1 ((best_member h2 s id).mp hB) ((hrep id).mp hR)
      | refused _ hn hl => exact .refused (a := ⟨a.name ++ l :: rest, a.types, false⟩) h1 (fun c => hn ((encloses_member h2 s).mpr c)) hl
      | unknown _ hl => exact .unknown (a := ⟨a.name ++ l :: rest, a.types, false⟩) h1 hl
    · intro h
      cases h with
      | tooLong h => exact absurd h1 h
      | zone id _ _ hB hR => exact .zone id as hs ((best_member h2 s id).mpr hB) ((hrep id).mpr hR)
      | refused _ hn hl => exact .refused (a := a) hs (fun c => hn ((encloses_member h2 s).mp c)) hl
      | unknown _ hl => exact .unknown (a := a) hs hl

theorem rewritten_member {r : RR} {a' : Ask} (h : Rewritten r a a') : Rewritten r (a.member l rest) (a'.member l rest) := by
  cases h with
  | cname h1 h2 h3 h4 =>
    rw [member_exact h4]
    refine .cname h1 h2 ?_ h4
    cases hb : a.below with
    | false => rw [member_exact hb]; exact h3
    | true => rw [member_below hb]; exact h3
  | dname rest' h1 h2 h3 h4 h5 =>
    cases hb : a.below with
    | false => rw [member_exact hb, member_exact (by rw [h5, hb])]; exact .dname rest' h1 h2 h3 h4 h5
    | true =>
      rw [member_below hb, member_below (by rw [h5, hb])]
      exact .dname (rest' ++ l :: rest) h1 (by show a.name ++ _ = _; rw [h2]; simp) (by show a'.name ++ _ = _; rw [h3]; simp) h4 rfl

theorem rewritten_of_member {r : RR} {b : Ask} (hr : AtOrBelow r.name a.name ∨ r.type = .CNAME) (h : Rewritten r (a.member l rest) b) :
    ∃ a', b = a'.member l rest ∧ Rewritten r a a' := by
  cases h with
  | cname h1 h2 h3 h4 =>
    refine ⟨b, (member_exact h4).symm, .cname h1 h2 ?_ h4⟩
    have : (a.member l rest).types = a.types := by unfold Ask.member; split <;> rfl
    rw [this] at h3; exact h3
  | dname rest' h1 h2 h3 h4 h5 =>
    cases hb : a.below with
    | false =>
      rw [member_exact hb] at h2 h4 h5
      exact ⟨b, (member_exact (by rw [h5, hb])).symm, .dname rest' h1 h2 h3 h4 h5⟩
    | true =>
      rw [member_below hb] at h2 h4 h5
      rcases hr with ⟨c, hc⟩ | hr
      · refine ⟨⟨stringToLabels r.rdata ++ c, a.types, true⟩, ?_, .dname c h1 hc rfl rfl hb.symm⟩
        rw [member_below rfl]
        have hrest : rest' = c ++ l :: rest := by
          have h2 : a.name ++ l :: rest = r.name ++ rest' := h2
          rw [hc, List.append_assoc] at h2
          exact (List.append_cancel_left h2).symm
        obtain ⟨n, t, bl⟩ := b
        simp only at h3 h4 h5
        rw [h3, h4, h5, hrest]
        simp
      · rw [hr] at h1; cases h1

/-- The record of a rewriting is a CNAME, or a DNAME at or above the name asked for. -/
theorem Spec.Says.rewrite_owner {s : Str} {as : List Answer} (h : Says w s a as) {x : Answer} (hx : x ∈ as) (ht : x.tag = .REWRITE)
    {r : RR} (hr : r ∈ x.rrs) : AtOrBelow r.name a.name ∨ r.type = .CNAME := by
  cases h with
  | tooLong => rw [List.mem_singleton.mp hx] at ht; cases ht
  | refused => rw [List.mem_singleton.mp hx] at ht; cases ht
  | unknown => rw [List.mem_singleton.mp hx] at ht; cases ht
  | zone id as _ _ hR =>
    cases hR with
    | referral => rw [List.mem_singleton.mp hx] at ht; cases ht
    | dname e ts r' h1 _ _ _ h5 _ _ =>
      rw [List.mem_singleton.mp hx] at hr
      rw [List.mem_singleton.mp hr, h5]
      exact Or.inl h1.1
    | cname e m exact ts r' tag _ _ _ _ h5 _ _ =>
      rw [List.mem_singleton.mp hx] at hr
      rw [List.mem_singleton.mp hr]
      exact Or.inr h5
    | data e m exact found missing h1 h2 h3 h4 h5 =>
      exfalso
      unfold dataAnswers at hx
      rcases List.mem_append.mp hx with hx | hx
      · split at hx
        · cases hx
        · rw [List.mem_singleton.mp hx] at ht; cases ht
      · split at hx
        · cases hx
        · rw [List.mem_singleton.mp hx] at ht; cases ht
    | nx => rw [List.mem_singleton.mp hx] at ht; cases ht

theorem cond_member {s : Str} (hg : Meets w l rest a) :
    (¬ Short a.name ∨ Encloses w s a.name) ↔ (¬ Short (a.member l rest).name ∨ Encloses w s (a.member l rest).name) := by
  cases hb : a.below with
  | false => rw [member_exact hb]
  | true =>
    obtain ⟨h1, h2⟩ := hg hb
    rw [member_below hb]
    show _ ↔ ¬ Short (a.name ++ l :: rest) ∨ Encloses w s (a.name ++ l :: rest)
    have hs := short_prefix h1
    rw [← encloses_member h2 s]
    simp [hs, h1]

theorem step_member {s s' : Str} {a' : Ask} {side : Option Ask} (hg : Meets w l rest a) (hg' : Meets w l rest a')
    (h : Step w s a s' a' side) : Step w s (a.member l rest) s' (a'.member l rest) side := by
  cases h with
  | top _ _ h => exact .top _ _ h
  | rewriteHere _ _ as x r _ h0 h1 h2 h3 h4 h5 h6 =>
    exact .rewriteHere s _ as x r _ h0 ((says_member hg s as).mp h1) h2 h3 h4 (rewritten_member h5) ((cond_member hg').mp h6)
  | rewriteTop _ _ as x r _ _ h0 h1 h2 h3 h4 h5 h6 h7 h8 =>
    have hc := (not_congr (cond_member (s := s) hg')).mp (by push Not; exact ⟨h6, h7⟩)
    push Not at hc
    exact .rewriteTop s _ as x r _ _ h0 ((says_member hg s as).mp h1) h2 h3 h4 (rewritten_member h5) hc.1 hc.2 h8
  | referral _ _ as x r _ h0 h1 h2 h3 h4 h5 h6 =>
    exact .referral s _ as x r side h0 ((says_member hg s as).mp h1) h2 h3 h4 h5 h6

theorem step_of_member {s s' : Str} {b : Ask} {side : Option Ask} (hg : Meets w l rest a)
    (hg' : ∀ a' as x r, s ≠ [] → Says w s a as → x ∈ as → x.tag = .REWRITE → r ∈ x.rrs → Rewritten r a a' → Meets w l rest a')
    (h : Step w s (a.member l rest) s' b side) : ∃ a', b = a'.member l rest ∧ Step w s a s' a' side := by
  generalize ha : a.member l rest = a1 at h
  cases h with
  | top _ _ h => exact ⟨a, ha.symm, .top _ _ h⟩
  | rewriteHere _ _ as x r _ h0 h1 h2 h3 h4 h5 h6 =>
    rw [← ha] at h1 h5
    have h1' := (says_member hg s as).mpr h1
    obtain ⟨a', rfl, h5'⟩ := rewritten_of_member (h1'.rewrite_owner h2 h3 h4) h5
    exact ⟨a', rfl, .rewriteHere s _ as x r _ h0 h1' h2 h3 h4 h5' ((cond_member (hg' a' as x r h0 h1' h2 h3 h4 h5')).mpr h6)⟩
  | rewriteTop _ _ as x r _ _ h0 h1 h2 h3 h4 h5 h6 h7 h8 =>
    rw [← ha] at h1 h5
    have h1' := (says_member hg s as).mpr h1
    obtain ⟨a', rfl, h5'⟩ := rewritten_of_member (h1'.rewrite_owner h2 h3 h4) h5
    have hc := (not_congr (cond_member (s := s) (hg' a' as x r h0 h1' h2 h3 h4 h5'))).mpr (by push Not; exact ⟨h6, h7⟩)
    push Not at hc
    exact ⟨a', rfl, .rewriteTop s _ as x r _ _ h0 h1' h2 h3 h4 h5' hc.1 hc.2 h8⟩
  | referral _ _ as x r _ h0 h1 h2 h3 h4 h5 h6 =>
    rw [← ha] at h1
    exact ⟨a, ha.symm, .referral s _ as x r side h0 ((says_member hg s as).mpr h1) h2 h3 h4 h5 h6⟩

end

section
variable {w : World} {a0 : Ask} {l : Label} {rest : Name}

theorem Spec.Fresh.good (hf : Fresh w a0 l rest) {s : Str} {a : Ask} (h : Reached w a0 s a) : Meets w l rest a :=
  fun hb => hf a (Or.inl ⟨s, h⟩) hb

theorem Spec.Fresh.good' (hf : Fresh w a0 l rest) {s : Str} {a : Ask} (h : Reached w a0 s a) (a' : Ask) (as : List Answer) (x : Answer) (r : RR)
    (h0 : s ≠ []) (h1 : Says w s a as) (h2 : x ∈ as) (h3 : x.tag = .REWRITE) (h4 : r ∈ x.rrs) (h5 : Rewritten r a a') : Meets w l rest a' :=
  fun hb => hf a' (Or.inr ⟨s, a, as, x, r, h, h0, h1, h2, h3, h4, h5⟩) hb

theorem route_member (hf : Fresh w a0 l rest) {s : Str} {a : Ask} {p : List (Str × Ask × Option Ask)} (hr : Reached w a0 s a)
    (h : Route w s a p) : Route w s (a.member l rest) (p.map (fun x => (x.1, x.2.1.member l rest, x.2.2))) := by
  induction h with
  | done s a => exact .done _ _
  | step s a s' a' side p h _ ih =>
    have hr' := Reached.step s a s' a' side hr h
    exact .step _ _ _ _ _ _ (step_member (hf.good hr) (hf.good hr') h) (ih hr')

theorem route_of_member (hf : Fresh w a0 l rest) {s : Str} {p' : List (Str × Ask × Option Ask)} :
    ∀ {a : Ask}, Reached w a0 s a → Route w s (a.member l rest) p' →
    ∃ p, p' = p.map (fun x => (x.1, x.2.1.member l rest, x.2.2)) ∧ Route w s a p := by
  intro a hr h
  generalize hb : a.member l rest = b at h
  induction h generalizing a with
  | done s b => exact ⟨[], rfl, .done _ _⟩
  | step s b s' b' side p h _ ih =>
    rw [← hb] at h
    obtain ⟨a', rfl, h'⟩ := step_of_member (hf.good hr) (hf.good' hr) h
    have hr' := Reached.step s a s' a' side hr h'
    obtain ⟨p1, rfl, hp⟩ := ih hr' rfl
    exact ⟨(s', a', side) :: p1, rfl, .step _ _ _ _ _ _ h' hp⟩

end
end Groot
