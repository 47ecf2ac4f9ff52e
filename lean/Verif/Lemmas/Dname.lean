import Verif.Spec.Dname
import Verif.Lemmas.Verdict5
import Verif.Lemmas.Closest

/-! # Classes and their members in the presence of DNAMEs -/

namespace Groot
open Spec

theorem matches_extend {rs : List RR} {labels T : Name} {i : Nat} (h : Matches rs labels T i) {u pre post : Name} (e : labels = pre ++ u ++ post)
    (hi : pre.length = i) (hk : Known rs (T ++ u)) : Matches rs labels (T ++ u) (i + u.length) := by
  induction u generalizing T i pre with
  | nil => simpa using h
  | cons l u ih =>
    have hk' : Known rs (T ++ [l]) := known_prefix hk ⟨u, by simp⟩
    have h1 : Matches rs labels (T ++ [l]) (i + 1) := .down T i l h (by rw [e, ← hi]; simp) hk'
    have := ih h1 (pre := pre ++ [l]) (by rw [e]; simp) (by simp [hi]) (by simpa using hk)
    simpa [Nat.add_assoc, Nat.add_comm 1] using this

/-- The question is the initial one, up to DNAMEs followed. -/
def Led (rs : List RR) (a0 : Ask) (m : Name) (a : Ask) : Prop :=
  ∃ T i, i ≤ a0.name.length ∧ a.name = T ++ a0.name.drop i ∧ Matches rs m T i ∧ (T = [] ∨ ∃ n, Alias rs n T)

theorem led_start {rs : List RR} {a0 : Ask} {m : Name} : Led rs a0 m a0 := ⟨[], 0, Nat.zero_le _, by simp, .root, .inl rfl⟩

theorem led_known {rs : List RR} {a0 a : Ask} {l : Label} {rest : Name} (h : Led rs a0 (a0.name ++ l :: rest) a) (hk : Known rs (a.name ++ [l])) :
    Matches rs (a0.name ++ l :: rest) (a.name ++ [l]) (a0.name.length + 1) := by
  obtain ⟨T, i, hi, e, hm, _⟩ := h
  rw [e, List.append_assoc] at hk ⊢
  have := matches_extend hm (u := a0.name.drop i ++ [l]) (pre := a0.name.take i) (post := rest)
    (by rw [← List.append_assoc, List.take_append_drop]; simp) (by simp [hi]) hk
  rw [List.length_append, List.length_drop, List.length_singleton] at this
  have e2 : i + (a0.name.length - i + 1) = a0.name.length + 1 := by omega
  rwa [e2] at this

theorem led_dname {rs : List RR} (hf : Flat rs) {a0 a : Ask} {l : Label} {rest : Name} (h : Led rs a0 (a0.name ++ l :: rest) a) {n t c : Name}
    (ha : Alias rs n t) (e : a.name = n ++ c) {a' : Ask} (e' : a'.name = t ++ c) : Led rs a0 (a0.name ++ l :: rest) a' := by
  obtain ⟨T, i, hi, e0, hm, hT⟩ := h
  rw [e] at e0
  have hkn : Known rs n := by
    obtain ⟨r, hr, h1, h2, _⟩ := ha
    exact .inr ⟨r, hr, by rw [h1]; decide, .inl ⟨[], by rw [h2]; simp⟩⟩
  have key : ∀ u, n = T ++ u → a0.name.drop i = u ++ c → Led rs a0 (a0.name ++ l :: rest) a' := by
    intro u h1 h2
    have hlen : i + u.length ≤ a0.name.length := by
      have := congrArg List.length h2
      rw [List.length_drop, List.length_append] at this
      omega
    have h3 := matches_extend hm (u := u) (pre := a0.name.take i) (post := c ++ l :: rest)
      (by rw [List.append_assoc, ← List.append_assoc u, ← h2, ← List.append_assoc, List.take_append_drop]) (by simp [hi]) (by rw [← h1]; exact hkn)
    rw [← h1] at h3
    refine ⟨t, i + u.length, hlen, ?_, .redirect n _ t h3 (by rw [List.length_append, List.length_cons]; omega) ha, .inr ⟨n, ha⟩⟩
    rw [e', ← List.drop_drop, h2, List.drop_left]
  rcases List.append_eq_append_iff.mp e0 with ⟨u, h1, h2⟩ | ⟨u, h1, h2⟩
  · have hu : u = [] := by
      rcases hT with rfl | ⟨n', ha'⟩
      · exact (List.append_eq_nil_iff.mp h1.symm).2
      · have := hf n' T n t ha' ha ⟨u, h1⟩
        rw [← this] at h1
        simpa using h1
    subst hu
    exact key [] (by simpa using h1.symm) (by simpa using h2.symm)
  · exact key u h1 h2

/-- A class's questions for classes of names: the initial one, up to DNAMEs followed; and the member's questions are the corresponding ones. -/
theorem fresh_flat {w : World} {rs : List RR} (hall : ∀ id, ∀ r ∈ w.log id, r ∈ rs) (hsup : ∀ id, ∀ r ∈ w.log id, r.type ≠ .N) (hf : Flat rs) {a0 : Ask}
    (hb0 : a0.below = true)
    {l : Label} {rest : Name} (hn : ¬ ∃ k, Matches rs (a0.name ++ l :: rest) k (a0.name.length + 1)) (hfit : Fits w (a0.member l rest)) :
    Fresh w a0 l rest ∧ ∀ s a, Reached w a0 s a → a.below = true → ¬ Known rs (a.name ++ [l]) := by
  have hnew : ∀ a, Led rs a0 (a0.name ++ l :: rest) a → ∀ id, ¬ NameExists (w.log id) (a.name ++ [l]) := by
    rintro a ha id (h | ⟨r, hr, h⟩)
    · simp at h
    · exact hn ⟨_, led_known ha (.inr ⟨r, hall id r hr, hsup id r hr, .inl h⟩)⟩
  have hrew : ∀ {s : Str} {a : Ask} {as : List Answer} {x : Answer} {r : RR} {a' : Ask}, Led rs a0 (a0.name ++ l :: rest) a →
      Relation.ReflTransGen (Next w) ([], a0.member l rest) (s, a.member l rest) → a.below = true → s ≠ [] → Says w s a as → x ∈ as → x.tag = .REWRITE →
      r ∈ x.rrs → Rewritten r a a' → a'.below = true → Led rs a0 (a0.name ++ l :: rest) a' ∧ Meets w l rest a' := by
    intro s a as x r a' hl hg hb h0 h1 h2 h3 h4 h5 hb'
    have hshort : Short (a.name ++ l :: rest) := by
      have := hfit _ hg
      dsimp only at this
      rwa [member_below hb] at this
    have hmeet : Meets w l rest a := fun _ => ⟨hshort, hnew a hl⟩
    have hl' : Led rs a0 (a0.name ++ l :: rest) a' := by
      cases h5 with
      | cname _ _ _ h => rw [h] at hb'; cases hb'
      | dname c h6 h7 h8 _ _ =>
        obtain ⟨id, hid⟩ := says_records h1 h2 h3 h4
        exact led_dname hf hl ⟨r, hall id r hid, h6, rfl, rfl⟩ h7 h8
    refine ⟨hl', fun _ => ⟨?_, hnew a' hl'⟩⟩
    by_contra hc
    have hst : Step w s (a.member l rest) s (a'.member l rest) none :=
      .rewriteHere s _ as x r _ h0 ((says_member hmeet s as).mp h1) h2 h3 h4 (rewritten_member h5) (.inl (by rw [member_below hb']; exact hc))
    have := hfit (s, a'.member l rest) (hg.tail ⟨none, hst⟩)
    dsimp only at this
    rw [member_below hb'] at this
    exact hc this
  have hreach : ∀ {s : Str} {a : Ask}, Reached w a0 s a → a.below = true →
      Led rs a0 (a0.name ++ l :: rest) a ∧ Relation.ReflTransGen (Next w) ([], a0.member l rest) (s, a.member l rest) := by
    intro s a h
    induction h with
    | start => exact fun _ => ⟨led_start, .refl⟩
    | step s a s' a' sd hr hst ih =>
      intro hb'
      have hb : a.below = true := by
        cases hst with
        | top => exact hb'
        | referral => exact hb'
        | rewriteHere _ _ as x r _ _ h1 h2 h3 h4 h5 =>
          cases h5 with
          | cname _ _ _ h => rw [h] at hb'; cases hb'
          | dname _ _ _ _ _ h => rw [← h]; exact hb'
        | rewriteTop _ _ as x r _ _ _ h1 h2 h3 h4 h5 =>
          cases h5 with
          | cname _ _ _ h => rw [h] at hb'; cases hb'
          | dname _ _ _ _ _ h => rw [← h]; exact hb'
      obtain ⟨hl, hg⟩ := ih hb
      have hshort : Short (a.name ++ l :: rest) := by
        have := hfit _ hg
        dsimp only at this
        rwa [member_below hb] at this
      have hmeet : Meets w l rest a := fun _ => ⟨hshort, hnew a hl⟩
      have hl' : Led rs a0 (a0.name ++ l :: rest) a' ∧ Meets w l rest a' := by
        cases hst with
        | top => exact ⟨hl, hmeet⟩
        | referral => exact ⟨hl, hmeet⟩
        | rewriteHere _ _ as x r _ h0 h1 h2 h3 h4 h5 => exact hrew hl hg hb h0 h1 h2 h3 h4 h5 hb'
        | rewriteTop _ _ as x r _ _ h0 h1 h2 h3 h4 h5 => exact hrew hl hg hb h0 h1 h2 h3 h4 h5 hb'
      exact ⟨hl'.1, hg.tail (c := (s', a'.member l rest)) ⟨sd, step_member hmeet hl'.2 hst⟩⟩
    | side s a s' a' b hr hst ih =>
      intro hb
      cases hst with
      | referral _ _ as x r _ _ _ _ _ _ _ h6 =>
        rcases h6 with ⟨_, h⟩ | ⟨_, h⟩
        · cases h
        · cases h; cases hb
  refine ⟨?_, fun s a h hb hk => hn ⟨_, led_known (hreach h hb).1 hk⟩⟩
  intro a ha hb
  have hmt : Meets w l rest a := by
    rcases ha with ⟨s, h⟩ | ⟨s, b, as, x, r, h, h0, h1, h2, h3, h4, h5⟩
    · obtain ⟨hl, hg⟩ := hreach h hb
      refine fun _ => ⟨?_, hnew a hl⟩
      have := hfit _ hg
      dsimp only at this
      rwa [member_below hb] at this
    · have hb' : b.below = true := by
        cases h5 with
        | cname _ _ _ h => rw [h] at hb; cases hb
        | dname _ _ _ _ _ h => rw [← h]; exact hb
      obtain ⟨hl, hg⟩ := hreach h hb'
      exact (hrew hl hg hb' h0 h1 h2 h3 h4 h5 hb).2
  exact hmt hb

/-- Resolving a question for a single name, only questions for single names arise. -/
theorem exact_reached {w : World} {a0 : Ask} (h0 : a0.below = false) {s : Str} {a : Ask} (h : Reached w a0 s a) : a.below = false := by
  have hr : ∀ {r : RR} {a a' : Ask}, Rewritten r a a' → a.below = false → a'.below = false := by
    intro r a a' h hb
    cases h with
    | cname _ _ _ h => exact h
    | dname _ _ _ _ _ h => rw [h]; exact hb
  induction h with
  | start => exact h0
  | step s a s' a' sd _ hst ih =>
    cases hst with
    | top => exact ih
    | referral => exact ih
    | rewriteHere _ _ as x r _ _ h1 h2 h3 h4 h5 => exact hr h5 ih
    | rewriteTop _ _ as x r _ _ _ h1 h2 h3 h4 h5 => exact hr h5 ih
  | side s a s' a' b _ hst ih =>
    cases hst with
    | referral _ _ as x r _ _ _ _ _ _ _ h6 =>
      rcases h6 with ⟨_, h⟩ | ⟨_, h⟩
      · cases h
      · cases h; rfl

theorem next_retype {w : World} {t1 t2 : TypeSet} (h1 : AsksOther t1) (h2 : AsksOther t2) {a b : Ask} (h : AlikeAsk t1 t2 a b) {s : Str} {x : Str × Ask}
    (hx : Relation.ReflTransGen (Next w) (s, a) x) : ∃ c, Relation.ReflTransGen (Next w) (s, b) (x.1, c) ∧ AlikeAsk t1 t2 x.2 c := by
  induction hx with
  | refl => exact ⟨b, .refl, h⟩
  | @tail y z _ hyz ih =>
    obtain ⟨c, hc, hal⟩ := ih
    obtain ⟨sd, hst⟩ := hyz
    obtain ⟨d, hd, hal'⟩ := step_retype h1 h2 hal hst
    exact ⟨d, hc.tail (c := (z.1, d)) ⟨sd, hd⟩, hal'⟩

theorem fits_retype {w : World} {t1 t2 : TypeSet} (h1 : AsksOther t1) (h2 : AsksOther t2) {m : Name} {b : Bool} (h : Fits w ⟨m, t1, b⟩) :
    Fits w ⟨m, t2, b⟩ := by
  intro x hx
  obtain ⟨c, hc, hal⟩ := next_retype h2 h1 (a := ⟨m, t2, b⟩) (b := ⟨m, t1, b⟩) ⟨rfl, rfl, .inl ⟨rfl, rfl⟩⟩ hx
  rw [hal.1]; exact h _ hc

theorem member_of_standsFor {w : World} (hw : WellFormed w) {all : List RR} (hall : ∀ id, ∀ r ∈ w.log id, r ∈ all) (hf : Flat all)
    {q : EC} {m : Name} (hm : StandsFor all q m) (hs : Fits w ⟨m, q.types, false⟩) :
    ∃ l rest, (ask q).member l rest = ⟨m, q.types, false⟩ ∧ Fresh w (ask q) l rest ∧
      ∀ s a, Reached w (ask q) s a → a.below = true → ¬ Known all (a.name ++ [l]) := by
  unfold StandsFor at hm
  cases hx : q.excluded with
  | none =>
    rw [hx] at hm
    dsimp only at hm
    subst hm
    have hb : (ask q).below = false := by simp [ask, hx]
    refine ⟨[], [], by rw [member_exact hb]; simp [ask, hx], ?_, fun s a h h' => by rw [exact_reached hb h] at h'; cases h'⟩
    intro a ha hab
    exfalso
    rcases ha with ⟨s, h⟩ | ⟨s, b, as, x, r, h, _, h1, h2, h3, h4, h5⟩
    · rw [exact_reached hb h] at hab; cases hab
    · have := exact_reached hb h
      cases h5 with
      | cname _ _ _ h => rw [h] at hab; cases hab
      | dname _ _ _ _ _ h => rw [h, this] at hab; cases hab
  | some ex =>
    rw [hx] at hm
    obtain ⟨l, rest, rfl, hk⟩ := hm
    have hb0 : (ask q).below = true := by simp [ask, hx]
    have e : (ask q).member l rest = ⟨q.name ++ l :: rest, q.types, false⟩ := member_below hb0
    exact ⟨l, rest, e, fresh_flat hall hw.supported hf hb0 hk (by rw [e]; exact hs)⟩

/-! ### The classes of a job -/

/-- What the search for a longer name finds within the first part is what the search for the first part finds. -/
theorem matches_inner {rs : List RR} {dom rest : Name} {k : Name} {i : Nat} (h : Matches rs (dom ++ rest) k i) :
    (i ≤ dom.length → ∃ k', Matches rs dom k' i) ∧ (i < dom.length → Matches rs dom k i) ∧
      (dom.length ≤ i → ∃ k0 b, Matches rs dom k0 dom.length ∧ Visits rs dom k0 ((dom ++ rest).take i) k b) := by
  induction h with
  | root =>
    refine ⟨fun _ => ⟨[], .root⟩, fun _ => .root, fun h => ?_⟩
    have hd : dom = [] := List.length_eq_zero_iff.mp (by omega)
    subst hd
    exact ⟨[], false, .root, by simpa using .start⟩
  | down n i l h1 h2 h3 ih =>
    have hin : i < dom.length → Matches rs dom (n ++ [l]) (i + 1) := by
      intro hi
      refine .down n i l (ih.2.1 hi) ?_ h3
      rw [List.getElem?_append_left hi] at h2; exact h2
    refine ⟨fun hi => ⟨_, hin (by omega)⟩, fun hi => hin (by omega), fun hi => ?_⟩
    rcases Nat.lt_or_ge i dom.length with hlt | hge
    · have e : i + 1 = dom.length := by omega
      refine ⟨n ++ [l], false, by rw [← e]; exact hin hlt, ?_⟩
      rw [e, List.take_left]; exact .start
    · obtain ⟨k0, b, h4, h5⟩ := ih.2.2 hge
      refine ⟨k0, false, h4, ?_⟩
      have e : (dom ++ rest).take (i + 1) = (dom ++ rest).take i ++ [l] := by
        rw [List.take_succ, h2]; rfl
      rw [e]
      exact .down _ _ b l h5 h3
  | redirect n i t h1 h2 h3 ih =>
    refine ⟨ih.1, fun hi => .redirect n i t (ih.2.1 hi) hi h3, fun hi => ?_⟩
    obtain ⟨k0, b, h4, h5⟩ := ih.2.2 hi
    exact ⟨k0, true, h4, .redirect _ _ b t h5 h3⟩

variable {ctx : Context} {w : World} {xs : List (RR × Nat × Nat)} {job : Job}

theorem Spec.Redirecting.regular (S : Redirecting ctx w xs job) : Regular (xs.map (·.1)) :=
  ⟨fun n hn h => (S.labels n hn _ h).1 rfl, S.root⟩

theorem Spec.Redirecting.tasks (S : Redirecting ctx w xs job) {thr' fuel : Nat} {g' : LGraph} {ts : List Task}
    (hts : LGraph.generateECs fuel (labelGraph thr' xs) (Driver.req job) = .ok (g', ts)) :
    g' = labelGraph thr' xs ∧ (∀ q ∈ classes ts, Short q.name ∧ (q.types = job.types ∨ q.types = ~~~0)) ∧
      ∀ m, InScope job m → ∃ q ∈ Spec.classes ts, StandsFor (xs.map (·.1)) q m := by
  have hg : g' = labelGraph thr' xs := C23_generation_no_trace thr' xs _ _ _ _ hts
  subst hg
  refine ⟨rfl, ?_⟩
  have hleg := fun q hq => (C25_legal thr' xs (fun n hn l hl => (S.labels n hn l hl).2) (Driver.req job) fuel _ ts hts q hq).1
  obtain ⟨N, ts', h1, _, h3⟩ := C29_single thr' xs (Driver.req job)
  have hEq : ts' = ts := by
    have := mono_agree (f := fun n => LGraph.generateECs n (labelGraph thr' xs) (Driver.req job)) (fun n r => generateECs_mono n _ _ r)
      (h1 N (Nat.le_refl _)) hts
    simpa using this
  subst hEq
  obtain ⟨i, ⟨k, h4⟩, h5, h6, h7⟩ := h3 S.domain
  change i = (stringToLabels job.domain).length → job.subdomains = false → ts' = [Task.ec (exactClass (stringToLabels job.domain) job.types)] at h6
  change i ≠ (stringToLabels job.domain).length →
    ts' = [Task.ec { name := (stringToLabels job.domain).take i, types := job.types, excluded := some [] }] at h7
  change Matches (xs.map (·.1)) (stringToLabels job.domain) k i at h4
  have hile := matches_le h4
  by_cases hi : i = (stringToLabels job.domain).length
  · cases hsub : job.subdomains with
    | false =>
      have := h6 hi hsub
      subst this
      constructor
      · intro q hq
        have : q = exactClass (stringToLabels job.domain) job.types := by simpa [Spec.classes] using hq
        exact ⟨hleg q hq, .inl (by rw [this]; rfl)⟩
      · intro m hm
        unfold InScope at hm
        rw [hsub, if_neg (by decide)] at hm
        exact ⟨exactClass (stringToLabels job.domain) job.types, by simp [Spec.classes], hm⟩
    | true =>
      have hj : OnExisting xs (Driver.req job) := ⟨S.domain, hsub, k, by rw [hi] at h4; exact h4⟩
      constructor
      · intro q hq
        refine ⟨hleg q hq, ?_⟩
        obtain ⟨N2, ts2, h8, h9⟩ := C24_classes thr' xs S.regular (Driver.req job) hj
        have := mono_agree (f := fun n => LGraph.generateECs n (labelGraph thr' xs) (Driver.req job)) (fun n r => generateECs_mono n _ _ r) (h8 N2 (Nat.le_refl _)) hts
        simp at this
        subst this
        obtain ⟨_, n, k, b, _, _, _, ⟨_, rfl⟩ | rfl⟩ := (h9 q).mp hq
        · exact .inl rfl
        · exact belowClass_types _ _ _
      · intro m hm
        unfold InScope at hm
        rw [hsub, if_pos rfl] at hm
        rcases C24_coverage thr' xs S.regular (Driver.req job) hj fuel ts' hts m hm.1 hm.2 with h | ⟨n, l, rest, rfl, hn, ⟨q, hq, h8, h9⟩, h10⟩
        · exact ⟨_, h, rfl⟩
        · refine ⟨q, hq, ?_⟩
          unfold StandsFor
          rw [h9, h8]
          refine ⟨l, rest, rfl, ?_⟩
          rintro ⟨k', hk'⟩
          obtain ⟨r, rfl⟩ := hn
          change ∀ k0 k b, Matches (xs.map (·.1)) (stringToLabels job.domain) k0 (stringToLabels job.domain).length →
            Visits (xs.map (·.1)) (stringToLabels job.domain) k0 (stringToLabels job.domain ++ r) k b → ¬ Known (xs.map (·.1)) (k ++ [l]) at h10
          have main : ∀ {k' : Name} {j : Nat}, Matches (xs.map (·.1)) ((stringToLabels job.domain ++ r) ++ l :: rest) k' j →
              j = (stringToLabels job.domain ++ r).length + 1 → False := by
            intro k' j hk'
            induction hk' with
            | root => intro e; omega
            | redirect _ _ _ _ _ _ ih => exact ih
            | down n2 j2 l2 h11 h12 h13 ih =>
              intro e
              have e : j2 = (stringToLabels job.domain ++ r).length := by omega
              subst e
              have hl : l2 = l := by
                rw [List.getElem?_append_right (Nat.le_refl _)] at h12
                simpa using h12.symm
              subst hl
              rw [List.append_assoc] at h11
              obtain ⟨k0, b, h14, h15⟩ := (matches_inner h11).2.2 (by rw [List.length_append]; omega)
              rw [← List.append_assoc, List.take_left] at h15
              exact h10 k0 n2 b h14 h15 h13
          exact main hk' rfl
  · have := h7 hi
    subst this
    constructor
    · intro q hq
      refine ⟨hleg q hq, .inl ?_⟩
      have : q = { name := (stringToLabels job.domain).take i, types := job.types, excluded := some [] } := by simpa [Spec.classes] using hq
      rw [this]
    · intro m hm
      refine ⟨_, by simp only [Spec.classes, List.filterMap_cons, List.filterMap_nil]; exact List.mem_cons_self, ?_⟩
      have hlt : i < (stringToLabels job.domain).length := by omega
      obtain ⟨rest, rfl⟩ : ∃ rest, m = stringToLabels job.domain ++ rest := by
        unfold InScope at hm
        split at hm
        · exact hm.1
        · exact ⟨[], by simpa using hm⟩
      show ∃ l rest', _ = (stringToLabels job.domain).take i ++ l :: rest' ∧ ¬ ∃ k, Matches _ _ k (((stringToLabels job.domain).take i).length + 1)
      rw [List.length_take, Nat.min_eq_left hile]
      obtain ⟨l, c, e⟩ : ∃ l c, (stringToLabels job.domain).drop i = l :: c := by
        cases hd : (stringToLabels job.domain).drop i with
        | nil => rw [List.drop_eq_nil_iff] at hd; omega
        | cons l c => exact ⟨l, c, rfl⟩
      refine ⟨l, c ++ rest, ?_, ?_⟩
      · conv_lhs => rw [← List.take_append_drop i (stringToLabels job.domain), e]
        simp
      · rintro ⟨k', hk'⟩
        obtain ⟨k2, h8⟩ := (matches_inner hk').1 (by omega)
        have := h5 k2 (i + 1) h8
        omega

theorem Spec.Redirecting.generated {thr thr' fuel : Nat} {g' : LGraph} {ts : List Task} {vs : List Violation}
    (hrun : Driver.runSequential fuel thr ctx (labelGraph thr' xs) job = .ok (g', ts, vs)) :
    LGraph.generateECs fuel (labelGraph thr' xs) (Driver.req job) = .ok (g', ts) := by
  unfold Driver.runSequential at hrun
  obtain ⟨⟨g1, ts1⟩, h1, hrun⟩ := bind_ok_iff.mp hrun
  obtain ⟨vs1, h2, hrun⟩ := bind_ok_iff.mp hrun
  cases hrun
  exact h1

theorem Spec.Redirecting.bridge (S : Redirecting ctx w xs job) {q : EC} (hq : q.types = job.types ∨ q.types = ~~~0) {cs : List Violation} {g : IG}
    {l : Option Violation} {s : IG.Enum} (hp : Processed w job.pathFns job.nodeFns q cs g l s) {m : Name} (hm : StandsFor (xs.map (·.1)) q m)
    (hs : Fits w ⟨m, job.types, false⟩) : Bridge w job q m := by
  have hqo : AsksOther q.types := by
    rcases hq with e | e <;> rw [e]
    · exact S.types
    · exact all_other
  obtain ⟨lb, rest, e, hf, -⟩ := member_of_standsFor S.wellFormed S.all S.flat hm (fits_retype S.types hqo hs)
  exact bridge_of_fresh S.represents S.wellFormed S.types hq hp (hs _ .refl) e hf

theorem Spec.Redirecting.covered (S : Redirecting ctx w xs job) {thr thr' fuel : Nat} {g' : LGraph} {ts : List Task} {vs : List Violation}
    (hrun : Driver.runSequential fuel thr ctx (labelGraph thr' xs) job = .ok (g', ts, vs)) (m : Name) (hm : InScope job m) :
    ∃ q ∈ Spec.classes ts, StandsFor (xs.map (·.1)) q m := (S.tasks (Redirecting.generated hrun)).2.2 m hm

theorem Spec.Redirecting.run (S : Redirecting ctx w xs job) {thr thr' fuel : Nat} {g' : LGraph} {ts : List Task} {vs : List Violation}
    (hrun : Driver.runSequential fuel thr ctx (labelGraph thr' xs) job = .ok (g', ts, vs)) :
    (∀ q ∈ classes ts, ∃ cs g l s, Processed w job.pathFns job.nodeFns q cs g l s ∧ ∀ v ∈ cs, v ∈ vs) ∧
    ∀ v ∈ vs, (∃ q ∈ classes ts, ∃ cs g l s, Processed w job.pathFns job.nodeFns q cs g l s ∧ v ∈ cs) ∨ ∃ d ps, v = .structural d ps :=
  run_of_tasks S.represents S.wellFormed S.types S.pathFns S.nodeFns hrun (fun h => (S.tasks h).2.1)

theorem Spec.Redirecting.class_run (S : Redirecting ctx w xs job) {thr thr' fuel : Nat} {g' : LGraph} {ts : List Task} {vs : List Violation}
    (hrun : Driver.runSequential fuel thr ctx (labelGraph thr' xs) job = .ok (g', ts, vs)) (q : EC) (hq : q ∈ Spec.classes ts) :
    (q.types = job.types ∨ q.types = ~~~0) ∧ ∃ cs g l s, Processed w job.pathFns job.nodeFns q cs g l s ∧ (∀ v ∈ cs, v ∈ vs) ∧
      ∀ m, StandsFor (xs.map (·.1)) q m → Fits w ⟨m, job.types, false⟩ → Bridge w job q m := by
  have ht := ((S.tasks (Redirecting.generated hrun)).2.1 q hq).2
  obtain ⟨cs, g, l, s, hP, hsub⟩ := (S.run hrun).1 q hq
  exact ⟨ht, cs, g, l, s, hP, hsub, fun m hm hs => S.bridge ht hP hm hs⟩

theorem Spec.Redirecting.source (S : Redirecting ctx w xs job) {thr thr' fuel : Nat} {g' : LGraph} {ts : List Task} {vs : List Violation}
    (hrun : Driver.runSequential fuel thr ctx (labelGraph thr' xs) job = .ok (g', ts, vs)) {v : Violation} (hv : v ∈ vs)
    (hn : ∀ d ps, v ≠ .structural d ps) :
    ∃ q ∈ Spec.classes ts, ∃ cs g l s, Processed w job.pathFns job.nodeFns q cs g l s ∧
      (∀ m, StandsFor (xs.map (·.1)) q m → Fits w ⟨m, job.types, false⟩ → Bridge w job q m) ∧ v ∈ cs := by
  rcases (S.run hrun).2 v hv with ⟨q, hq, cs, g, l, s, hP, hv⟩ | ⟨d, ps, e⟩
  · exact ⟨q, hq, cs, g, l, s, hP, fun m hm hs => S.bridge ((S.tasks (Redirecting.generated hrun)).2.1 q hq).2 hP hm hs, hv⟩
  · exact absurd e (hn d ps)

end Groot
