import Verif.Spec.Redirect
import Verif.Lemmas.Dname
import Verif.Props.Delegation
import Verif.Props.Final

/-! # What is asked about a name, and where its resolution ends, in the presence of DNAMEs -/

namespace Groot
open Spec

theorem matches_append {rs : List RR} {m k : Name} {i : Nat} (rest : Name) (h : Matches rs m k i) : Matches rs (m ++ rest) k i := by
  induction h with
  | root => exact .root
  | down n i l _ h2 h3 ih => exact .down n i l ih (by rw [List.getElem?_append_left (List.getElem?_eq_some_iff.mp h2).1]; exact h2) h3
  | redirect n i t _ h2 h3 ih => exact .redirect n i t ih (by rw [List.length_append]; omega) h3

theorem matches_shorter {rs : List RR} {m k : Name} {i : Nat} (h : Matches rs m k i) : ∀ j, j ≤ i → ∃ k', Matches rs m k' j := by
  induction h with
  | root => intro j hj; obtain rfl : j = 0 := by omega
            exact ⟨[], .root⟩
  | down n i l h1 h2 h3 ih =>
    intro j hj
    rcases Nat.lt_or_ge i j with h | h
    · obtain rfl : j = i + 1 := by omega
      exact ⟨_, .down n i l h1 h2 h3⟩
    · exact ih j h
  | redirect _ _ _ _ _ _ ih => exact ih

theorem matches_self {rs : List RR} {m : Name} (h : Known rs m) : Matches rs m m m.length := by
  have := matches_extend (rs := rs) (labels := m) .root (u := m) (pre := []) (post := []) (by simp) rfl (by simpa using h)
  simpa using this

theorem matches_of_visits {rs : List RR} {dom rest k0 : Name} (h0 : Matches rs dom k0 dom.length) {n k : Name} {b : Bool} (h : Visits rs dom k0 n k b)
    {r : Name} (e : dom ++ rest = n ++ r) (hb : b = true → r ≠ []) : Matches rs (dom ++ rest) k n.length := by
  induction h generalizing r with
  | start => exact matches_append rest h0
  | down n k b l h1 h2 ih =>
    have h3 := ih (r := l :: r) (by rw [e]; simp) (fun _ => by simp)
    rw [List.length_append, List.length_singleton]
    refine .down k n.length l h3 ?_ h2
    rw [e]; simp
  | redirect n k b t h1 h2 ih =>
    have hr := hb rfl
    refine .redirect k n.length t (ih e (fun _ => hr)) ?_ h2
    rw [e, List.length_append]
    have := List.length_pos_iff.mpr hr
    omega

theorem longest_unique' {rs : List RR} {m : Name} {i j : Nat} (h : Deepest rs m i) (h' : Deepest rs m j) : i = j := by
  obtain ⟨⟨k, hk⟩, h1⟩ := h
  obtain ⟨⟨k', hk'⟩, h2⟩ := h'
  have := h1 _ _ hk'
  have := h2 _ _ hk
  omega

variable {ctx : Context} {w : World} {xs : List (RR × Nat × Nat)} {job : Job}

/-- The classes a name stands in, by what is asked. -/
theorem Spec.Redirecting.asked (S : Redirecting ctx w xs job) {thr' fuel : Nat} {g' : LGraph} {ts : List Task}
    (hts : LGraph.generateECs fuel (labelGraph thr' xs) (Driver.req job) = .ok (g', ts)) :
    (∀ q ∈ classes ts, ∀ m, StandsFor (xs.map (·.1)) q m → AskedWith job (xs.map (·.1)) m q.types q.nonExistent) ∧
      ∀ m, InScope job m → ∀ T b, AskedWith job (xs.map (·.1)) m T b →
        ∃ q ∈ classes ts, StandsFor (xs.map (·.1)) q m ∧ q.types = T ∧ q.nonExistent = b := by
  have hg : g' = labelGraph thr' xs := C23_generation_no_trace thr' xs _ _ _ _ hts
  subst hg
  have hcov := (S.tasks hts).2.2
  obtain ⟨N, ts', h1, _, h3⟩ := C29_single thr' xs (Driver.req job)
  have hEq : ts' = ts := by
    have := mono_agree (f := fun n => LGraph.generateECs n (labelGraph thr' xs) (Driver.req job)) (fun n r => generateECs_mono n _ _ r)
      (h1 N (Nat.le_refl _)) hts
    simpa using this
  subst hEq
  obtain ⟨i, ⟨k, h4⟩, h5, h6, h7⟩ := h3 S.domain
  change i = (stringToLabels job.domain).length → job.subdomains = false → ts' = [Task.ec (exactClass (stringToLabels job.domain) job.types)] at h6
  change i ≠ (stringToLabels job.domain).length →
    ts' = [Task.ec { name := (stringToLabels job.domain).take i, types := job.types, excluded := some [] }] at h7
  change Matches (xs.map (·.1)) (stringToLabels job.domain) k i at h4
  change ∀ k j, Matches (xs.map (·.1)) (stringToLabels job.domain) k j → j ≤ i at h5
  by_cases hc : Covering job (xs.map (·.1))
  · obtain ⟨hsub, kd, hkd⟩ := hc
    have hc : Covering job (xs.map (·.1)) := ⟨hsub, kd, hkd⟩
    have hj : OnExisting xs (Driver.req job) := ⟨S.domain, hsub, kd, hkd⟩
    obtain ⟨N2, ts2, h8, h9⟩ := C24_classes thr' xs S.regular (Driver.req job) hj
    have hEq : ts2 = ts' := by
      have := mono_agree (f := fun n => LGraph.generateECs n (labelGraph thr' xs) (Driver.req job)) (fun n r => generateECs_mono n _ _ r) (h8 N2 (Nat.le_refl _)) hts
      simpa using this
    subst hEq
    change ∀ q, q ∈ classes ts2 ↔ ∃ k0 n k b, Matches (xs.map (·.1)) (stringToLabels job.domain) k0 (stringToLabels job.domain).length ∧
        Visits (xs.map (·.1)) (stringToLabels job.domain) k0 n k b ∧ octets n < 253 ∧
        (b = false ∧ q = exactClass n job.types ∨ q = belowClass (Known (xs.map (·.1)) (k ++ [['*']])) n job.types) at h9
    constructor
    · intro q hq m hm
      obtain ⟨k0, n, k1, b, h10, h11, _, ⟨rfl, rfl⟩ | e⟩ := (h9 q).mp hq
      · have hm : m = n := hm
        subst hm
        obtain ⟨rest, e⟩ := visits_prefix h11
        rw [e] at h11 ⊢
        exact .known k1 (matches_of_visits h10 h11 (r := []) (by simp) (by simp))
      · have hex : q.excluded = some [] := by rw [e]; unfold belowClass; split <;> rfl
        have hqn : q.name = n := by rw [e]; exact belowClass_name _ _ _
        unfold StandsFor at hm
        rw [hex] at hm
        obtain ⟨l, rest, rfl, hno⟩ := hm
        rw [hqn] at hno ⊢
        obtain ⟨r0, e0⟩ := visits_prefix h11
        have h12 : Matches (xs.map (·.1)) (n ++ l :: rest) k1 n.length := by
          have := matches_of_visits h10 h11 (rest := r0 ++ l :: rest) (r := l :: rest) (by rw [e0]; simp) (by simp)
          rwa [← List.append_assoc, ← e0] at this
        have hL : Deepest (xs.map (·.1)) (n ++ l :: rest) n.length := by
          refine ⟨⟨_, h12⟩, fun k j hj => ?_⟩
          by_contra hlt
          exact hno (matches_shorter hj _ (by omega))
        have hlt : n.length < (n ++ l :: rest).length := by simp
        unfold belowClass at e
        split at e
        · rename_i hw; rw [e]; exact .wild _ k1 hL hlt h12 hw
        · rename_i hw; rw [e]; exact .nothing _ k1 hc hL hlt h12 hw
    · intro m hm T b ha
      have hm0 := hm
      unfold InScope at hm
      rw [hsub, if_pos rfl] at hm
      obtain ⟨⟨rest, rfl⟩, hoct⟩ := hm
      have hbelow : ∀ i k1, Deepest (xs.map (·.1)) (stringToLabels job.domain ++ rest) i → i < (stringToLabels job.domain ++ rest).length →
          Matches (xs.map (·.1)) (stringToLabels job.domain ++ rest) k1 i →
          belowClass (Known (xs.map (·.1)) (k1 ++ [['*']])) ((stringToLabels job.domain ++ rest).take i) job.types ∈ classes ts2 ∧
            StandsFor (xs.map (·.1)) (belowClass (Known (xs.map (·.1)) (k1 ++ [['*']])) ((stringToLabels job.domain ++ rest).take i) job.types)
              (stringToLabels job.domain ++ rest) := by
        intro i k1 hL hlt hM
        have hge : (stringToLabels job.domain).length ≤ i := hL.2 _ _ (matches_append rest hkd)
        obtain ⟨k0, b, h10, h11⟩ := (matches_inner hM).2.2 hge
        refine ⟨(h9 _).mpr ⟨k0, _, k1, b, h10, h11, ?_, .inr rfl⟩, ?_⟩
        · have := octets_prefix (⟨(stringToLabels job.domain ++ rest).drop i, (List.take_append_drop _ _).symm⟩ : AtOrBelow ((stringToLabels job.domain ++ rest).take i) (stringToLabels job.domain ++ rest))
          omega
        · have hex : (belowClass (Known (xs.map (·.1)) (k1 ++ [['*']])) ((stringToLabels job.domain ++ rest).take i) job.types).excluded = some [] := by
            unfold belowClass; split <;> rfl
          unfold StandsFor
          rw [hex, belowClass_name]
          obtain ⟨l, c, e⟩ : ∃ l c, (stringToLabels job.domain ++ rest).drop i = l :: c := by
            cases hd : (stringToLabels job.domain ++ rest).drop i with
            | nil => rw [List.drop_eq_nil_iff] at hd; omega
            | cons l c => exact ⟨l, c, rfl⟩
          refine ⟨l, c, by rw [← e, List.take_append_drop], ?_⟩
          rintro ⟨k', hk'⟩
          have := hL.2 _ _ hk'
          rw [List.length_take] at this
          omega
      cases ha with
      | single h => exact absurd hc h
      | known k1 hM =>
        obtain ⟨k0, b, h10, h11⟩ := (matches_inner hM).2.2 (by simp)
        rw [List.take_length] at h11
        obtain ⟨k', h12⟩ := visits_exact h11
        exact ⟨exactClass _ job.types, (h9 _).mpr ⟨k0, _, k', false, h10, h12, hoct, .inl ⟨rfl, rfl⟩⟩, rfl, rfl, rfl⟩
      | wild i k1 hL hlt hM hw =>
        obtain ⟨h10, h11⟩ := hbelow i k1 hL hlt hM
        refine ⟨_, h10, h11, ?_, ?_⟩ <;> unfold belowClass <;> rw [if_pos hw]
      | nothing i k1 _ hL hlt hM hw =>
        obtain ⟨h10, h11⟩ := hbelow i k1 hL hlt hM
        refine ⟨_, h10, h11, ?_, ?_⟩ <;> unfold belowClass <;> rw [if_neg hw]
  · have hts : ∀ q ∈ classes ts', q.types = job.types ∧ q.nonExistent = false := by
      by_cases hi : i = (stringToLabels job.domain).length
      · have hsub : job.subdomains = false := by
          cases hsub : job.subdomains with
          | false => rfl
          | true => exact absurd ⟨hsub, k, hi ▸ h4⟩ hc
        have := h6 hi hsub
        subst this
        intro q hq
        have : q = exactClass (stringToLabels job.domain) job.types := by simpa [Spec.classes] using hq
        rw [this]; exact ⟨rfl, rfl⟩
      · have := h7 hi
        subst this
        intro q hq
        have : q = { name := (stringToLabels job.domain).take i, types := job.types, excluded := some [] } := by simpa [Spec.classes] using hq
        rw [this]; exact ⟨rfl, rfl⟩
    constructor
    · intro q hq m _
      rw [(hts q hq).1, (hts q hq).2]; exact .single hc
    · intro m hm T b ha
      obtain ⟨q, hq, hst⟩ := hcov m hm
      refine ⟨q, hq, hst, ?_⟩
      rw [(hts q hq).1, (hts q hq).2]
      cases ha with
      | single => exact ⟨rfl, rfl⟩
      | known => exact ⟨rfl, rfl⟩
      | wild => exact ⟨rfl, rfl⟩
      | nothing _ _ h => exact absurd h hc

/-! ### Where resolutions end -/

/-- The question `b` in the resolution of a class and the corresponding question `c` in that of a member. -/
def LikeAsk (b c : Ask) : Prop := c = b ∨ b.below = true ∧ c.types = b.types ∧ ∃ l rest, c.name = b.name ++ l :: rest

theorem LikeAsk.types {b c : Ask} (h : LikeAsk b c) : b.types = c.types := by
  rcases h with rfl | ⟨_, h, _⟩
  · rfl
  · exact h.symm

theorem LikeAsk.called {b c : Ask} (h : LikeAsk b c) : CalledBy c (showAsk b) := by
  rcases h with rfl | ⟨h1, h2, l, rest, h3⟩
  · exact .inl rfl
  · refine .inr ⟨b.name, l, rest, h3, ?_⟩
    rw [h2, ← h1]

theorem likeAsk_member (b : Ask) (l : Label) (rest : Name) : LikeAsk b (b.member l rest) := by
  cases hb : b.below with
  | false => left; rw [member_exact hb]
  | true => right; rw [member_below hb]; exact ⟨hb, rfl, l, rest, rfl⟩

/-- The class and its members: where their resolutions end. -/
structure EndsAlike (w : World) (q : EC) (a : Ask) : Prop where
  down : ∀ x, Ending w (ask q) x → ∃ c, Ending w a ⟨x.server, c, x.said⟩ ∧ LikeAsk x.ask c
  up : ∀ x, Ending w a x → ∃ b, Ending w (ask q) ⟨x.server, b, x.said⟩ ∧ LikeAsk b x.ask

theorem Spec.Redirecting.asksOther (S : Redirecting ctx w xs job) {thr thr' fuel : Nat} {g' : LGraph} {ts : List Task} {vs : List Violation}
    (hrun : Driver.runSequential fuel thr ctx (labelGraph thr' xs) job = .ok (g', ts, vs)) {q : EC} (hq : q ∈ Spec.classes ts) : AsksOther q.types := by
  rcases (S.class_run hrun q hq).1 with e | e <;> rw [e]
  · exact S.types
  · exact all_other

theorem Spec.Redirecting.member (S : Redirecting ctx w xs job) {thr thr' fuel : Nat} {g' : LGraph} {ts : List Task} {vs : List Violation}
    (hrun : Driver.runSequential fuel thr ctx (labelGraph thr' xs) job = .ok (g', ts, vs)) {q : EC} (hq : q ∈ Spec.classes ts) {m : Name}
    (hm : StandsFor (xs.map (·.1)) q m) (hs : Fits w ⟨m, job.types, false⟩) :
    ∃ l rest, (ask q).member l rest = ⟨m, q.types, false⟩ ∧ Fresh w (ask q) l rest := by
  obtain ⟨l, rest, e, hf, _⟩ := member_of_standsFor S.wellFormed S.all S.flat hm (fits_retype S.types (S.asksOther hrun hq) hs)
  exact ⟨l, rest, e, hf⟩

theorem Spec.Redirecting.endsAlike (S : Redirecting ctx w xs job) {thr thr' fuel : Nat} {g' : LGraph} {ts : List Task} {vs : List Violation}
    (hrun : Driver.runSequential fuel thr ctx (labelGraph thr' xs) job = .ok (g', ts, vs)) {q : EC} (hq : q ∈ Spec.classes ts) {m : Name}
    (hm : StandsFor (xs.map (·.1)) q m) (hs : Fits w ⟨m, job.types, false⟩) : EndsAlike w q ⟨m, q.types, false⟩ := by
  obtain ⟨lb, rest, e, hf⟩ := S.member hrun hq hm hs
  refine ⟨?_, ?_⟩
  · intro x hx
    exact ⟨_, e ▸ ending_member hf hx, likeAsk_member _ _ _⟩
  · intro x hx
    obtain ⟨b, e', h⟩ := ending_of_member hf (e ▸ hx)
    exact ⟨b, h, e' ▸ likeAsk_member _ _ _⟩

/-- Questions for classes of names keep the types. -/
theorem below_types {w : World} {a0 : Ask} {s : Str} {a : Ask} (h : Reached w a0 s a) (hb : a.below = true) : a.types = a0.types ∧ a0.below = true := by
  have hr : ∀ {r : RR} {a a' : Ask}, Rewritten r a a' → a'.below = true → a'.types = a.types ∧ a.below = true := by
    intro r a a' h hb
    cases h with
    | cname _ _ _ h => rw [h] at hb; cases hb
    | dname _ _ _ _ h1 h2 => exact ⟨h1, by rw [← h2]; exact hb⟩
  induction h with
  | start => exact ⟨rfl, hb⟩
  | step s a s' a' sd _ hst ih =>
    cases hst with
    | top => exact ih hb
    | referral => exact ih hb
    | rewriteHere _ _ as x r _ _ h1 h2 h3 h4 h5 => obtain ⟨h6, h7⟩ := hr h5 hb; rw [h6]; exact ih h7
    | rewriteTop _ _ as x r _ _ _ h1 h2 h3 h4 h5 => obtain ⟨h6, h7⟩ := hr h5 hb; rw [h6]; exact ih h7
  | side s a s' a' b _ hst ih =>
    cases hst with
    | referral _ _ as x r _ _ _ _ _ _ _ h6 =>
      rcases h6 with ⟨_, h⟩ | ⟨_, h⟩
      · cases h
      · cases h; cases hb

/-- A resolution of a class, moved to one of its members and to the types of the job. -/
theorem putTo_member {w : World} {T : TypeSet} {q : EC} (hq : AsksOther q.types) (hT : AsksOther T) {m : Name} {lb : Label} {rest : Name}
    (e : (ask q).member lb rest = ⟨m, q.types, false⟩) (hf : Fresh w (ask q) lb rest) {s : Str} {a : Ask} (h : PutTo w (ask q) s a) :
    ∃ b, PutTo w ⟨m, T, false⟩ s b ∧ b.name = (a.member lb rest).name ∧ b.below = (a.member lb rest).below := by
  obtain ⟨p, sd, hr⟩ := h
  have h1 := C28_class_to_member w (ask q) lb rest hf _ hr
  rw [e] at h1
  obtain ⟨p', h2, h3⟩ := route_retype hq hT h1 (b := ⟨m, T, false⟩) ⟨rfl, rfl, .inl ⟨rfl, rfl⟩⟩
  obtain ⟨z, y, e1, e2, e3, e4⟩ := forall₂_last h3 (by simp)
  obtain ⟨pre, rfl⟩ := List.getLast?_eq_some_iff.mp e2
  obtain ⟨ys, ya, yd⟩ := y
  simp at e1
  subst e1
  dsimp only at e3 e4
  subst e3
  exact ⟨ya, ⟨pre, yd, h2⟩, e4.1.symm, e4.2.1.symm⟩

/-- A known name has a class of its own. -/
theorem Spec.Redirecting.alone (S : Redirecting ctx w xs job) {thr thr' fuel : Nat} {g' : LGraph} {ts : List Task} {vs : List Violation}
    (hrun : Driver.runSequential fuel thr ctx (labelGraph thr' xs) job = .ok (g', ts, vs)) {m : Name} (hm : InScope job m)
    (hk : Known (xs.map (·.1)) m) : ∃ q ∈ classes ts, ask q = ⟨m, job.types, false⟩ ∧ showQuery q = present m := by
  obtain ⟨q, hq, hst, ht, _⟩ := (S.asked (Redirecting.generated hrun)).2 m hm _ _ (.known m (matches_self hk))
  have hex : q.excluded = none := by
    unfold StandsFor at hst
    cases he : q.excluded with
    | none => rfl
    | some _ =>
      rw [he] at hst
      obtain ⟨l, rest, e, h⟩ := hst
      exfalso
      apply h
      refine matches_shorter (matches_self hk) _ ?_
      rw [e]; simp
  have hn : m = q.name := by unfold StandsFor at hst; rw [hex] at hst; exact hst
  refine ⟨q, hq, ?_, ?_⟩
  · unfold ask; rw [hex, ht, ← hn]; rfl
  · unfold showQuery; rw [hex, hn]

end Groot
