import Verif.Lemmas.Classes

/-! # Which tasks `subDomainECs` emits -/

namespace Groot
open Spec

/-- The tasks a node emits itself. -/
def localTask (g : LGraph) (types : TypeSet) (v : Nat) (n : Name) (b s : Bool) (q : Task) : Prop :=
  (s = true ∧ q = .structural v (labelsToString n)) ∨ (b = false ∧ q = .ec (exactClass n types)) ∨
  q = .ec (LGraph.lastEC ((g.vtx v).edges.any (isStar g)) n types)

def Open (L : Nat → Int) (v : Nat) (n : Name) : Prop := L v ≠ octets n ∧ octets n < kMaxDomainLength

/-- `q` is emitted by a walk from `(v, n)` avoiding the states on the stack. -/
inductive Emit (g : LGraph) (types : TypeSet) (L : Nat → Int) : Nat → Name → Bool → Bool → Task → Prop where
  | here (v n b s q) : Open L v n → localTask g types v n b s q → Emit g types L v n b s q
  | normal (v n b s q u) : Open L v n → (EdgeType.normal, u) ∈ (g.vtx v).edges →
      Emit g types L u (n ++ [(g.vtx u).label]) false s q → Emit g types L v n b s q
  | dname (v n b s q u) : Open L v n → (EdgeType.dname, u) ∈ (g.vtx v).edges →
      Emit g types L u n true false q → Emit g types L v n b s q

variable {g : LGraph} {types : TypeSet}

def StepEmit (g : LGraph) (types : TypeSet) (L : Nat → Int) (v : Nat) (n : Name) (b s : Bool) (q : Task) : Prop :=
  localTask g types v n b s q ∨
  (∃ u, (EdgeType.normal, u) ∈ (g.vtx v).edges ∧ Emit g types L u (n ++ [(g.vtx u).label]) false s q) ∨
  (∃ u, (EdgeType.dname, u) ∈ (g.vtx v).edges ∧ Emit g types L u n true false q)

theorem localTask.mono {v : Nat} {n : Name} {b s b' s' : Bool} {q : Task} (hb : b' = true → b = true) (hs : s = true → s' = true)
    (h : localTask g types v n b s q) : localTask g types v n b' s' q := by
  rcases h with ⟨h1, h2⟩ | ⟨h1, h2⟩ | h
  · exact Or.inl ⟨hs h1, h2⟩
  · right; left
    refine ⟨?_, h2⟩
    cases b'
    · rfl
    · rw [hb rfl] at h1; cases h1
  · exact Or.inr (Or.inr h)

theorem Emit.mono {L : Nat → Int} {v : Nat} {n : Name} {b s : Bool} {q : Task} (h : Emit g types L v n b s q) :
    ∀ {b' s' : Bool}, (b' = true → b = true) → (s = true → s' = true) → Emit g types L v n b' s' q := by
  induction h with
  | here v n b s q ho hl => intro b' s' hb hs; exact .here _ _ _ _ _ ho (hl.mono hb hs)
  | normal v n b s q u ho he _ ih => intro b' s' hb hs; exact .normal _ _ _ _ _ u ho he (ih (by simp) hs)
  | dname v n b s q u ho he h ih => intro b' s' hb hs; exact .dname _ _ _ _ _ u ho he h

theorem StepEmit.mono {L : Nat → Int} {v : Nat} {n : Name} {b s b' s' : Bool} {q : Task} (hb : b' = true → b = true)
    (hs : s = true → s' = true) (h : StepEmit g types L v n b s q) : StepEmit g types L v n b' s' q := by
  rcases h with h | ⟨u, h1, h2⟩ | h
  · exact Or.inl (h.mono hb hs)
  · exact Or.inr (Or.inl ⟨u, h1, h2.mono (by simp) hs⟩)
  · exact Or.inr (Or.inr h)

theorem Emit.open {L : Nat → Int} {v : Nat} {n : Name} {b s : Bool} {q : Task} (h : Emit g types L v n b s q) : Open L v n := by
  cases h with
  | here _ _ _ _ _ h => exact h
  | normal _ _ _ _ _ _ h => exact h
  | dname _ _ _ _ _ _ h => exact h

theorem emit_weaken {L : Nat → Int} {v : Nat} {n : Name} (hL : ∀ u, L u ≤ octets n) {a : Nat} {m : Name} {b s : Bool} {q : Task}
    (h : Emit g types (upd L v (octets n)) a m b s q) (hm : octets n ≤ octets m) : Emit g types L a m b s q := by
  have ho : ∀ (a : Nat) (m : Name), octets n ≤ octets m → Open (upd L v (octets n)) a m → Open L a m := by
    intro a m hm ⟨h1, h2⟩
    refine ⟨?_, h2⟩
    unfold upd at h1
    split at h1
    · have := hL a; omega
    · exact h1
  induction h with
  | here a m b s q h hl => exact .here _ _ _ _ _ (ho _ _ hm h) hl
  | normal a m b s q u h he _ ih => exact .normal _ _ _ _ _ u (ho _ _ hm h) he (ih (by rw [octets_snoc]; omega))
  | dname a m b s q u h he _ ih => exact .dname _ _ _ _ _ u (ho _ _ hm h) he (ih hm)

theorem emit_avoid {L : Nat → Int} {v : Nat} {n : Name} {b0 s0 : Bool}
    {a : Nat} {m : Name} {b s : Bool} {q : Task} (h : Emit g types L a m b s q) (hm : octets n ≤ octets m)
    (hext : octets m = octets n → m = n)
    (hflag : a = v ∧ m = n → (b0 = true → b = true) ∧ (s = true → s0 = true)) :
    Emit g types (upd L v (octets n)) a m b s q ∨ StepEmit g types (upd L v (octets n)) v n b0 s0 q := by
  have ho : ∀ (a : Nat) (m : Name), (octets m = octets n → m = n) → ¬ (a = v ∧ m = n) → Open L a m → Open (upd L v (octets n)) a m := by
    intro a m hext hne ⟨h1, h2⟩
    refine ⟨?_, h2⟩
    unfold upd
    split
    · rename_i h
      intro hc
      exact hne ⟨h, hext (by omega)⟩
    · exact h1
  induction h with
  | here a m b s q h hl =>
    by_cases hne : a = v ∧ m = n
    · right
      obtain ⟨rfl, rfl⟩ := hne
      exact Or.inl (hl.mono (hflag ⟨rfl, rfl⟩).1 (hflag ⟨rfl, rfl⟩).2)
    · exact Or.inl (.here _ _ _ _ _ (ho _ _ hext hne h) hl)
  | normal a m b s q u h he _ ih =>
    have := ih (by rw [octets_snoc]; omega) (by rw [octets_snoc]; omega) (by
      rintro ⟨_, hc⟩
      have := congrArg octets hc
      rw [octets_snoc] at this
      omega)
    rcases this with ih | ih
    · by_cases hne : a = v ∧ m = n
      · right
        obtain ⟨rfl, rfl⟩ := hne
        exact StepEmit.mono (hflag ⟨rfl, rfl⟩).1 (hflag ⟨rfl, rfl⟩).2 (Or.inr (Or.inl ⟨u, he, ih⟩))
      · exact Or.inl (.normal _ _ _ _ _ u (ho _ _ hext hne h) he ih)
    · exact Or.inr ih
  | dname a m b s q u h he _ ih =>
    have := ih hm hext (by intro _; exact ⟨fun _ => rfl, fun h => by cases h⟩)
    rcases this with ih | ih
    · by_cases hne : a = v ∧ m = n
      · right
        obtain ⟨rfl, rfl⟩ := hne
        exact Or.inr (Or.inr ⟨u, he, ih⟩)
      · exact Or.inl (.dname _ _ _ _ _ u (ho _ _ hext hne h) he ih)
    · exact Or.inr ih

theorem emit_iff {L : Nat → Int} {v : Nat} {n : Name} (hL : ∀ u, L u ≤ octets n) (ho : Open L v n) {b s : Bool} {q : Task} :
    Emit g types L v n b s q ↔ StepEmit g types (upd L v (octets n)) v n b s q := by
  constructor
  · intro h
    rcases emit_avoid (v := v) (n := n) (b0 := b) (s0 := s) h (le_refl _) (fun _ => rfl) (fun _ => ⟨id, id⟩) with h | h
    · exact absurd (by simp [upd]) h.open.1
    · exact h
  · rintro (h | ⟨u, he, h⟩ | ⟨u, he, h⟩)
    · exact .here _ _ _ _ _ ho h
    · exact .normal _ _ _ _ _ u ho he (emit_weaken hL h (by rw [octets_snoc]; omega))
    · exact .dname _ _ _ _ _ u ho he (emit_weaken hL h (le_refl _))

/-- Labels of nodes below the root are not a lone dot; the root has no DNAME. -/
structure Plain (g : LGraph) : Prop where
  kid : ∀ v u, (EdgeType.normal, u) ∈ (g.vtx v).edges → (g.vtx u).label ≠ ['.']
  root : ∀ u, (EdgeType.dname, u) ∉ (g.vtx 0).edges

theorem subDomainECs_exact {g0 : LGraph} {names : List Name} (hi : g0.Inv names) (hp : Plain g0) : ∀ (fuel : Nat) (g : LGraph) (v : Nat) (p n : Name) (skip s : Bool) (ts : List Task),
    Shape g0 g → v < g0.verts.length → LGraph.ecName (g.vtx v).label p skip = n → (skip = true → p = n) → octets p ≤ octets n →
    (n = [] → v = 0) → (∀ u, lens g u ≤ octets n) → (skip = false → lens g v ≠ octets n) →
    LGraph.subDomainECs types fuel g v p skip s = .ok (g, ts) →
    ∀ q, q ∈ ts ↔ Emit g0 types (lens g) v n skip s q := by
  intro fuel
  induction fuel with
  | zero => intro g v p n skip s ts _ _ _ _ _ _ _ _ h; rw [LGraph.subDomainECs] at h; cases h
  | succ fuel ih =>
    intro g v p n skip s ts hsh hv hn hpn hle hroot hL hfree h q
    have hv' : v < g.verts.length := by rw [hsh.len]; exact hv
    rcases subDomainECs_ok h hn with ⟨hc, rfl⟩ | ⟨h1, h2, out, h3, h4⟩
    · constructor
      · intro h; cases h
      · intro he
        exfalso
        obtain ⟨h1, h2⟩ := he.open
        rcases hc with hc | ⟨hc, hs⟩ | hc
        · omega
        · rw [hpn hs] at hc; exact h1 hc.symm
        · omega
    · have ho : Open (lens g) v n := by
        refine ⟨?_, h1⟩
        intro hc
        cases hs : skip with
        | false => exact hfree hs hc
        | true => exact h2 ⟨by rw [hpn hs]; exact hc.symm, hs⟩
      have hsh1 := hsh.setLen v (octets n)
      have hl1 := lens_setLen g (octets n) hv'
      have hL1 : ∀ u, lens (LGraph.setLen g v (octets n)) u ≤ octets n := by
        intro u; rw [hl1]; unfold upd; split
        · exact Int.le_refl _
        · exact hL u
      have hstar : (g.vtx v).edges.any (isStar g) = (g0.vtx v).edges.any (isStar g0) := by
        rw [hsh.edges]
        congr 1
        funext e
        unfold isStar
        rw [hsh.label]
      have hin : ∀ e ∈ (g0.vtx v).edges, e.2 < g0.verts.length :=
        fun e he => ((Shape.refl g0).inside hi hv he).1
      rw [emit_iff hL ho, h4, hstar]
      have hout : ∀ u, (EdgeType.normal, u) ∈ (g0.vtx v).edges → (q ∈ out (.normal, u) ↔
          Emit g0 types (upd (lens g) v (octets n)) u (n ++ [(g0.vtx u).label]) false s q) := by
        intro u hu
        have hcall := h3 (.normal, u) (by rw [hsh.edges]; exact hu)
        unfold edgeCall at hcall
        rw [if_pos rfl] at hcall
        have hlab : (g0.vtx u).label ≠ ['.'] := hp.kid v u hu
        rw [← hl1]
        refine ih _ u n (n ++ [(g0.vtx u).label]) false s _ hsh1 (hin _ hu) ?_ (by simp) (by rw [octets_snoc]; omega) (by simp)
          ?_ ?_ hcall q
        · rw [hsh1.label]
          unfold LGraph.ecName
          rw [if_neg hlab]
          split <;> simp
        · intro w
          rw [octets_snoc]
          have := hL1 w
          push_cast; omega
        · intro _
          rw [octets_snoc]
          have := hL1 u
          push_cast; omega
      have hout' : ∀ u, (EdgeType.dname, u) ∈ (g0.vtx v).edges → (q ∈ out (.dname, u) ↔
          Emit g0 types (upd (lens g) v (octets n)) u n true false q) := by
        intro u hu
        have hcall := h3 (.dname, u) (by rw [hsh.edges]; exact hu)
        unfold edgeCall at hcall
        rw [if_neg (by simp)] at hcall
        have hne : n ≠ [] := by
          intro hc
          rw [hroot hc] at hu
          exact hp.root u hu
        rw [← hl1]
        refine ih _ u n n true false _ hsh1 (hin _ hu) ?_ (by simp) (le_refl _) (fun hc => absurd hc hne) hL1 (by simp) hcall q
        unfold LGraph.ecName
        split
        · rfl
        · rw [if_neg (by simpa using hne)]; simp
      have hsplit : q ∈ (g.vtx v).edges.flatMap out ↔
          (∃ u, (EdgeType.normal, u) ∈ (g0.vtx v).edges ∧ Emit g0 types (upd (lens g) v (octets n)) u (n ++ [(g0.vtx u).label]) false s q) ∨
          (∃ u, (EdgeType.dname, u) ∈ (g0.vtx v).edges ∧ Emit g0 types (upd (lens g) v (octets n)) u n true false q) := by
        rw [hsh.edges, List.mem_flatMap]
        constructor
        · rintro ⟨⟨t, u⟩, he, hq⟩
          cases t with
          | normal => exact Or.inl ⟨u, he, (hout u he).mp hq⟩
          | dname => exact Or.inr ⟨u, he, (hout' u he).mp hq⟩
        · rintro (⟨u, he, hq⟩ | ⟨u, he, hq⟩)
          · exact ⟨_, he, (hout u he).mpr hq⟩
          · exact ⟨_, he, (hout' u he).mpr hq⟩
      unfold StepEmit localTask
      rw [← hsplit]
      simp only [List.mem_append, List.mem_singleton]
      constructor
      · rintro (((hq | hq) | hq) | hq)
        · left; left
          split at hq
          · rename_i hs; exact ⟨hs, List.mem_singleton.mp hq⟩
          · cases hq
        · exact Or.inr hq
        · left; right; left
          cases skip with
          | true => simp at hq
          | false => simp at hq; exact ⟨rfl, hq⟩
        · exact Or.inl (Or.inr (Or.inr hq))
      · rintro ((⟨hs, hq⟩ | ⟨hb, hq⟩ | hq) | hq)
        · left; left; left; rw [if_pos hs]; simp [hq]
        · left; right; rw [hb]; simp [hq]
        · exact Or.inr hq
        · exact Or.inl (Or.inl (Or.inr hq))

/-! ### From vertices to names -/

section
variable {names : List Name} {xs : List (RR × Nat × Nat)}

theorem lastEC_eq (w : Bool) (P : Prop) [Decidable P] (h : w = true ↔ P) (n : Name) (types : TypeSet) :
    LGraph.lastEC w n types = belowClass P n types := by
  unfold LGraph.lastEC belowClass
  by_cases hp : P
  · rw [if_pos (h.mpr hp), if_pos hp]
  · rw [if_neg (fun c => hp (h.mp c)), if_neg hp]

theorem LRep.star (h : LRep g names xs) {v : Nat} {k : Name} (hv : names[v]? = some k) :
    (g.vtx v).edges.any (isStar g) = true ↔ Known (xs.map (·.1)) (k ++ [['*']]) := by
  rw [← h.known, List.any_eq_true]
  unfold isStar
  constructor
  · rintro ⟨⟨t, u⟩, he, hs⟩
    simp only [Bool.and_eq_true, decide_eq_true_eq, beq_iff_eq] at hs
    obtain ⟨rfl, hl⟩ := hs
    exact List.mem_of_getElem? ((h.inv.child_iff hv ['*'] u).mp ⟨he, hl⟩)
  · intro hm
    obtain ⟨u, hu⟩ := List.mem_iff_getElem?.mp hm
    obtain ⟨he, hl⟩ := (h.inv.child_iff hv ['*'] u).mpr hu
    exact ⟨_, he, by simp [hl]⟩

theorem LRep.lastEC (h : LRep g names xs) {v : Nat} {k : Name} (hv : names[v]? = some k) (n : Name) :
    LGraph.lastEC ((g.vtx v).edges.any (isStar g)) n types = belowClass (Known (xs.map (·.1)) (k ++ [['*']])) n types :=
  lastEC_eq _ _ (h.star hv) n types

theorem LRep.plain (h : LRep g names xs) (hr : Regular (xs.map (·.1))) : Plain g where
  kid := by
    intro v u he hc
    rcases Nat.lt_or_ge v names.length with hv | hv
    · obtain ⟨h1, _⟩ := h.inv.edge v u _ (List.getElem?_eq_getElem hv) he
      exact hr.1 _ ((h.known _).mp (List.mem_of_getElem? h1)) (by rw [hc]; simp)
    · rw [Trie.vtx_of_ge g (by rw [← h.inv.len]; exact hv)] at he; cases he
  root := by
    intro u hu
    obtain ⟨t, _, ht⟩ := (h.dn 0 u [] h.inv.root).mp hu
    exact hr.2 t ht

theorem visits_known {rs : List RR} {n0 k0 n k : Name} {b : Bool} (h0 : Known rs k0) (h : Visits rs n0 k0 n k b) : Known rs k := by
  cases h with
  | start => exact h0
  | down _ _ _ _ _ h => exact h
  | redirect _ _ _ _ _ h => exact (alias_known h).2

theorem visits_prefix {rs : List RR} {n0 k0 n k : Name} {b : Bool} (h : Visits rs n0 k0 n k b) : AtOrBelow n0 n := by
  induction h with
  | start => exact ⟨[], by simp⟩
  | down n k b l _ _ ih => obtain ⟨r, hr⟩ := ih; exact ⟨r ++ [l], by rw [hr]; simp⟩
  | redirect n k b t _ _ ih => exact ih

theorem visits_trans {rs : List RR} {n0 k0 n k n' k' : Name} {b b' : Bool} (h : Visits rs n0 k0 n k b) (hne : b = false)
    (h' : Visits rs n k n' k' b') : Visits rs n0 k0 n' k' b' := by
  induction h' with
  | start => rw [← hne]; exact h
  | down n' k' b l _ hk ih => exact .down _ _ _ _ ih hk
  | redirect n' k' b t _ ha ih => exact .redirect _ _ _ _ ih ha

/-- The tasks of a subdomain job started at the node of `k0` for the name `n0`. -/
def TaskOf (rs : List RR) (g : LGraph) (types : TypeSet) (s : Bool) (n0 k0 : Name) (q : Task) : Prop :=
  (∃ n k b, Visits rs n0 k0 n k b ∧ octets n < kMaxDomainLength ∧
    (b = false ∧ q = .ec (exactClass n types) ∨ q = .ec (belowClass (Known rs (k ++ [['*']])) n types))) ∨
  (s = true ∧ ∃ rest w, Known rs (k0 ++ rest) ∧ octets (n0 ++ rest) < kMaxDomainLength ∧ nodeOf g (k0 ++ rest) = some w ∧
    q = .structural w (labelsToString (n0 ++ rest)))

theorem LRep.emit_iff_taskOf (h : LRep g names xs) {v0 : Nat} {n0 k0 : Name} (hv0 : names[v0]? = some k0) (s0 : Bool) (q : Task) :
    Emit g types (fun _ => -1) v0 n0 false s0 q ↔ TaskOf (xs.map (·.1)) g types s0 n0 k0 q := by
  have hopen : ∀ (v : Nat) (n : Name), octets n < kMaxDomainLength → Open (fun _ => -1) v n := by
    intro v n hn; exact ⟨by simp, hn⟩
  constructor
  · intro he0
    have key : ∀ (v : Nat) (n : Name) (b s : Bool) (q : Task), Emit g types (fun _ => -1) v n b s q → ∀ k, names[v]? = some k →
        Visits (xs.map (·.1)) n0 k0 n k b → (s = true → s0 = true ∧ ∃ rest, k = k0 ++ rest ∧ n = n0 ++ rest) →
        TaskOf (xs.map (·.1)) g types s0 n0 k0 q := by
      intro v n b s q he
      generalize hL : (fun _ : Nat => (-1 : Int)) = L at he
      induction he with
      | here v n b s q ho hl =>
        intro k hv hvis hs
        rcases hl with ⟨h1, h2⟩ | ⟨h1, h2⟩ | h1
        · right
          obtain ⟨h3, rest, rfl, rfl⟩ := hs h1
          exact ⟨h3, rest, v, (h.known _).mp (List.mem_of_getElem? hv), ho.2, (nodeOf_iff h.inv _ _).mpr hv, h2⟩
        · exact Or.inl ⟨n, k, b, hvis, ho.2, Or.inl ⟨h1, h2⟩⟩
        · exact Or.inl ⟨n, k, b, hvis, ho.2, Or.inr (by rw [h1, h.lastEC hv])⟩
      | normal v n b s q u ho he _ ih =>
        intro k hv hvis hs
        obtain ⟨hu, _⟩ := h.inv.edge v u k hv he
        refine ih _ hu (.down n k b _ hvis ((h.known _).mp (List.mem_of_getElem? hu))) ?_
        intro hs'
        obtain ⟨h3, rest, rfl, rfl⟩ := hs hs'
        exact ⟨h3, rest ++ [(g.vtx u).label], by simp, by simp⟩
      | dname v n b s q u ho he _ ih =>
        intro k hv hvis hs
        obtain ⟨t, ht, ha⟩ := (h.dn v u k hv).mp he
        exact ih t ht (.redirect n k b t hvis ha) (by simp)
    exact key v0 n0 false s0 q he0 k0 hv0 .start (fun hs => ⟨hs, [], by simp, by simp⟩)
  · have back : ∀ n k b, Visits (xs.map (·.1)) n0 k0 n k b → ∀ v : Nat, names[v]? = some k → ∀ q, octets n < kMaxDomainLength →
        Emit g types (fun _ => -1) v n b false q → Emit g types (fun _ => -1) v0 n0 false false q := by
      intro n k b hvis
      induction hvis with
      | start =>
        intro v hv q _ he
        rw [Trie.name_inj h.inv.nodup hv hv0] at he
        exact he
      | down n k b l _ hk ih =>
        intro v hv q ho he
        obtain ⟨w, hw, hwe⟩ := h.inv.parent v k l hv
        have hl := ((h.inv.child_iff hw l v).mpr hv).2
        have ho' : octets n < kMaxDomainLength := by rw [octets_snoc] at ho; omega
        refine ih w hw q ho' (.normal w n b false q v (hopen _ _ ho') hwe ?_)
        rw [hl]; exact he
      | redirect n k b t _ ha ih =>
        intro v hv q ho he
        obtain ⟨w, hw⟩ := h.node (alias_known ha).1
        exact ih w hw q ho (.dname w n b false q v (hopen _ _ ho) ((h.dn w v k hw).mpr ⟨t, hv, ha⟩) he)
    have hk0 : Known (xs.map (·.1)) k0 := (h.known _).mp (List.mem_of_getElem? hv0)
    rintro (⟨n, k, b, hvis, ho, hq⟩ | ⟨hs, rest, w, hk, ho, hw, hq⟩)
    · obtain ⟨v, hv⟩ := h.node (visits_known hk0 hvis)
      refine (back n k b hvis v hv q ho (.here v n b false q (hopen _ _ ho) ?_)).mono (by simp) (by simp)
      rcases hq with hq | hq
      · exact Or.inr (Or.inl hq)
      · exact Or.inr (Or.inr (by rw [hq, h.lastEC hv]))
    · rw [nodeOf_iff h.inv] at hw
      have : ∀ (rest : Name) (w : Nat) b, names[w]? = some (k0 ++ rest) → octets (n0 ++ rest) < kMaxDomainLength →
          (rest = [] → b = false) → Emit g types (fun _ => -1) w (n0 ++ rest) b true q → Emit g types (fun _ => -1) v0 n0 false true q := by
        intro rest
        induction rest using List.reverseRecOn with
        | nil =>
          intro w b hw _ hb he
          rw [List.append_nil] at hw he
          rw [Trie.name_inj h.inv.nodup hw hv0, hb rfl] at he
          exact he
        | append_singleton rest l ih =>
          intro w b hw ho _ he
          rw [← List.append_assoc] at hw he ho
          obtain ⟨v, hv, hve⟩ := h.inv.parent w _ l hw
          have hl := ((h.inv.child_iff hv l w).mpr hw).2
          have ho' : octets (n0 ++ rest) < kMaxDomainLength := by rw [octets_snoc] at ho; omega
          refine ih v false hv ho' (fun _ => rfl) (.normal v _ false true q w (hopen _ _ ho') hve ?_)
          rw [hl]; exact he.mono (by simp) id
      rw [hs]
      exact this rest w false hw ho (fun _ => rfl) (.here _ _ _ _ _ (hopen _ _ ho) (Or.inl ⟨rfl, hq⟩))

end

end Groot
