import Verif.Lemmas.Resolve

/-! # The questions reached during a resolution: finitely many, all well-formed -/

namespace Groot

open Spec

theorem Spec.Says.inner {w : World} {s : Str} {a : Ask} {as : List Answer} (h : Says w s a as) {x : Answer}
    (hx : x ∈ as) (ht : x.tag = .REWRITE ∨ x.tag = .REF) :
    Short a.name ∧ ∃ id, Best w s a.name id ∧ Reply (w.log id) a.ec as := by
  cases h with
  | tooLong h1 => simp at hx; subst hx; simp at ht
  | zone id _ h1 h2 h3 => exact ⟨h1, id, h2, h3⟩
  | refused h1 h2 h3 => simp at hx; subst hx; simp at ht
  | unknown h1 h2 => simp at hx; subst hx; simp at ht

theorem Spec.Says.rewrite {w : World} {s : Str} {a : Ask} {as : List Answer} (h : Says w s a as) {x : Answer}
    (hx : x ∈ as) (ht : x.tag = .REWRITE) {r : RR} (hr : r ∈ x.rrs) :
    Short a.name ∧ (∃ id, Best w s a.name id ∧ r ∈ w.log id) ∧ x.rrs = [r] ∧ as = [x] ∧
    (r.type = .CNAME ∧ ¬ (∀ t, Member a.types t ↔ t = .CNAME) ∨ r.type = .DNAME ∧ AtOrBelow r.name a.name) := by
  obtain ⟨h1, id, h2, h3⟩ := h.inner hx (Or.inl ht)
  obtain ⟨r', e1, e2, e3⟩ := h3.rewrite hx ht
  rw [e2] at hr; simp at hr; subst hr
  exact ⟨h1, ⟨id, h2, h3.mem hx (by rw [e2]; simp)⟩, e2, e1, e3⟩

theorem Spec.Says.ref {w : World} {s : Str} {a : Ask} {as : List Answer} (h : Says w s a as) {x : Answer}
    (hx : x ∈ as) (ht : x.tag = .REF) :
    Short a.name ∧ ∃ id e, Best w s a.name id ∧ x.rrs = withGlue (w.log id) (nsAt (w.log id) e) ∧
      nsAt (w.log id) e ≠ [] ∧ as = [x] := by
  obtain ⟨h1, id, h2, h3⟩ := h.inner hx (Or.inr ht)
  obtain ⟨e, e1, e2, e3⟩ := h3.ref hx ht
  exact ⟨h1, id, e, h2, e2, e3, e1⟩

/-- A server with a zone for the name gives one answer only. -/
theorem Spec.Says.unique {w : World} {s : Str} {a : Ask} {as as' : List Answer} {id : Nat} (hs : Short a.name)
    (hb : Best w s a.name id) (h : Says w s a as) (h' : Reply (w.log id) a.ec as') : as = as' := by
  cases h with
  | tooLong h1 => exact absurd hs h1
  | zone id' _ h1 h2 h3 =>
    obtain rfl := best_unique hb h2
    exact reply_unique (exclusive_log w id) h3 h'
  | refused h1 h2 h3 => exact absurd hb.encloses h2
  | unknown h1 h2 => exact absurd hb.encloses.listed h2

theorem withGlue_ns {log : List RR} {e : Name} {r : RR} (h : r ∈ withGlue log (nsAt log e)) (ht : r.type = .NS) :
    r ∈ nsAt log e := by
  rcases mem_withGlue.mp h with h | ⟨_, _, _, _, h | h⟩
  · exact h
  · rw [ht] at h; cases h
  · rw [ht] at h; cases h

/-- Glue in a referral is the glue stored in the zone. -/
theorem hasGlue_iff {log : List RR} {e : Name} {r : RR} (h : r ∈ nsAt log e) {x : Answer}
    (hx : x.rrs = withGlue log (nsAt log e)) : HasGlue x r ↔ glueFor log r ≠ [] := by
  unfold HasGlue
  rw [hx, ne_eq, List.eq_nil_iff_forall_not_mem]
  unfold glueFor
  simp only [List.mem_filter, decide_eq_true_eq, not_forall, not_not]
  constructor
  · rintro ⟨y, hy, hn, ht⟩
    rcases mem_withGlue.mp hy with h | ⟨_, _, h, _⟩
    · exact ⟨y, (nsAt_sub h).1, hn, ht⟩
    · exact ⟨y, h, hn, ht⟩
  · rintro ⟨y, hy, hn, ht⟩
    exact ⟨y, mem_withGlue.mpr (Or.inr ⟨r, h, hy, hn, ht⟩), hn, ht⟩

/-! ### The universe of questions -/

/-- All records of all zones that some server hosts. -/
def Spec.World.allRecords (w : World) : List RR :=
  (w.zones.map (·.1)).flatMap (fun id => w.log id)

theorem lookup_mem {α β : Type} [BEq α] [LawfulBEq α] {l : List (α × β)} {k : α} (h : l.lookup k ≠ none) :
    k ∈ l.map (·.1) := by
  induction l with
  | nil => simp at h
  | cons p l ih =>
    obtain ⟨i, b⟩ := p
    rw [List.lookup_cons] at h
    by_cases hk : k = i
    · simp [hk]
    · have : (k == i) = false := by simpa using hk
      rw [this] at h
      have := ih h
      simp only [List.map_cons, List.mem_cons]; exact Or.inr this

theorem mem_allRecords {w : World} {id : Nat} {r : RR} (h : r ∈ w.log id) : r ∈ w.allRecords := by
  unfold World.allRecords
  rw [List.mem_flatMap]
  refine ⟨id, lookup_mem ?_, h⟩
  intro hn
  simp [World.log, hn, stored] at h

/-- The servers that can be asked. -/
def Spec.World.serverList (w : World) : List Str := [] :: (w.top ++ w.allRecords.map (·.rdata))

/-- The labels that can occur. -/
def Spec.World.labels (w : World) (a0 : Ask) : List Label :=
  a0.name ++ w.allRecords.flatMap (fun r => stringToLabels r.rdata)

/-- The length of the longest record target. -/
def Spec.World.targetBound (w : World) : Nat := (w.allRecords.map (fun r => (stringToLabels r.rdata).length)).sum

theorem le_targetBound {w : World} {r : RR} (h : r ∈ w.allRecords) :
    (stringToLabels r.rdata).length ≤ w.targetBound := by
  unfold World.targetBound
  have key : ∀ (l : List Nat) (x : Nat), x ∈ l → x ≤ l.sum := by
    intro l
    induction l with
    | nil => simp
    | cons y l ih =>
      intro x hx
      rw [List.sum_cons]
      rcases List.mem_cons.mp hx with rfl | hx
      · omega
      · have := ih x hx; omega
  exact key _ _ (List.mem_map.mpr ⟨r, h, rfl⟩)

theorem present_sum (n : Name) : (n.map (fun l => l.length + 1)).sum ≤ (present n).length := by
  by_cases h : n = []
  · subst h; simp
  · rw [present_length n h]

theorem Spec.Short.length_le {n : Name} (h : Short n) : n.length ≤ 253 := by
  have h1 : n.length ≤ (n.map (fun l => l.length + 1)).sum := by
    clear h
    induction n with
    | nil => simp
    | cons l n ih => simp only [List.length_cons, List.map_cons, List.sum_cons]; omega
  have := present_sum n
  have := h.2
  omega

theorem Rewritten_labels {w : World} {a0 a a' : Ask} {r : RR} {id : Nat} (hr : r ∈ w.log id) (h : Rewritten r a a')
    (ha : ∀ l ∈ a.name, l ∈ w.labels a0) : ∀ l ∈ a'.name, l ∈ w.labels a0 := by
  have ht : ∀ l ∈ stringToLabels r.rdata, l ∈ w.labels a0 := by
    intro l hl
    unfold World.labels
    rw [List.mem_append, List.mem_flatMap]
    exact Or.inr ⟨r, mem_allRecords hr, hl⟩
  cases h with
  | cname _ h2 _ _ => rw [h2]; exact ht
  | dname rest _ h2 h3 _ _ =>
    rw [h3]
    intro l hl
    rcases List.mem_append.mp hl with hl | hl
    · exact ht l hl
    · exact ha l (by rw [h2]; exact List.mem_append.mpr (Or.inr hl))

theorem Rewritten_length {w : World} {a a' : Ask} {r : RR} {id : Nat} (hr : r ∈ w.log id) (h : Rewritten r a a')
    (ha : Short a.name) : a'.name.length ≤ w.targetBound + 253 := by
  have ht := le_targetBound (mem_allRecords hr)
  have hl := ha.length_le
  cases h with
  | cname _ h2 _ _ => rw [h2]; omega
  | dname rest _ h2 h3 _ _ =>
    rw [h3]; rw [h2] at hl
    simp only [List.length_append] at hl ⊢
    omega

theorem Spec.Rewritten.types_ne {a a' : Ask} {r : RR} (h : Rewritten r a a') (ht : a.types ≠ 0)
    (hc : r.type = .CNAME → ¬ (∀ t, Member a.types t ↔ t = .CNAME)) : a'.types ≠ 0 := by
  cases h with
  | cname h1 _ h3 _ =>
    intro h0
    have z : ∀ t, ¬ Member (0 : TypeSet) t := by intro t h; simp [Member] at h
    rw [h0] at h3
    have h4 : ∀ t, Member a.types t → t = .CNAME := by
      intro t ht
      by_contra hne
      exact z t ((h3 t).mpr ⟨ht, hne⟩)
    apply hc h1
    intro t
    refine ⟨h4 t, ?_⟩
    rintro rfl
    by_contra hn
    apply ht
    apply typeSet_ext
    intro t
    rw [Bool.eq_iff_iff, has_iff, has_iff]
    refine ⟨fun h => ?_, fun h => absurd h (z t)⟩
    exact absurd ((h4 t h) ▸ h) hn
  | dname rest _ h2 h3 h4 _ => rw [h4]; exact ht

/-- The facts about reached questions. -/
structure Fine (w : World) (a0 : Ask) (s : Str) (a : Ask) : Prop where
  server : s ∈ w.serverList
  labels : ∀ l ∈ a.name, l ∈ w.labels a0
  length : a.name.length ≤ w.targetBound + 253
  dummy : s = [] → Short a.name
  types : a0.types ≠ 0 → a.types ≠ 0

theorem addressAsk_types (s : Str) : (addressAsk s).types ≠ 0 := by
  intro h
  have : (addressAsk s).types.has .A = true := by simp [addressAsk]
  rw [h] at this
  exact absurd this (by decide)

theorem Spec.Reached.fine {w : World} (hw : WellFormed w) {a0 : Ask} (h0 : Short a0.name) {s : Str} {a : Ask}
    (h : Reached w a0 s a) : Fine w a0 s a := by
  induction h with
  | start =>
    exact ⟨by simp [World.serverList], fun l hl => by simp [World.labels, hl], by have := h0.length_le; omega,
      fun _ => h0, id⟩
  | step s a s' a' side hr hs ih =>
    cases hs with
    | top _ _ ht =>
      refine ⟨by simp [World.serverList, ht], ih.labels, ih.length, ?_, ih.types⟩
      intro hn; exact absurd hn (hw.top _ ht)
    | rewriteHere _ _ as x r _ hs hsay hx ht hr' hrw hsh =>
      obtain ⟨h1, ⟨id, hb, hm⟩, h2, h3, h4⟩ := hsay.rewrite hx ht hr'
      refine ⟨ih.server, Rewritten_labels hm hrw ih.labels, Rewritten_length hm hrw h1, fun hn => absurd hn hs, ?_⟩
      intro ht0
      refine hrw.types_ne (ih.types ht0) ?_
      intro hc
      rcases h4 with ⟨_, h4⟩ | ⟨h4, _⟩
      · exact h4
      · rw [hc] at h4; cases h4
    | rewriteTop _ _ as x r _ _ hs hsay hx ht hr' hrw hsh hne ht' =>
      obtain ⟨h1, ⟨id, hb, hm⟩, h2, h3, h4⟩ := hsay.rewrite hx ht hr'
      refine ⟨by simp [World.serverList, ht'], Rewritten_labels hm hrw ih.labels, Rewritten_length hm hrw h1,
        fun hn => hsh, ?_⟩
      intro ht0
      refine hrw.types_ne (ih.types ht0) ?_
      intro hc
      rcases h4 with ⟨_, h4⟩ | ⟨h4, _⟩
      · exact h4
      · rw [hc] at h4; cases h4
    | referral _ _ as x r _ hs hsay hx ht hr' hty hsd =>
      obtain ⟨h1, id, e, hb, h2, h3, h4⟩ := hsay.ref hx ht
      rw [h2] at hr'
      have hm := (nsAt_sub (withGlue_ns hr' hty)).1
      refine ⟨?_, ih.labels, ih.length, fun _ => h1, ih.types⟩
      unfold World.serverList
      simp only [List.mem_cons, List.mem_append, List.mem_map]
      exact Or.inr (Or.inr ⟨r, mem_allRecords hm, rfl⟩)
  | side s a s' a' b hr hs ih =>
    generalize hsd : some b = sd at hs
    cases hs with
    | top _ _ ht => cases hsd
    | rewriteHere _ _ as x r _ hs hsay hx ht hr' hrw hsh => cases hsd
    | rewriteTop _ _ as x r _ _ hs hsay hx ht hr' hrw hsh hne ht' => cases hsd
    | referral _ _ as x r _ hs hsay hx ht hr' hty hside =>
      obtain ⟨h1, id, e, hb, h2, h3, h4⟩ := hsay.ref hx ht
      rw [h2] at hr'
      have hm := (nsAt_sub (withGlue_ns hr' hty)).1
      subst hsd
      have hb' : b = addressAsk r.rdata := by
        rcases hside with ⟨_, h⟩ | ⟨_, h⟩
        · cases h
        · simpa using h
      subst hb'
      have hsh := (hw.ns id r hm hty).2
      refine ⟨by simp [World.serverList], ?_, ?_, fun _ => hsh, fun _ => addressAsk_types _⟩
      · intro l hl
        unfold World.labels
        rw [List.mem_append, List.mem_flatMap]
        exact Or.inr ⟨r, mem_allRecords hm, hl⟩
      · have := hsh.length_le
        show (stringToLabels r.rdata).length ≤ _
        omega

/-- All names of at most `k` labels out of `L`. -/
def namesOver (L : List Label) : Nat → List Name
  | 0 => [[]]
  | k + 1 => [] :: (namesOver L k).flatMap (fun n => L.map (fun l => l :: n))

theorem mem_namesOver (L : List Label) : ∀ (k : Nat) (n : Name), (∀ l ∈ n, l ∈ L) → n.length ≤ k → n ∈ namesOver L k := by
  intro k
  induction k with
  | zero =>
    intro n _ hl
    have : n = [] := List.length_eq_zero_iff.mp (by omega)
    simp [this, namesOver]
  | succ k ih =>
    intro n hn hl
    cases n with
    | nil => simp [namesOver]
    | cons l n =>
      simp only [namesOver, List.mem_cons, List.mem_flatMap, List.mem_map]
      exact Or.inr ⟨n, ih n (fun x hx => hn x (by simp [hx])) (by simpa using hl), l, hn l (by simp), rfl⟩

/-- A finite list containing every question that can be reached, with its server. -/
def allAsks (w : World) (a0 : Ask) : List (Str × Ask) :=
  w.serverList.flatMap (fun s =>
    (namesOver (w.labels a0) (w.targetBound + 253)).flatMap (fun n =>
      ((List.range (2 ^ 13)).map (BitVec.ofNat 13)).flatMap (fun t => [(s, ⟨n, t, false⟩), (s, ⟨n, t, true⟩)])))

theorem Spec.Reached.mem_universe {w : World} (hw : WellFormed w) {a0 : Ask} (h0 : Short a0.name) {s : Str} {a : Ask}
    (h : Reached w a0 s a) : (s, a) ∈ allAsks w a0 := by
  have f := h.fine hw h0
  unfold allAsks
  rw [List.mem_flatMap]
  refine ⟨s, f.server, ?_⟩
  rw [List.mem_flatMap]
  refine ⟨a.name, mem_namesOver _ _ _ f.labels f.length, ?_⟩
  rw [List.mem_flatMap]
  refine ⟨a.types, ?_, ?_⟩
  · rw [List.mem_map]
    exact ⟨a.types.toNat, List.mem_range.mpr a.types.isLt, by simp⟩
  · cases a with
    | mk n t b => cases b <;> simp

end Groot
