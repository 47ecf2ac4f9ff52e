import Verif.Lemmas.CleanRun
import Mathlib.Tactic.SplitIfs

/-!
# The characters of names, records, zones and graphs
-/

namespace Groot

open Spec

/-- A kind of text: closed under appending, and under cutting at ASCII characters. -/
structure TextLike (K : Str → Prop) : Prop where
  ascii : ∀ s, Ascii s → K s
  append : ∀ a b, K a → K b → K (a ++ b)
  split : ∀ a c b, c.toNat < 128 → K (a ++ c :: b) → K a ∧ K b
  lower : ∀ s, K s → K (toLower s)

/-- The string is of the kind `K`. -/
def Has (K : Str → Prop) (s : Str) : Prop := K s

/-- All labels are of the kind `K`. -/
def NameHas (K : Str → Prop) (n : Name) : Prop := ∀ l ∈ n, Has K l

/-- Owner and data of a record. -/
def RRHas (K : Str → Prop) (r : RR) : Prop := NameHas K r.name ∧ Has K r.rdata

section

variable {K : Str → Prop}

theorem has_nil (hk : TextLike K) : Has K [] := hk.ascii [] (fun _ h => nomatch h)

theorem has_append (hk : TextLike K) {a b : Str} (ha : Has K a) (hb : Has K b) : Has K (a ++ b) := hk.append a b ha hb

theorem has_ascii (hk : TextLike K) {s : Str} (h : s.all (fun c => c.toNat < 128) = true) : Has K s :=
  hk.ascii s (fun c hc => by simpa using List.all_eq_true.mp h c hc)

theorem has_dot (hk : TextLike K) : Has K ['.'] := has_ascii hk (by decide)

theorem has_one (hk : TextLike K) {c : Char} (hc : c.toNat < 128) : Has K [c] := hk.ascii [c] (fun d hd => by rw [List.mem_singleton.mp hd]; exact hc)

/-- A cut beside an ASCII character. -/
theorem has_cut (hk : TextLike K) {a b : Str} (h : Has K (a ++ b))
    (hc : (∃ c t, a = t ++ [c] ∧ c.toNat < 128) ∨ (∃ c t, b = c :: t ∧ c.toNat < 128) ∨ a = [] ∨ b = []) : Has K a ∧ Has K b := by
  rcases hc with ⟨c, t, rfl, hc⟩ | ⟨c, t, rfl, hc⟩ | rfl | rfl
  · rw [List.append_assoc] at h
    obtain ⟨h1, h2⟩ := hk.split t c b hc h
    exact ⟨hk.append _ _ h1 (has_one hk hc), h2⟩
  · obtain ⟨h1, h2⟩ := hk.split a c t hc h
    exact ⟨h1, hk.append _ _ (has_one hk hc) h2⟩
  · exact ⟨has_nil hk, h⟩
  · rw [List.append_nil] at h
    exact ⟨h, has_nil hk⟩

theorem toLower_has (hk : TextLike K) {s : Str} (hs : Has K s) : Has K (toLower s) := hk.lower s hs

theorem scan_has (hk : TextLike K) : ∀ (s : Str) (st : List Str × Str), NameHas K st.1 → Has K (st.2 ++ s) →
    NameHas K (s.foldl scanStep st).1
  | [], _, h1, _ => h1
  | c :: s, st, h1, h2 => by
    have h2' : Has K (st.2 ++ [c] ++ s) := by simpa using h2
    rw [List.foldl_cons]
    unfold scanStep
    split_ifs with hc
    · exact scan_has hk s _ h1 h2'
    · obtain ⟨e1, e2⟩ := hk.split st.2 c s (by rw [hc.1]; decide) h2
      refine scan_has hk s _ ?_ e2
      intro l hl
      rcases List.mem_append.mp hl with h | h
      · exact h1 l h
      · rw [List.mem_singleton.mp h]; exact e1
    · exact scan_has hk s _ h1 h2'

theorem stringToLabels_has (hk : TextLike K) {s : Str} (hs : Has K s) : NameHas K (stringToLabels s) := by
  unfold stringToLabels
  split_ifs
  · exact fun _ h => nomatch h
  · exact fun l hl => scan_has hk (s ++ ['.']) ([], []) (fun _ h => nomatch h) (show Has K (s ++ ['.']) from has_append hk hs (has_dot hk)) l (List.mem_reverse.mp hl)
  · exact fun l hl => scan_has hk s ([], []) (fun _ h => nomatch h) hs l (List.mem_reverse.mp hl)

theorem labelsToString_has (hk : TextLike K) {n : Name} (hn : NameHas K n) : Has K (labelsToString n) := by
  unfold labelsToString
  split_ifs
  · exact has_dot hk
  · have : ∀ (n : Name) (acc : Str), NameHas K n → Has K acc → Has K (n.foldl (fun domain l => l ++ ['.'] ++ domain) acc) := by
      intro n
      induction n with
      | nil => intro acc _ h; exact h
      | cons l n ih =>
        intro acc hn ha
        exact ih _ (fun x hx => hn x (by simp [hx])) (has_append hk (has_append hk (hn l (by simp)) (has_dot hk)) ha)
    exact this n [] hn (has_nil hk)

theorem labelListToString_has (hk : TextLike K) {ds : List Name} (h : ∀ d ∈ ds, NameHas K d) : ∀ s, labelListToString ds = .ok s → Has K s := by
  have this : ∀ (ds : List Name) (acc : Str), (∀ d ∈ ds, NameHas K d) → Has K acc → (acc = ['['] ∨ ∃ t, acc = t ++ [',', ' '] ∧ Has K t) →
      ds.foldl (fun (acc : Str) d => acc ++ labelsToString d ++ [',', ' ']) acc = ['['] ∨
      ∃ t, ds.foldl (fun (acc : Str) d => acc ++ labelsToString d ++ [',', ' ']) acc = t ++ [',', ' '] ∧ Has K t := by
    intro ds
    induction ds with
    | nil => intro acc _ _ h; exact h
    | cons d ds ih =>
      intro acc hd ha _
      have h1 := has_append hk ha (labelsToString_has hk (hd d (by simp)))
      exact ih _ (fun x hx => hd x (by simp [hx])) (has_append hk h1 (has_ascii hk (by decide))) (.inr ⟨_, rfl, h1⟩)
  intro s hs
  unfold labelListToString at hs
  dsimp only at hs
  rcases this ds ['['] h (has_ascii hk (by decide)) (.inl rfl) with e | ⟨t, e, ht⟩
  · rw [e, if_pos (by decide)] at hs
    cases hs
  · rw [e, if_neg (by simp)] at hs
    injection hs with hs
    rw [← hs]
    have : (t ++ [',', ' ']).dropLast.dropLast = t := by
      have e1 : t ++ [',', ' '] = (t ++ [',']) ++ [' '] := by simp
      rw [e1, List.dropLast_concat, List.dropLast_concat]
    rw [this]
    exact has_append hk ht (has_ascii hk (by decide))

theorem typesToString_has (hk : TextLike K) (ts : TypeSet) : Has K (typesToString ts) := by
  have tab : ∀ i, Has K (typeToStringTable.getD i []) := by
    intro i
    have : ∀ s ∈ typeToStringTable, s.all (fun c => c.toNat < 128) = true := by decide
    rw [List.getD_eq_getElem?_getD]
    cases h : typeToStringTable[i]? with
    | none => exact (has_nil hk)
    | some s => exact has_ascii hk (this s (List.mem_of_getElem? h))
  have h1 : ∀ (l : List Nat) (acc : List Str), (∀ s ∈ acc, Has K s) → ∀ s ∈ l.foldl
      (fun acc i => if ts.getLsbD i then setInsert (typeToStringTable.getD i []) acc else acc) acc, Has K s := by
    intro l
    induction l with
    | nil => intro acc h; exact h
    | cons i l ih =>
      intro acc h
      rw [List.foldl_cons]
      refine ih _ ?_
      split_ifs
      · intro s hs
        rcases setInsert_mem _ _ _ hs with e | e
        · rw [e]; exact tab i
        · exact h s e
      · exact h
  have h2 : ∀ (l : List Str) (acc : Str), (∀ s ∈ l, Has K s) → Has K acc →
      Has K (l.foldl (fun acc r => (if acc.length > 0 then acc ++ [' '] else acc) ++ r) acc) := by
    intro l
    induction l with
    | nil => intro acc _ h; exact h
    | cons r l ih =>
      intro acc h ha
      rw [List.foldl_cons]
      refine ih _ (fun s hs => h s (by simp [hs])) (has_append hk ?_ (h r (by simp)))
      split_ifs
      · exact has_append hk ha (has_ascii hk (by decide))
      · exact ha
  exact h2 _ [] (h1 _ [] (by simp)) (has_nil hk)

theorem strings_has (hk : TextLike K) : Strings (Has K) := ⟨(has_nil hk), fun _ _ => (has_append hk), typesToString_has hk⟩

theorem RRHas.str (hk : TextLike K) {r : RR} (h : RRHas K r) : Has K r.str := by
  unfold RR.str
  exact has_append hk (has_append hk (has_append hk (has_append hk (labelsToString_has hk h.1) (has_ascii hk (by decide))) (typesToString_has hk _))
    (has_ascii hk (by decide))) h.2

theorem RRHas.toStr (hk : TextLike K) {r : RR} (h : RRHas K r) : Yields (Has K) r.toStr := by
  unfold RR.toStr
  split_ifs
  · exact .throw
  · exact .ok (h.str hk)

theorem RRHas.clean (hk : TextLike K) {r : RR} (h : RRHas K r) : CleanRR (Has K) r := ⟨h.2, h.toStr hk⟩

theorem ec_toStr_has (hk : TextLike K) {q : EC} (h : NameHas K q.name) : Has K q.toStr := by
  unfold EC.toStr
  refine has_append hk ?_ (labelsToString_has hk h)
  split_ifs
  · exact has_ascii hk (by decide)
  · exact (has_nil hk)

/-! ## Graphs -/

/-- All vertices of a graph. -/
def TrieHas {α : Type} (K : Str → Prop) (P : α → Prop) (g : Trie α) : Prop := ∀ x ∈ g.verts, Has K x.label ∧ P x.data

section

variable {α : Type} {P : α → Prop}

theorem mem_modify {β : Type} {f : β → β} {x : β} : ∀ {l : List β} {i : Nat}, x ∈ l.modify i f → x ∈ l ∨ ∃ y ∈ l, x = f y
  | [], i, h => by simp at h
  | a :: l, 0, h => by
    rw [List.modify_zero_cons] at h
    rcases List.mem_cons.mp h with h | h
    · exact .inr ⟨a, by simp, h⟩
    · exact .inl (by simp [h])
  | a :: l, i + 1, h => by
    rw [List.modify_succ_cons] at h
    rcases List.mem_cons.mp h with h | h
    · exact .inl (by simp [h])
    · rcases mem_modify h with h | ⟨y, hy, e⟩
      · exact .inl (by simp [h])
      · exact .inr ⟨y, by simp [hy], e⟩

theorem TrieHas.setData {g : Trie α} (h : TrieHas K P g) (v : Nat) {d : α} (hd : P d) : TrieHas K P (g.setData v d) := by
  intro x hx
  rcases mem_modify hx with hx | ⟨y, hy, rfl⟩
  · exact h x hx
  · exact ⟨(h y hy).1, hd⟩

theorem TrieHas.label [Inhabited α] (hk : TextLike K) {g : Trie α} (h : TrieHas K P g) (v : Nat) : Has K (g.vtx v).label := by
  unfold Trie.vtx
  rw [List.getD_eq_getElem?_getD]
  cases hv : g.verts[v]? with
  | none => exact has_nil hk
  | some x => exact (h x (List.mem_of_getElem? hv)).1

theorem TrieHas.data [Inhabited α] {g : Trie α} (h : TrieHas K P g) (hd : P default) (v : Nat) : P (g.vtx v).data := by
  unfold Trie.vtx
  rw [List.getD_eq_getElem?_getD]
  cases hv : g.verts[v]? with
  | none => exact hd
  | some x => exact (h x (List.mem_of_getElem? hv)).2

theorem TrieHas.init (hk : TextLike K) {d : α} (hd : P d) : TrieHas K P (Trie.init d) := by
  intro x hx
  rw [List.mem_singleton.mp hx]
  exact ⟨has_dot hk, hd⟩

theorem TrieHas.constructMap [Inhabited α] {g : Trie α} (h : TrieHas K P g) (v : Nat) : TrieHas K P (g.constructMap v) := by
  unfold Trie.constructMap
  dsimp only
  split
  · exact h
  · exact h

theorem TrieHas.addNode [Inhabited α] {g : Trie α} (h : TrieHas K P g) (hd : P default) (ce : Nat) {l : Label} (hl : Has K l) :
    TrieHas K P (g.addNode ce l) := by
  have : ∀ x ∈ g.verts ++ [(⟨l, [], default⟩ : Vtx α)], Has K x.label ∧ P x.data := by
    intro x hx
    rcases List.mem_append.mp hx with hx | hx
    · exact h x hx
    · rw [List.mem_singleton.mp hx]; exact ⟨hl, hd⟩
  intro x hx
  rcases mem_modify hx with hx | ⟨y, hy, rfl⟩
  · exact this x hx
  · exact this y hy

theorem TrieHas.addNodes [Inhabited α] (hd : P default) : ∀ (ls : List Label) (g : Trie α) (ce : Nat), TrieHas K P g → NameHas K ls → TrieHas K P (g.addNodes ce ls).1
  | [], _, _, h, _ => h
  | l :: ls, g, ce, h, hn => by
    rw [Trie.addNodes]
    exact TrieHas.addNodes hd ls _ _ (h.addNode hd ce (hn l (by simp))) (fun x hx => hn x (by simp [hx]))

theorem TrieHas.ensure [Inhabited α] (hd : P default) (thr : Nat) {g : Trie α} (h : TrieHas K P g) {n : Name} (hn : NameHas K n) : TrieHas K P (g.ensure thr n).1 := by
  unfold Trie.ensure
  dsimp only
  refine TrieHas.addNodes hd _ _ _ ?_ (fun l hl => hn l (List.mem_of_mem_drop hl))
  have : ∀ (vs : List Nat) (g : Trie α), TrieHas K P g → TrieHas K P (vs.foldl Trie.constructMap g) := by
    intro vs
    induction vs with
    | nil => intro g h; exact h
    | cons v vs ih => intro g h; exact ih _ (h.constructMap v)
  exact this _ g h

end

/-! ## Zones -/

/-- All records of a zone and its origin. -/
def ZHas (K : Str → Prop) (z : Zone) : Prop := NameHas K z.origin ∧ TrieHas K (fun rs => ∀ r ∈ rs, RRHas K r) z.g

theorem ZHas.rrs {z : Zone} (h : ZHas K z) (v : Nat) : ∀ r ∈ z.rrsAt v, RRHas K r := h.2.data (by intro r hr; cases hr) v

theorem ZHas.init (hk : TextLike K) (id : Nat) : ZHas K (Zone.init id) := ⟨(fun _ h => nomatch h), TrieHas.init hk (fun _ h => nomatch h)⟩

theorem ZHas.addRecord {z : Zone} (h : ZHas K z) (thr : Nat) {r : RR} (hr : RRHas K r) : ZHas K (z.addRecord thr r).1 := by
  have he := h.2.ensure (by intro r hr; cases hr) thr hr.1
  unfold Zone.addRecord
  dsimp only
  split
  · refine ⟨?_, he.setData _ ?_⟩
    · dsimp only
      split_ifs
      · exact hr.1
      · exact h.1
    · intro x hx
      rcases List.mem_append.mp hx with hx | hx
      · exact he.data (by intro r hr; cases hr) _ x hx
      · rw [List.mem_singleton.mp hx]; exact hr
  · exact ⟨h.1, he⟩
  · exact ⟨h.1, he⟩

theorem ZHas.zoneHas (hk : TextLike K) {z : Zone} (h : ZHas K z) : ZoneHas (fun r => Has K r.str) z := fun v r hr => (h.rrs v r hr).str hk

/-- All records of a list of answers. -/
def AnsHas (K : Str → Prop) (as : List Answer) : Prop := ∀ a ∈ as, ∀ r ∈ a.rrs, RRHas K r

theorem AnsHas.nil : AnsHas K [] := fun _ h => nomatch h

theorem AnsHas.one {t : Tag} {ts : TypeSet} {rs : List RR} (h : ∀ r ∈ rs, RRHas K r) : AnsHas K [⟨t, ts, rs⟩] := by
  intro a ha
  rw [List.mem_singleton.mp ha]
  exact h

theorem AnsHas.none {t : Tag} {ts : TypeSet} : AnsHas K [⟨t, ts, []⟩] := .one (by simp)

theorem AnsHas.append {a b : List Answer} (ha : AnsHas K a) (hb : AnsHas K b) : AnsHas K (a ++ b) := by
  intro x hx
  rcases List.mem_append.mp hx with h | h
  · exact ha x h
  · exact hb x h

theorem addGlue_has {z : Zone} (h : ZHas K z) (thr : Nat) : ∀ ns : List RR, (∀ r ∈ ns, RRHas K r) → ∀ r ∈ z.addGlue thr ns, RRHas K r := by
  intro ns hns
  unfold Zone.addGlue
  have : ∀ (l acc : List RR), (∀ r ∈ l, RRHas K r) → (∀ r ∈ acc, RRHas K r) → ∀ r ∈ l.foldl (fun merged record =>
      let nsName := stringToLabels record.rdata
      let merged := merged ++ [record]
      let r := z.ancestor thr nsName
      if nsName.length = r.2 then
        merged ++ (z.rrsAt r.1).filter (fun x => x.type == .A || x.type == .AAAA)
      else merged) acc, RRHas K r := by
    intro l
    induction l with
    | nil => intro acc _ h; exact h
    | cons x l ih =>
      intro acc hl ha
      rw [List.foldl_cons]
      have h1 : ∀ r ∈ acc ++ [x], RRHas K r := by
        intro r hr
        rcases List.mem_append.mp hr with hr | hr
        · exact ha r hr
        · rw [List.mem_singleton.mp hr]; exact hl x (by simp)
      refine ih _ (fun r hr => hl r (by simp [hr])) ?_
      dsimp only
      split_ifs
      · intro r hr
        rcases List.mem_append.mp hr with hr | hr
        · exact h1 r hr
        · exact h.rrs _ r (List.mem_of_mem_filter hr)
      · exact h1
  exact this ns [] hns (by simp)

theorem wildcardScan_has (q : EC) : ∀ (l m : List RR) (t : TypeSet), (∀ r ∈ l, RRHas K r) → (∀ r ∈ m, RRHas K r) →
    Yields (fun x => match x with | .inl r => RRHas K r | .inr p => ∀ r ∈ p.1, RRHas K r) (Zone.wildcardScan q l m t)
  | [], m, t, _, hm => by unfold Zone.wildcardScan; exact .ok hm
  | x :: l, m, t, hl, hm => by
    have hl' : ∀ r ∈ l, RRHas K r := fun r hr => hl r (by simp [hr])
    unfold Zone.wildcardScan
    split_ifs
    · exact .ok (hl x (by simp))
    · refine .any (fun b => ?_)
      split_ifs
      · refine .any (fun t => wildcardScan_has q l _ t hl' ?_)
        intro r hr
        rcases List.mem_append.mp hr with hr | hr
        · exact hm r hr
        · rw [List.mem_singleton.mp hr]; exact hl x (by simp)
      · exact wildcardScan_has q l m t hl' hm

theorem exactScan_has (q : EC) : ∀ (l m ns : List RR) (t : TypeSet), (∀ r ∈ l, RRHas K r) → (∀ r ∈ m, RRHas K r) → (∀ r ∈ ns, RRHas K r) →
    Yields (fun x => match x with | .inl r => RRHas K r | .inr p => (∀ r ∈ p.1, RRHas K r) ∧ ∀ r ∈ p.2.1, RRHas K r) (Zone.exactScan q l m ns t)
  | [], m, ns, t, _, hm, hns => by unfold Zone.exactScan; exact .ok ⟨hm, hns⟩
  | x :: l, m, ns, t, hl, hm, hns => by
    have hl' : ∀ r ∈ l, RRHas K r := fun r hr => hl r (by simp [hr])
    have snoc : ∀ m : List RR, (∀ r ∈ m, RRHas K r) → ∀ r ∈ m ++ [x], RRHas K r := by
      intro m hm r hr
      rcases List.mem_append.mp hr with hr | hr
      · exact hm r hr
      · rw [List.mem_singleton.mp hr]; exact hl x (by simp)
    unfold Zone.exactScan
    split_ifs
    · exact exactScan_has q l m _ t hl' hm (snoc ns hns)
    · refine .any (fun b => ?_)
      split_ifs
      · exact .any (fun t => .ok (hl x (by simp)))
      · exact .ok (hl x (by simp))
    · refine .any (fun b => ?_)
      split_ifs
      · exact .any (fun t => exactScan_has q l _ ns t hl' (snoc m hm) hns)
      · exact exactScan_has q l m ns t hl' hm hns

theorem ansOf_has (q : EC) (t : TypeSet) {rs : List RR} (h : ∀ r ∈ rs, RRHas K r) : AnsHas K (Zone.ansOf q t rs) := by
  unfold Zone.ansOf
  refine .append ?_ ?_
  · split_ifs
    · exact .one h
    · exact .nil
  · split_ifs
    · exact .none
    · exact .nil

theorem cnameAns_has (q : EC) (t : TypeSet) {r : RR} (h : RRHas K r) : AnsHas K (Zone.cnameAns q t r) := by
  unfold Zone.cnameAns
  split_ifs <;> exact .one (by simpa using h)

theorem dnameAns_has (t : TypeSet) {rs : List RR} (h : ∀ r ∈ rs, RRHas K r) : AnsHas K (Zone.dnameAns t rs) := by
  intro a ha
  obtain ⟨r, hr, rfl⟩ := List.mem_map.mp ha
  intro x hx
  rw [List.mem_singleton.mp hx]
  exact h r (List.mem_of_mem_filter hr)

theorem wildcardMatch_has {z : Zone} (h : ZHas K z) (ce : Nat) (t : TypeSet) (q : EC) :
    Yields (fun o => ∀ a, o = some a → AnsHas K a) (z.wildcardMatch ce t q) := by
  unfold Zone.wildcardMatch
  split
  · exact .ok (fun a h => nomatch h)
  · refine .bind (wildcardScan_has q _ _ _ (h.rrs _) (by simp)) (fun x hx => ?_)
    split
    · exact .ok (fun a ha => by injection ha with ha; rw [← ha]; exact cnameAns_has q t hx)
    · exact .ok (fun a ha => by injection ha with ha; rw [← ha]; exact ansOf_has q _ hx)

theorem lookup_has {z : Zone} (h : ZHas K z) (thr : Nat) (q : EC) : Yields (fun r => AnsHas K r.1) (z.lookup thr q) := by
  unfold Zone.lookup
  refine .any (fun r => ?_)
  dsimp only
  refine .any (fun types => ?_)
  have hw : Yields (fun r : List Answer × Bool => AnsHas K r.1) (do
        let w ← z.wildcardMatch r.1 types q
        match w with
        | some a => .ok (a, true)
        | none => .ok ([⟨.NX, q.types, []⟩], false)) := by
    refine .bind (wildcardMatch_has h r.1 types q) (fun w hw => ?_)
    split
    · exact .ok (hw _ rfl)
    · exact .ok .none
  have he : Yields (fun r : List Answer × Bool => AnsHas K r.1) (do
        let s ← Zone.exactScan q (z.rrsAt r.1) [] [] 0
        match s with
        | .inl record => .ok (Zone.cnameAns q types record, true)
        | .inr (m, ns, q') =>
          let ns := if types.has .NS then z.addGlue thr ns else ns
          if types.has .NS && !types.has .SOA then .ok ([⟨.REF, types, ns⟩], true)
          else if q.types.has .NS && ns.length ≠ 0 then .ok (Zone.ansOf q (q'.add .NS) (m ++ ns), true)
          else .ok (Zone.ansOf q q' m, true)) := by
    refine .bind (exactScan_has q _ _ _ _ (h.rrs _) (by simp) (by simp)) (fun s hs => ?_)
    split
    · exact .ok (cnameAns_has q _ hs)
    · rename_i m ns q'
      have hns : ∀ r ∈ (if types.has .NS then z.addGlue thr ns else ns), RRHas K r := by
        split_ifs
        · exact addGlue_has h thr ns hs.2
        · exact hs.2
      dsimp only
      generalize (if types.has .NS then z.addGlue thr ns else ns) = ns' at hns
      split_ifs
      · exact .ok (.one hns)
      · refine .ok (ansOf_has q _ ?_)
        intro r hr
        rcases List.mem_append.mp hr with hr | hr
        · exact hs.1 r hr
        · exact hns r hr
      · exact .ok (ansOf_has q _ hs.1)
  by_cases hc : (decide (q.name.length ≠ r.2) || q.excluded.isSome) = true
  · rw [if_pos hc]
    split_ifs
    · exact .ok (dnameAns_has _ (h.rrs _))
    · exact hw
    · exact .ok (.one (addGlue_has h thr _ (fun r hr => h.rrs _ r (List.mem_of_mem_filter hr))))
    · exact .ok .nil
    · exact .ok (dnameAns_has _ (h.rrs _))
    · exact hw
  · rw [if_neg hc]
    exact he

theorem glueIssues_has (hk : TextLike K) {z : Zone} (h : ZHas K z) (thr : Nat) {ns : Str} (hns : Has K ns) :
    Yields (fun l => ∀ i ∈ l, Has K i.server ∧ Has K i.zone ∧ Has K i.record) (z.glueIssues thr ns) := by
  have hat : ∀ v, Yields (fun l : List Zone.GlueIssue => ∀ i ∈ l, Has K i.server ∧ Has K i.zone ∧ Has K i.record) (z.glueIssuesAt thr ns (z.rrsAt v)) := by
    intro v
    unfold Zone.glueIssuesAt
    refine .foldlM _ _ (fun b hb r hr => ?_) (by simp)
    split_ifs
    · refine .bind ((h.rrs v r hr).toStr hk) (fun s hs => .ok ?_)
      intro i hi
      rcases List.mem_append.mp hi with hi | hi
      · exact hb i hi
      · rw [List.mem_singleton.mp hi]
        exact ⟨hns, labelsToString_has hk h.1, hs⟩
    · exact .ok hb
  have : ∀ fuel v, Yields (fun l : List Zone.GlueIssue => ∀ i ∈ l, Has K i.server ∧ Has K i.zone ∧ Has K i.record) (z.glueIssuesFrom thr ns fuel v) := by
    intro fuel
    induction fuel with
    | zero => intro v; unfold Zone.glueIssuesFrom; exact .ok (by simp)
    | succ fuel ih =>
      intro v
      unfold Zone.glueIssuesFrom
      refine .bind (hat v) (fun here hh => .foldlM _ _ (fun b hb e _ => .bind (ih e.2) (fun r hr => .ok ?_)) hh)
      intro i hi
      rcases List.mem_append.mp hi with hi | hi
      · exact hb i hi
      · exact hr i hi
  exact this _ _

end

end Groot
