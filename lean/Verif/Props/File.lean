import Verif.Lemmas.File
import Verif.Props.Loader

/-!
# C80: a zone file loads exactly what is written
-/

namespace Groot

open Spec Parser

/-- **C80** A file of standard lines is loaded as it is written: the zone (if the file names an SOA record) holds exactly the
records that are kept of those offered, in order; the label graph gets exactly those; and with linting on there is exactly one
report for every other record, with its line, its text, why it was not kept, and what it is in conflict with. -/
theorem C80_file (thr : Nat) (lint : Bool) (d : Loaded) (file contents ns origin : Str) (es : List (Entry × Nat)) (h : GoodFile contents origin es) :
    ∃ (d' : Loaded) (rs : List RR) (xs : List (RR × Nat × Nat)), loadZone thr lint d file contents ns origin = .ok d' ∧
      stored rs = kept (offeredBy origin es) ∧ xs.map (·.1) = kept (offeredBy origin es) ∧ (∀ x ∈ xs, x.2.1 = d.ctx.counter + 1) ∧
      d'.lg = xs.foldl (fun g x => LGraph.addRecord thr g x.1 x.2.1 x.2.2) d.lg ∧
      d'.ctx = (if HasSOA es then
        { d.ctx with counter := d.ctx.counter + 1
                     zones := d.ctx.zones ++ [(d.ctx.counter + 1, Zone.afterAdds thr (d.ctx.counter + 1) rs)]
                     nsZones := pushZone ns (d.ctx.counter + 1) d.ctx.nsZones
                     zoneNs := d.ctx.zoneNs ++ [(d.ctx.counter + 1, ns)] }
        else { d.ctx with counter := d.ctx.counter + 1 }) ∧
      d'.issues = d.issues ++ [(file, if lint then reportsFrom [] (offeredBy origin es) else [])] ∧
      d'.rrCount = d.rrCount + (offeredBy origin es).length := by
  obtain ⟨-, h2⟩ := run_entries (thr := thr) (lint := lint) (lg0 := d.lg) (id := d.ctx.counter + 1) h.read h.standard h.supported
  obtain ⟨st, rs, xs, e1, e2, e3, e4, e5, e6, -⟩ := h2 h.noOrphan
  unfold loadZone
  dsimp only
  rw [e1, Res.ok_bind]
  refine ⟨_, rs, xs, rfl, e3, ?_, e2.ids, e2.lg, ?_, ?_, ?_⟩
  · rw [e2.entries, e3]; rfl
  · dsimp only
    rw [e5, e2.zone]
    by_cases hs : HasSOA es
    · rw [if_pos (decide_eq_true hs), if_pos hs]
    · rw [if_neg (by simpa using hs), if_neg hs]
  · dsimp only; rw [e4]; rfl
  · dsimp only; rw [e6]; rfl

/-- **C80** A file in which a record comes before the SOA record (and is not over-long) ends the program. -/
theorem C80_orphan (thr : Nat) (lint : Bool) (d : Loaded) (file contents ns origin : Str) (es : List (Entry × Nat)) (h : FileSays contents es)
    (hs : AllStandard ⟨origin, [], 0⟩ (es.map (·.1))) (hN : ∀ x ∈ offeredBy origin es, x.2.type ≠ .N) (ho : ¬ NoOrphan (offeredBy origin es)) :
    loadZone thr lint d file contents ns origin = .exit := by
  obtain ⟨h1, -⟩ := run_entries (thr := thr) (lint := lint) (lg0 := d.lg) (id := d.ctx.counter + 1) h hs hN
  unfold loadZone
  dsimp only
  rw [h1 ho]; rfl

/-- **C80** What can be looked up in the zone of such a file: at every name the records kept with that owner, in order. -/
theorem C80_contents (thr : Nat) (lint : Bool) (d : Loaded) (file contents ns origin : Str) (es : List (Entry × Nat)) (h : GoodFile contents origin es)
    (hs : HasSOA es) : ∃ d' z, loadZone thr lint d file contents ns origin = .ok d' ∧ d'.ctx.zones = d.ctx.zones ++ [(d.ctx.counter + 1, z)] ∧
      z.origin = soaOwner (kept (offeredBy origin es)) ∧ ∀ thr' n, z.seenAt thr' n = recordsAt (kept (offeredBy origin es)) n := by
  obtain ⟨d', rs, xs, e1, e2, -, -, -, e6, -, -⟩ := C80_file thr lint d file contents ns origin es h
  rw [if_pos hs] at e6
  refine ⟨d', _, e1, by rw [e6], ?_, fun thr' n => ?_⟩
  · obtain ⟨names, hrep⟩ := Zone.rep_afterAdds thr (d.ctx.counter + 1) rs
    rw [hrep.origin, e2]
  · rw [C08_log, accepted_eq, e2]

/-- **C80** A file written line by line, each with its words separated by blanks and perhaps a comment, and ended by a newline,
says what its lines say. -/
theorem C80_text (ls : List (Entry × Str)) (h : ∀ p ∈ ls, WordsText p.1.words p.2) :
    FileSays (ls.map (fun p => p.2 ++ ['\n'])).flatten (ls.map (fun p => (p.1, 1))) := by
  induction ls with
  | nil =>
    refine ⟨[], [], [], .nil, .rest _ ?_, .nil⟩
    rintro ⟨l, e, r, hh, -⟩
    simp at hh
  | cons p ls ih =>
    obtain ⟨ts, lss, tail, h1, h2, h3⟩ := ih (fun q hq => h q (List.mem_cons_of_mem _ hq))
    rw [List.map_cons, List.flatten_cons, List.map_cons, List.append_assoc, List.singleton_append]
    obtain ⟨toks, e1, e2, e3⟩ := words_tokens p.1.words p.2 (ls.map (fun p => p.2 ++ ['\n'])).flatten (h p List.mem_cons_self)
    refine ⟨toks ++ ⟨.EOL, ['\n']⟩ :: ts, toks :: lss, tail, ?_, .line _ _ _ _ _ e2.logical rfl h2, .cons ⟨e3, by rw [e2.eols]⟩ h3⟩
    rw [← tokens_iff, e1, (tokens_iff _ _).mpr h1]

/-- **C80** All files of the metadata: the file at position `i` gives the zone number `i + 1` with the records it keeps, hosted
by the server named beside it — or no zone if it names no SOA record — and the reports of each file are in order. -/
theorem C80_context (thr : Nat) (lint : Bool) (read : Str → Str) (exists_ : Str → Bool) (m : Driver.Meta) (ess : List (List (Entry × Nat)))
    (hm : Driver.sanityCheck exists_ m = .ok ())
    (h : List.Forall₂ (fun z es => GoodFile (read (z.fileName.getD [])) (toLower (z.origin.getD [])) es) (filesOf m) ess) :
    ∃ d, setContext thr lint read exists_ m = .ok d ∧ d.ctx.counter = (filesOf m).length ∧
      d.issues = List.zipWith (fun z es => (z.fileName.getD [], if lint then reportsFrom [] (offeredBy (toLower (z.origin.getD [])) es) else []))
        (filesOf m) ess ∧
      d.rrCount = (List.zipWith (fun z es => (offeredBy (toLower (z.origin.getD [])) es).length) (filesOf m) ess).sum ∧
      ∀ i z es, (filesOf m)[i]? = some z → ess[i]? = some es →
        (¬ HasSOA es → d.ctx.zones.lookup (i + 1) = none ∧ d.ctx.zoneNs.lookup (i + 1) = none) ∧
        (HasSOA es → d.ctx.zoneNs.lookup (i + 1) = some (toLower (z.nameServer.getD [])) ∧
          ∃ zone, d.ctx.zones.lookup (i + 1) = some zone ∧ zone.origin = soaOwner (kept (offeredBy (toLower (z.origin.getD [])) es)) ∧
            ∀ thr' n, zone.seenAt thr' n = recordsAt (kept (offeredBy (toLower (z.origin.getD [])) es)) n) := by
  -- the state after the first files
  have key : ∀ (fs : List Driver.UZone) (ess : List (List (Entry × Nat))),
      List.Forall₂ (fun z es => GoodFile (read (z.fileName.getD [])) (toLower (z.origin.getD [])) es) fs ess →
      ∀ d0 : Loaded, (∀ k, d0.ctx.counter < k → d0.ctx.zones.lookup k = none ∧ d0.ctx.zoneNs.lookup k = none) →
      ∃ d, fs.foldlM (fun d z => loadZone thr lint d (z.fileName.getD []) (read (z.fileName.getD [])) (toLower (z.nameServer.getD []))
          (toLower (z.origin.getD []))) d0 = .ok d ∧ d.ctx.counter = d0.ctx.counter + fs.length ∧
        d.issues = d0.issues ++ List.zipWith (fun z es => (z.fileName.getD [], if lint then reportsFrom [] (offeredBy (toLower (z.origin.getD [])) es) else [])) fs ess ∧
        d.rrCount = d0.rrCount + (List.zipWith (fun z es => (offeredBy (toLower (z.origin.getD [])) es).length) fs ess).sum ∧
        (∀ k, k ≤ d0.ctx.counter → d.ctx.zones.lookup k = d0.ctx.zones.lookup k ∧ d.ctx.zoneNs.lookup k = d0.ctx.zoneNs.lookup k) ∧
        ∀ i z es, fs[i]? = some z → ess[i]? = some es →
          (¬ HasSOA es → d.ctx.zones.lookup (d0.ctx.counter + i + 1) = none ∧ d.ctx.zoneNs.lookup (d0.ctx.counter + i + 1) = none) ∧
          (HasSOA es → d.ctx.zoneNs.lookup (d0.ctx.counter + i + 1) = some (toLower (z.nameServer.getD [])) ∧
            ∃ zone, d.ctx.zones.lookup (d0.ctx.counter + i + 1) = some zone ∧ zone.origin = soaOwner (kept (offeredBy (toLower (z.origin.getD [])) es)) ∧
              ∀ thr' n, zone.seenAt thr' n = recordsAt (kept (offeredBy (toLower (z.origin.getD [])) es)) n) := by
    intro fs ess h
    induction h with
    | nil =>
      intro d0 _
      exact ⟨d0, rfl, rfl, by simp, by simp, fun _ _ => ⟨rfl, rfl⟩, by simp⟩
    | @cons z es fs ess hz hrest ih =>
      intro d0 h0
      obtain ⟨d1, rs, xs, e1, e2, -, -, -, e6, e7, e8⟩ := C80_file thr lint d0 (z.fileName.getD []) (read (z.fileName.getD []))
        (toLower (z.nameServer.getD [])) (toLower (z.origin.getD [])) es hz
      have hc1 : d1.ctx.counter = d0.ctx.counter + 1 := by rw [e6]; split <;> rfl
      have lk : ∀ {β : Type} (l : List (Nat × β)) (k j : Nat) (v : β), k ≠ j → (l ++ [(j, v)]).lookup k = l.lookup k := by
        intro β l k j v hkj
        rw [Trie.lookup_append]
        cases l.lookup k with
        | some x => rfl
        | none =>
          have : (k == j) = false := by simpa using hkj
          simp [List.lookup, this]
      have lk' : ∀ {β : Type} (l : List (Nat × β)) (k : Nat) (v : β), l.lookup k = none → (l ++ [(k, v)]).lookup k = some v := by
        intro β l k v hn
        rw [Trie.lookup_append, hn]
        simp [List.lookup]
      have hsame : ∀ k, k ≠ d0.ctx.counter + 1 → d1.ctx.zones.lookup k = d0.ctx.zones.lookup k ∧ d1.ctx.zoneNs.lookup k = d0.ctx.zoneNs.lookup k := by
        intro k hk
        rw [e6]
        split
        · exact ⟨lk _ _ _ _ hk, lk _ _ _ _ hk⟩
        · exact ⟨rfl, rfl⟩
      obtain ⟨d, f1, f2, f3, f4, f5, f6⟩ := ih d1 (by
        intro k hk
        have := hsame k (by omega)
        rw [this.1, this.2]
        exact h0 k (by omega))
      refine ⟨d, ?_, ?_, ?_, ?_, ?_, ?_⟩
      · rw [List.foldlM_cons, e1, Res.ok_bind]; exact f1
      · rw [f2, hc1, List.length_cons]; omega
      · rw [f3, e7, List.append_assoc]; rfl
      · rw [f4, e8, List.zipWith_cons_cons, List.sum_cons]; omega
      · intro k hk
        have h1 := f5 k (by omega)
        have h2 := hsame k (by omega)
        exact ⟨h1.1.trans h2.1, h1.2.trans h2.2⟩
      · intro i z' es' hi hj
        cases i with
        | succ i =>
          have := f6 i z' es' hi hj
          rw [hc1] at this
          have e : d0.ctx.counter + (i + 1) + 1 = d0.ctx.counter + 1 + i + 1 := by omega
          rw [e]; exact this
        | zero =>
          injection hi with hi
          injection hj with hj
          subst hi hj
          have h1 := f5 (d0.ctx.counter + 1) (by omega)
          have hn := h0 (d0.ctx.counter + 1) (by omega)
          rw [Nat.add_zero, h1.1, h1.2, e6]
          constructor
          · intro hs
            rw [if_neg hs]; exact hn
          · intro hs
            rw [if_pos hs]
            refine ⟨lk' _ _ _ hn.2, _, lk' _ _ _ hn.1, ?_, fun thr' n => ?_⟩
            · obtain ⟨names, hrep⟩ := Zone.rep_afterAdds thr (d0.ctx.counter + 1) rs
              rw [hrep.origin, e2]
            · rw [C08_log, accepted_eq, e2]
  unfold setContext
  rw [hm, Res.ok_bind]
  dsimp only
  obtain ⟨d, f1, f2, f3, f4, f5, f6⟩ := key (filesOf m) ess h { ctx := { top := (m.topNameServers.getD []).map toLower } } (fun _ _ => ⟨rfl, rfl⟩)
  refine ⟨d, f1, by simpa using f2, by simpa using f3, by simpa using f4, ?_⟩
  intro i z es hi hj
  have := f6 i z es hi hj
  rw [show ({ ctx := { top := (m.topNameServers.getD []).map toLower } } : Loaded).ctx.counter + i + 1 = i + 1 from by simp] at this
  exact this

/-- **C80** The world the end-to-end properties speak about (C66-C73, C79) holds at every name what the files keep with that
owner. -/
theorem C80_world (thr : Nat) (lint : Bool) (read : Str → Str) (exists_ : Str → Bool) (m : Driver.Meta) (ess : List (List (Entry × Nat))) (d : Loaded)
    (h : List.Forall₂ (fun z es => GoodFile (read (z.fileName.getD [])) (toLower (z.origin.getD [])) es) (filesOf m) ess)
    (hd : setContext thr lint read exists_ m = .ok d) (w : World) (hw : Represents d.ctx w) (i : Nat) (z : Driver.UZone) (es : List (Entry × Nat))
    (hi : (filesOf m)[i]? = some z) (hj : ess[i]? = some es) (hs : HasSOA es) (n : Name) :
    recordsAt (w.log (i + 1)) n = recordsAt (kept (offeredBy (toLower (z.origin.getD [])) es)) n := by
  have hm : Driver.sanityCheck exists_ m = .ok () := by
    unfold setContext at hd
    obtain ⟨u, hu, -⟩ := bind_ok_iff.mp hd
    exact hu
  obtain ⟨d', e1, -, -, -, e5⟩ := C80_context thr lint read exists_ m ess hm h
  rw [hd] at e1
  injection e1 with e1
  subst e1
  obtain ⟨-, zone, hz, -, hseen⟩ := (e5 i z es hi hj).2 hs
  obtain ⟨-, -, t, zones, hzones, hall⟩ := hw
  rw [hzones] at hz
  have hl : ∀ l : List (Nat × List RR), (l.map (fun p => (p.1, Zone.afterAdds t p.1 p.2))).lookup (i + 1) = some zone →
      ∃ rs, l.lookup (i + 1) = some rs ∧ zone = Zone.afterAdds t (i + 1) rs := by
    intro l
    induction l with
    | nil => intro h; cases h
    | cons p l ih =>
      intro h
      rw [List.map_cons, List.lookup_cons] at h
      rw [List.lookup_cons]
      by_cases hp : i + 1 = p.1
      · have hb : ((i + 1) == p.1) = true := by simpa using hp
        rw [hb] at h ⊢
        injection h with h
        exact ⟨p.2, rfl, by rw [← h, hp]⟩
      · have hb : ((i + 1) == p.1) = false := by simpa using hp
        rw [hb] at h ⊢
        exact ih h
  obtain ⟨rs, hrs, rfl⟩ := hl _ hz
  have := hseen t n
  rw [C08_log, accepted_eq] at this
  have ha := lookup_alike hall (i + 1)
  rw [hrs] at ha
  obtain ⟨qs, hq, he⟩ := Option.map_eq_some_iff.mp ha.symm
  unfold World.log
  rw [hq]
  show recordsAt (stored qs) n = _
  rw [he]
  exact this

/-! ### A file that meets the hypotheses -/

/-- A check that a list of tokens is a logical line. -/
def logicalCheck (l : List Tok) : Bool :=
  decide (depth l = 0) && (List.range (l.length + 1)).all (fun i => decide (0 ≤ depth (l.take i)) &&
    (match l[i]? with | some t => decide (t.id = .EOL → 0 < depth (l.take i)) | none => true))

theorem logical_of_check {l : List Tok} (h : logicalCheck l = true) : LogicalLine l := by
  unfold logicalCheck at h
  rw [Bool.and_eq_true, decide_eq_true_eq, List.all_eq_true] at h
  obtain ⟨h1, h2⟩ := h
  refine ⟨h1, ?_, ?_⟩
  · rintro p ⟨q, rfl⟩
    have := h2 p.length (by simp)
    rw [Bool.and_eq_true, decide_eq_true_eq] at this
    simpa using this.1
  · rintro p t q rfl ht
    have := h2 p.length (by simp)
    rw [Bool.and_eq_true] at this
    simpa [ht] using this.2

/-- Cut off logical lines of given lengths. -/
def cut : List Nat → List Tok → List (List Tok)
  | [], _ => []
  | k :: ks, ts => ts.take k :: cut ks (ts.drop (k + 1))

def cutCheck : List Nat → List Tok → Bool
  | [], ts => ts.isEmpty
  | k :: ks, ts => logicalCheck (ts.take k) && (match ts.drop k with | e :: _ => decide (e.id = .EOL) | [] => false) && cutCheck ks (ts.drop (k + 1))

theorem split_of_check : ∀ (ks : List Nat) (ts : List Tok), cutCheck ks ts = true → Split ts (cut ks ts) []
  | [], ts, h => by
    unfold cutCheck at h
    rw [List.isEmpty_iff] at h
    subst h
    refine .rest _ ?_
    rintro ⟨l, e, r, hh, -⟩
    simp at hh
  | k :: ks, ts, h => by
    unfold cutCheck at h
    rw [Bool.and_eq_true, Bool.and_eq_true] at h
    obtain ⟨⟨h1, h2⟩, h3⟩ := h
    cases hd : ts.drop k with
    | nil => rw [hd] at h2; cases h2
    | cons e r =>
      rw [hd] at h2
      have hr : ts.drop (k + 1) = r := by rw [← List.drop_drop, hd]; rfl
      have hs := split_of_check ks (ts.drop (k + 1)) h3
      rw [hr] at hs
      have ht : ts = ts.take k ++ e :: r := by rw [← hd, List.take_append_drop]
      have : cut (k :: ks) ts = ts.take k :: cut ks r := by rw [cut, hr]
      rw [this]
      have hres := Split.line _ e r _ _ (logical_of_check h1) (by simpa using h2) hs
      rw [← ht] at hres
      exact hres

def sampleFile : Str := "; a zone\n$TTL 300\n@ IN SOA n1 hostmaster (\n  1 2\n  3 )\n\tNS n1\nn1 60 A 1.2.3.4\nWWW CNAME Host ; alias\nwww A 5\n$ORIGIN Sub.x.\nt TXT \"a b\"\nother. A 1\nn1.x. 60 A 1.2.3.4\n".toList

private def ln (owner : String) (ttl cls : Option String) (type : String) (rdata : List String) : Line :=
  ⟨owner.toList, ttl.map String.toList, cls.map String.toList, true, type.toList, rdata.map String.toList⟩

def sampleEntries : List (Entry × Nat) :=
  [(.silent [], 1), (.ttl "300".toList, 1), (.atSign (ln "" none (some "IN") "SOA" ["n1", "hostmaster", "1", "2", "3"]), 3),
   (.record (ln "" none none "NS" ["n1"]), 1), (.record (ln "n1" (some "60") none "A" ["1.2.3.4"]), 1),
   (.record (ln "WWW" none none "CNAME" ["Host"]), 1), (.record (ln "www" none none "A" ["5"]), 1), (.origin "Sub.x.".toList, 1),
   (.record (ln "t" none none "TXT" ["\"a b\""]), 1), (.record (ln "other." none none "A" ["1"]), 1),
   (.record (ln "n1.x." (some "60") none "A" ["1.2.3.4"]), 1)]

/-- A check that a line has the standard form. -/
def standardLine (l : Line) : Bool :=
  decide (¬ LooksLikeType l.owner) && decide (l.owner ∉ ["$ORIGIN", "$INCLUDE", "$TTL", "@"].map String.toList) &&
  l.ttl.all (fun t => decide (Numeral t ∧ Fitting (numeralValue t))) &&
  l.cls.all (fun c => decide (toUpper c = "IN".toList ∨ toUpper c = "CH".toList)) && decide (LooksLikeType l.type)

theorem standardLine_spec {l : Line} (h : standardLine l = true) : l.Standard := by
  unfold standardLine at h
  simp only [Bool.and_eq_true, decide_eq_true_eq] at h
  obtain ⟨⟨⟨⟨h1, h2⟩, h3⟩, h4⟩, h5⟩ := h
  refine ⟨h1, h2, ?_, ?_, h5⟩
  · intro t ht; rw [ht] at h3; simpa using h3
  · intro t ht; rw [ht] at h4; simpa using h4

theorem sampleFile_says : FileSays sampleFile sampleEntries := by
  refine ⟨Lexer.tokens sampleFile, cut [1, 3, 21, 4, 7, 7, 5, 3, 5, 5, 7] (Lexer.tokens sampleFile), [], tokens_munch _,
    split_of_check _ _ (by decide +kernel), ?_⟩
  have e : (cut [1, 3, 21, 4, 7, 7, 5, 3, 5, 5, 7] (Lexer.tokens sampleFile)).map (fun l => (fields l, eols l + 1)) =
      sampleEntries.map (fun e => (e.1.words, e.2)) := by decide +kernel
  generalize cut _ _ = ls at e
  revert e
  generalize sampleEntries = es
  intro e
  induction ls generalizing es with
  | nil => cases es with
    | nil => exact .nil
    | cons x xs => cases e
  | cons l ls ih => cases es with
    | nil => cases e
    | cons x xs =>
      simp only [List.map_cons, List.cons.injEq, Prod.mk.injEq] at e
      exact .cons e.1 (ih xs e.2)

/-- The file meets the hypotheses of `C80_file`. -/
theorem sampleFile_good : GoodFile sampleFile "x.".toList sampleEntries := by
  refine ⟨sampleFile_says, ?_, by decide +kernel, ?_⟩
  · refine ⟨⟨by decide, by decide⟩, ⟨by decide, by decide, by decide⟩, ⟨by decide +kernel, standardLine_spec (by decide +kernel)⟩,
      standardLine_spec (by decide +kernel), standardLine_spec (by decide +kernel), standardLine_spec (by decide +kernel),
      standardLine_spec (by decide +kernel), trivial, standardLine_spec (by decide +kernel), standardLine_spec (by decide +kernel),
      standardLine_spec (by decide +kernel), trivial⟩
  · refine (noOrphanFrom_iff [] _).mp ?_
    have : ∀ (log : List RR) (x : Nat × RR), x.2.type = .SOA ∨ soaOwner log ≠ [] → ¬ Orphan log x.2 := by
      rintro log x (h | h) ⟨-, -, h1, h2⟩
      · exact h2 h
      · exact h h1
    refine ⟨this _ _ (by decide +kernel), this _ _ (by decide +kernel), this _ _ (by decide +kernel), this _ _ (by decide +kernel),
      this _ _ (by decide +kernel), this _ _ (by decide +kernel), this _ _ (by decide +kernel), this _ _ (by decide +kernel), trivial⟩

private def rec' (n t : String) (ttl : Nat) (d : String) : RR := mkRR n.toList t.toList 1 ttl d.toList

/-- What is kept of it, and what is reported. -/
example : kept (offeredBy "x.".toList sampleEntries) =
    [rec' "x." "SOA" 300 "n1 hostmaster 1 2 3", rec' "x." "NS" 300 "n1.x.", rec' "n1.x." "A" 60 "1.2.3.4", rec' "www.x." "CNAME" 300 "host.x.",
     rec' "t.sub.x." "TXT" 300 "\"a b\""] ∧
    reportsFrom [] (offeredBy "x.".toList sampleEntries) =
    [⟨9, "www.x.   A   5".toList, "CNAME AND OTHER TYPES".toList, "www.x.   CNAME   host.x.".toList⟩,
     ⟨12, "other.   A   1".toList, "OUT OF ZONE RECORD".toList, []⟩,
     ⟨13, "n1.x.   A   1.2.3.4".toList, "Duplicate Record".toList, []⟩] ∧ HasSOA sampleEntries := by
  decide +kernel

/-- A directory with that file meets the hypotheses of `C80_context`. -/
example : let m : Driver.Meta := ⟨some ["NS.x.".toList], some [⟨some "f".toList, some "NS.x.".toList, some "X.".toList⟩]⟩
    Driver.sanityCheck (fun _ => true) m = .ok () ∧
    List.Forall₂ (fun z es => GoodFile ((fun _ => sampleFile) (z.fileName.getD [])) (toLower (z.origin.getD [])) es) (filesOf m) [sampleEntries] := by
  refine ⟨rfl, .cons ?_ .nil⟩
  exact sampleFile_good

/-- Lines without parentheses and quotes, as in `C80_text`. -/
example : WordsText (Entry.record (ln "n1" (some "60") none "A" ["1.2.3.4"])).words "n1 60 A\t1.2.3.4;x".toList := by
  refine ⟨"n1 60 A\t1.2.3.4".toList, ";x".toList, by decide, .inr ⟨['x'], rfl, by decide⟩, .inl ?_⟩
  refine .word "n1".toList " ".toList _ _ (by decide) (by decide) (by unfold Blank; decide) (by decide) ?_
  refine .word "60".toList " ".toList _ _ (by decide) (by decide) (by unfold Blank; decide) (by decide) ?_
  refine .word "A".toList "\t".toList _ _ (by decide) (by decide) (by unfold Blank; decide) (by decide) ?_
  exact .word "1.2.3.4".toList [] _ _ (by decide) (by decide) (by unfold Blank; decide) (by decide) .nil

/-- A file with a record before the SOA record, as in `C80_orphan`. -/
example : FileSays "a A 1\n".toList [(.record (ln "a" none none "A" ["1"]), 1)] ∧
    ¬ NoOrphan (offeredBy "x.".toList [(.record (ln "a" none none "A" ["1"]), 1)]) := by
  constructor
  · have := C80_text [(.record (ln "a" none none "A" ["1"]), "a A 1".toList)] (by
      intro p hp
      rw [List.mem_singleton.mp hp]
      refine ⟨"a A 1".toList, [], by decide, .inl rfl, .inl ?_⟩
      refine .word "a".toList " ".toList _ _ (by decide) (by decide) (by unfold Blank; decide) (by decide) ?_
      refine .word "A".toList " ".toList _ _ (by decide) (by decide) (by unfold Blank; decide) (by decide) ?_
      exact .word "1".toList [] _ _ (by decide) (by decide) (by unfold Blank; decide) (by decide) .nil)
    exact this
  · intro h
    refine h [] _ [] rfl ⟨by decide +kernel, fun hp => ?_, by decide +kernel, by decide +kernel⟩
    exact absurd hp (by decide +kernel)

/-- **C80** (disagreement) A line that is given up because of a word before the type that is neither a class nor a number still
changes the owner for the lines after it — and to the name as it is written, not completed by the suffix: the second address
below is lost, as out of the zone. -/
theorem C80_disagreement_owner :
    recordsRead "x." "x. SOA a\nb 1h IN A 1\n  A 2\n" = some [⟨["x".toList], .SOA, 1, 0, "a".toList⟩] ∧
    recordsRead "x." "x. SOA a\nb IN A 1\n  A 2\n" = some [⟨["x".toList], .SOA, 1, 0, "a".toList⟩, ⟨["x".toList, "b".toList], .A, 1, 0, "1".toList⟩,
      ⟨["x".toList, "b".toList], .A, 1, 0, "2".toList⟩] := by
  decide +kernel

end Groot
