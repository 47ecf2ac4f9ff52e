import Verif.Model.Main
import Verif.Lemmas.Budget
import Mathlib.Tactic.SplitIfs

/-!
# Linting does not influence what is loaded
-/

namespace Groot.Parser

/-- The state without the lint issues. -/
def PState.quiet (st : PState) : PState := { st with lint := false, issues := [] }

/-- A result without the lint issues. -/
def hush (r : Res PState) : Res PState := r >>= fun s => .ok s.quiet

def hush2 (r : Res (PState × Bool)) : Res (PState × Bool) := r >>= fun s => .ok (s.1.quiet, s.2)

theorem addIssue_quiet (st : PState) (a b c : Str) : addIssue st.quiet a b c = (addIssue st a b c).quiet := by
  unfold addIssue PState.quiet
  dsimp only
  cases st.lint <;> simp

theorem count_quiet (st : PState) (k : Str) : st.quiet.count k = (st.count k).quiet := rfl

theorem lengthIssue_quiet (st : PState) (rr : RR) (a b c : Str) : lengthIssue st.quiet rr a b c = hush (lengthIssue st rr a b c) := by
  unfold lengthIssue hush
  cases rr.toStr with
  | ok s => simp only [Res.ok_bind]; split_ifs <;> rw [count_quiet, addIssue_quiet]
  | _ => rfl

theorem rejected_quiet (st : PState) (rr : RR) (code : AddCode) (node : Option Nat) : rejected st.quiet rr code node = hush (rejected st rr code node) := by
  unfold rejected hush
  have hz : st.quiet.zone = st.zone := rfl
  rw [hz]
  cases code with
  | SUCCESS => rfl
  | DUPLICATE =>
    dsimp only
    cases rr.toStr with
    | ok s => simp only [Res.ok_bind]; rw [count_quiet, addIssue_quiet]
    | _ => rfl
  | _ =>
    dsimp only
    cases node with
    | none => rfl
    | some v =>
      dsimp only
      cases st.zone.rrsAt v with
      | nil => rfl
      | cons first rest =>
        dsimp only
        cases first.toStr with
        | ok p =>
          simp only [Res.ok_bind]
          cases rr.toStr with
          | ok s => simp only [Res.ok_bind]; rw [count_quiet, addIssue_quiet]
          | _ => rfl
        | _ => rfl

theorem addRR_quiet (thr : Nat) (st : PState) (rr : RR) : addRR thr st.quiet rr = hush (addRR thr st rr) := by
  unfold addRR
  dsimp only
  by_cases h1 : (!(lengthCheck rr.name).1) = true
  · rw [if_pos h1, if_pos h1]
    exact lengthIssue_quiet { st with rrsParsed := st.rrsParsed + 1 } _ _ _ _
  · rw [if_neg h1, if_neg h1]
    by_cases h2 : (decide (rr.type = .NS ∨ rr.type = .CNAME ∨ rr.type = .DNAME) && !(lengthCheck (stringToLabels rr.rdata)).1) = true
    · rw [if_pos h2, if_pos h2]
      exact lengthIssue_quiet { st with rrsParsed := st.rrsParsed + 1 } _ _ _ _
    · rw [if_neg h2, if_neg h2]
      have hz : st.quiet.zone = st.zone := rfl
      rw [hz]
      unfold hush
      cases st.zone.membership rr with
      | ok b =>
        simp only [Res.ok_bind]
        cases b with
        | true =>
          rw [if_pos rfl, if_pos rfl]
          rcases hr : st.zone.addRecord thr rr with ⟨z, code, node⟩
          dsimp only
          have key : rejected { (st.quiet) with rrsParsed := st.rrsParsed + 1, zone := z } rr code node =
              hush (rejected { st with rrsParsed := st.rrsParsed + 1, zone := z } rr code node) :=
            rejected_quiet { st with rrsParsed := st.rrsParsed + 1, zone := z } rr code node
          cases code with
          | SUCCESS =>
            cases node with
            | some v => rfl
            | none => exact key
          | _ => exact key
        | false =>
          rw [if_neg (by simp), if_neg (by simp)]
          cases rr.toStr with
          | ok s =>
            simp only [Res.ok_bind]
            exact congrArg Res.ok (addIssue_quiet (PState.count { st with rrsParsed := st.rrsParsed + 1 } _) _ _ _)
          | _ => rfl
      | _ => rfl

theorem complete_quiet (st : PState) (type : Str) (f : FState) :
    complete st.quiet type f = ((complete st type f).1.quiet, (complete st type f).2) := by
  unfold complete PState.quiet
  dsimp only
  split_ifs <;> rfl

theorem processRecord_quiet (thr : Nat) (st : PState) : processRecord thr st.quiet = hush (processRecord thr st) := by
  unfold processRecord
  have hc : st.quiet.cur = st.cur := rfl
  rw [hc]
  cases typeIndex st.cur with
  | none => rfl
  | some ti =>
    dsimp only
    by_cases h1 : ti > 3
    · rw [if_pos h1, if_pos h1]; rfl
    · rw [if_neg h1, if_neg h1]
      show (fieldLoop ti 0 st.cur { ttl := st.defTtl, defName := st.defName, defTtl := st.defTtl } >>= _) = _
      cases fieldLoop ti 0 st.cur { ttl := st.defTtl, defName := st.defName, defTtl := st.defTtl } with
      | ok x =>
        obtain ⟨f, good⟩ := x
        simp only [Res.ok_bind]
        cases good with
        | false => rfl
        | true =>
          simp only [Bool.not_true, Bool.false_eq_true, if_false]
          rw [complete_quiet]
          dsimp only
          rw [addRR_quiet]
          unfold hush
          cases addRR thr (complete st (toUpper (st.cur.getD ti [])) f).1 (complete st (toUpper (st.cur.getD ti [])) f).2 with
          | ok s => rfl
          | _ => rfl
      | _ => rfl

theorem endOfRecord_quiet (thr : Nat) (st : PState) : endOfRecord thr st.quiet = hush2 (endOfRecord thr st) := by
  unfold endOfRecord
  have hc : st.quiet.cur = st.cur := rfl
  rw [hc]
  have hp : ∀ s : PState, (processRecord thr s.quiet >>= fun s => Res.ok (s, true)) = hush2 (processRecord thr s >>= fun s => Res.ok (s, true)) := by
    intro s
    rw [processRecord_quiet]
    unfold hush hush2
    cases processRecord thr s <;> rfl
  cases hcur : st.cur with
  | nil => rfl
  | cons first rest =>
    dsimp only
    by_cases h1 : first = "$ORIGIN".toList
    · rw [if_pos h1, if_pos h1]
      cases rest <;> rfl
    rw [if_neg h1, if_neg h1]
    by_cases h2 : first = "$INCLUDE".toList
    · rw [if_pos h2, if_pos h2]; rfl
    rw [if_neg h2, if_neg h2]
    by_cases h3 : first = "$TTL".toList
    · rw [if_pos h3, if_pos h3]
      cases rest with
      | nil => rfl
      | cons s rest =>
        dsimp only
        unfold hush2
        cases stoi s <;> rfl
    rw [if_neg h3, if_neg h3]
    by_cases h4 : first = "@".toList
    · rw [if_pos h4, if_pos h4]
      have hs : st.quiet.suffix = st.suffix := rfl
      rw [hs]
      by_cases h5 : st.suffix.length > 0
      · rw [if_pos h5, if_pos h5]
        exact hp { st with cur := st.suffix :: rest, defName := stringToLabels st.suffix }
      · rw [if_neg h5, if_neg h5]; rfl
    rw [if_neg h4, if_neg h4]
    have := hp st
    exact this

theorem step_quiet (thr : Nat) (st : PState) (t : Tok) : step thr st.quiet t = hush2 (step thr st t) := by
  unfold step
  have e1 : st.quiet.paren = st.paren := rfl
  have e2 : st.quiet.cur = st.cur := rfl
  cases t.id with
  | LPAREN => rfl
  | RPAREN =>
    dsimp only
    rw [e1]
    by_cases h : st.paren - 1 < 0
    · rw [if_pos h, if_pos h]; rfl
    · rw [if_neg h, if_neg h]; rfl
  | WHITESPACE =>
    dsimp only
    rw [e2]
    by_cases h : st.cur.length = 0
    · rw [if_pos h, if_pos h]; rfl
    · rw [if_neg h, if_neg h]; rfl
  | EOL =>
    dsimp only
    rw [e1, e2]
    by_cases h : st.paren = 0 ∧ st.cur.length > 0
    · rw [if_pos h, if_pos h]
      exact endOfRecord_quiet thr { st with line := st.line + 1 }
    · rw [if_neg h, if_neg h]; rfl
  | _ => rfl

theorem run_quiet (thr : Nat) (ts : List Tok) (st : PState) : run thr st.quiet ts = hush (run thr st ts) := by
  induction ts generalizing st with
  | nil => rfl
  | cons t ts ih =>
    unfold run
    rw [step_quiet]
    unfold hush2
    cases step thr st t with
    | ok r =>
      simp only [Res.ok_bind]
      cases r.2 with
      | true => rw [if_pos rfl, if_pos rfl]; exact ih r.1
      | false => rw [if_neg (by simp), if_neg (by simp)]; rfl
    | _ => rfl

end Groot.Parser

namespace Groot

open Parser

/-- What was loaded, without the lint issues. -/
def Loaded.quiet (d : Loaded) : Loaded := { d with issues := [] }

theorem loadZone_lint (thr : Nat) (lint lint' : Bool) (d d' : Loaded) (h : d.quiet = d'.quiet) (file contents ns origin : Str) :
    (loadZone thr lint d file contents ns origin >>= fun x => Res.ok x.quiet) =
      (loadZone thr lint' d' file contents ns origin >>= fun x => Res.ok x.quiet) := by
  have key : ∀ (lint : Bool) (d : Loaded), (loadZone thr lint d file contents ns origin >>= fun x => Res.ok x.quiet) =
      (loadZone thr false d.quiet file contents ns origin >>= fun x => Res.ok x.quiet) := by
    intro lint d
    unfold loadZone
    dsimp only
    have e := run_quiet thr (Lexer.tokens contents) { suffix := origin, lg := d.lg, zone := Zone.init (d.ctx.counter + 1), lint := lint }
    have e' : ({ suffix := origin, lg := d.quiet.lg, zone := Zone.init (d.quiet.ctx.counter + 1), lint := false } : PState) =
        ({ suffix := origin, lg := d.lg, zone := Zone.init (d.ctx.counter + 1), lint := lint } : PState).quiet := rfl
    rw [e', e]
    unfold hush
    cases run thr { suffix := origin, lg := d.lg, zone := Zone.init (d.ctx.counter + 1), lint := lint } (Lexer.tokens contents) with
    | ok s => rfl
    | _ => rfl
  rw [key lint d, key lint' d', h]

theorem setContext_lint (thr : Nat) (lint lint' : Bool) (read : Str → Str) (exists_ : Str → Bool) (m : Driver.Meta) :
    (setContext thr lint read exists_ m >>= fun x => Res.ok x.quiet) = (setContext thr lint' read exists_ m >>= fun x => Res.ok x.quiet) := by
  unfold setContext
  cases Driver.sanityCheck exists_ m with
  | ok u =>
    simp only [Res.ok_bind]
    have key : ∀ (zs : List Driver.UZone) (d d' : Loaded), d.quiet = d'.quiet →
        (zs.foldlM (fun d z => loadZone thr lint d (z.fileName.getD []) (read (z.fileName.getD [])) (toLower (z.nameServer.getD []))
          (toLower (z.origin.getD []))) d >>= fun x => Res.ok x.quiet) =
        (zs.foldlM (fun d z => loadZone thr lint' d (z.fileName.getD []) (read (z.fileName.getD [])) (toLower (z.nameServer.getD []))
          (toLower (z.origin.getD []))) d' >>= fun x => Res.ok x.quiet) := by
      intro zs
      induction zs with
      | nil => intro d d' h; simpa [List.foldlM] using h
      | cons z zs ih =>
        intro d d' h
        rw [List.foldlM_cons, List.foldlM_cons]
        have e := loadZone_lint thr lint lint' d d' h (z.fileName.getD []) (read (z.fileName.getD [])) (toLower (z.nameServer.getD [])) (toLower (z.origin.getD []))
        revert e
        generalize loadZone thr lint d (z.fileName.getD []) (read (z.fileName.getD [])) (toLower (z.nameServer.getD [])) (toLower (z.origin.getD [])) = a
        generalize loadZone thr lint' d' (z.fileName.getD []) (read (z.fileName.getD [])) (toLower (z.nameServer.getD [])) (toLower (z.origin.getD [])) = b
        intro e
        cases a with
        | ok a => cases b with
          | ok b =>
            simp only [Res.ok_bind] at e ⊢
            injection e with e
            exact ih a b e
          | _ => cases e
        | _ => cases b with
          | ok b => cases e
          | _ => first | rfl | cases e
    exact key _ _ _ rfl
  | _ => rfl

end Groot
