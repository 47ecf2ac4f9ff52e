import Verif.Spec.Final

/-!
# Specification of aliases, and of resolutions looked at up to their end

Nothing here mentions classes, graphs or paths of graphs.
-/

namespace Groot.Spec

/-- A resolution of the question, without repeating itself, to its end or to an alias that was asked for. -/
def Watched (w : World) (a0 : Ask) (p : Trail) : Prop :=
  Complete w a0 p ∨
    Route w [] a0 p ∧ (visited a0 p).dropLast.Nodup ∧ ∃ s a sd as, p.getLast? = some (s, a, sd) ∧ Says w s a as ∧ (Visit.mk s a as).Stops

/-- In the course of the resolution a question for the name `k` is rewritten, and later one for the name `n` is asked. -/
def Aliased (w : World) (k n : Name) (p : Trail) : Prop :=
  ∃ pre x mid y post, p = pre ++ x :: mid ++ y :: post ∧ Kind w x.1 x.2.1 .REWRITE ∧ x.2.1.name = k ∧ y.2.1.name = n

/-- The words of a report for the name `k`: the name (then `j` is `k`), or the class of the names beneath `j`. -/
def Shown (al : Str) (k j : Name) : Prop := al = present k ∧ j = k ∨ ∃ l rest, k = j ++ l :: rest ∧ al = showAsk ⟨j, 0, true⟩

/-- In the course of the resolution two questions, for which `a` and `b` are words, are rewritten with the same record, the second name at least as long
(in labels, not counting those that `a` and `b` leave open), and `used` are the records used before. -/
def Recurs (w : World) (p : Trail) (a b : Str) (used : List Str) : Prop :=
  ∃ pre x mid y post r r' j j', p = pre ++ x :: mid ++ y :: post ∧ RewrittenWith w x.1 x.2.1 r ∧ RewrittenWith w y.1 y.2.1 r' ∧ key r = key r' ∧
    Shown a x.2.1.name j ∧ Shown b y.2.1.name j' ∧ j.length ≤ j'.length ∧
    ∀ t, t ∈ used ↔ ∃ z ∈ pre ++ x :: mid, ∃ r, RewrittenWith w z.1 z.2.1 r ∧ t = showRecord r

/-- In the course of the resolution two questions are rewritten with the same record, the second name at least as long (in labels). -/
def Revisits (w : World) (p : Trail) : Prop :=
  ∃ pre x mid y post r r', p = pre ++ x :: mid ++ y :: post ∧ RewrittenWith w x.1 x.2.1 r ∧ RewrittenWith w y.1 y.2.1 r' ∧ key r = key r' ∧
    x.2.1.name.length ≤ y.2.1.name.length

end Groot.Spec
