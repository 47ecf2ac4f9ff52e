import Verif.Model.Lexer

/-!
# Specification of the zone-file tokens: the regular expressions, read as sets of strings, and maximal munch
-/

namespace Groot.Spec

/-- A character that is not special: not one of space ; tab cr newline ( ) ". -/
def Ordinary (c : Char) : Prop := c ∉ [' ', ';', '\t', '\r', '\n', '(', ')', '"']

instance (c : Char) : Decidable (Ordinary c) := by unfold Ordinary; infer_instance

/-- The text `t` repeated `n` times. -/
def times (n : Nat) (t : Str) : Str := (List.replicate n t).flatten

/-- A group of the word rule: escaped left parentheses, escaped right parentheses, and at least one plain character. -/
def WordGroup (g : Str) : Prop :=
  ∃ a b c, g = times a ['\\', '('] ++ times b ['\\', ')'] ++ c ∧ c ≠ [] ∧ ∀ x ∈ c, Ordinary x

/-- The texts of each kind of token. -/
def Text : TokId → Str → Prop
  | .TEXT_WORD, s => ∃ body, s = '"' :: (body ++ ['"']) ∧ '"' ∉ body
  | .COMMENT, s => ∃ body, s = ';' :: body ∧ body ≠ [] ∧ '\n' ∉ body
  | .WORD, s => ∃ groups, s = groups.flatten ∧ groups ≠ [] ∧ ∀ g ∈ groups, WordGroup g
  | .LPAREN, s => s = ['(']
  | .RPAREN, s => s = [')']
  | .EOL, s => s = ['\n']
  | .WHITESPACE, s => s ≠ [] ∧ ∀ c ∈ s, c = ' ' ∨ c = '\t'
  | .OTHER, s => ∃ c, s = [c] ∧ c ≠ '\n'

/-- The kinds in order of priority. -/
def kinds : List TokId := [.TEXT_WORD, .COMMENT, .WORD, .LPAREN, .RPAREN, .EOL, .WHITESPACE, .OTHER]

/-- `k` has priority over `k'`. -/
def Before (k k' : TokId) : Prop := kinds.idxOf k < kinds.idxOf k'

/-- The file `s` is cut into tokens: at each point the longest text of any kind is taken, and of the kinds with that text
the one of highest priority. -/
inductive Munch : Str → List Tok → Prop where
  | nil : Munch [] []
  | cons (k : TokId) (t rest : Str) (ts : List Tok) : Text k t → (∀ k' p, Text k' p → p <+: t ++ rest → p.length ≤ t.length) →
      (∀ k', Before k' k → ¬ Text k' t) → Munch rest ts → Munch (t ++ rest) (⟨k, t⟩ :: ts)

end Groot.Spec
