import Verif.Model.Basic

/-!
# The zone-file lexer (src/zone-file-parser.cpp:22-40)

`lex::lexertl` matches all rules at the current position and takes the longest match; among equally long
matches the rule added first wins.
-/

namespace Groot

/-- `enum TokenIds` (src/zone-file-parser.cpp:22-31). -/
inductive TokId where
  | COMMENT | LPAREN | RPAREN | TEXT_WORD | WORD | EOL | WHITESPACE | OTHER
  deriving Repr, DecidableEq, Inhabited

/-- A token: its id and its text. -/
structure Tok where
  id : TokId
  text : Str
  deriving Repr, DecidableEq, Inhabited

namespace Lexer

/-- The class `[^ ;\t\r\n\(\)\"]` of the word rule (src/zone-file-parser.cpp:37). -/
def wordChar (c : Char) : Bool :=
  !(c == ' ' || c == ';' || c == '\t' || c == '\r' || c == '\n' || c == '(' || c == ')' || c == '"')

/-- States of the deterministic automaton of `((\\\()*(\\\))*[^ ;\t\r\n\(\)\"]+)+`
(src/zone-file-parser.cpp:37).  `s` start of a group; `bs` just after a backslash that may start `\(` or
`\)`, or may itself be a word character; `w` after a word character; `rp` after `\)` with no word character
yet in this group; `rb` after a backslash following `rp`. -/
inductive WState where
  | s | bs | w | rp | rb
  deriving Repr, DecidableEq

/-- Transition of the word automaton. -/
def wstep : WState → Char → Option WState
  | .s, c => if c = '\\' then some .bs else if wordChar c then some .w else none
  | .bs, c =>
    if c = '(' then some .s else if c = ')' then some .rp
    else if c = '\\' then some .bs else if wordChar c then some .w else none
  | .w, c => if c = '\\' then some .bs else if wordChar c then some .w else none
  | .rp, c => if c = '\\' then some .rb else if wordChar c then some .w else none
  | .rb, c =>
    if c = ')' then some .rp else if c = '\\' then some .bs else if wordChar c then some .w else none

/-- Accepting states of the word automaton: the last character read is a word character of the group. -/
def waccept : WState → Bool
  | .bs | .w | .rb => true
  | .s | .rp => false

/-- Longest match of the word rule: `best` is the longest accepted length so far, `n` the characters read. -/
def wordLoop : WState → Nat → Nat → Str → Nat
  | _, _, best, [] => best
  | q, n, best, c :: cs =>
    match wstep q c with
    | none => best
    | some q' => wordLoop q' (n + 1) (if waccept q' then n + 1 else best) cs

/-- Length of the longest match of `\"[^\"]*\"` (0 for no match). -/
def textLen : Str → Nat
  | '"' :: cs => if cs.contains '"' then (cs.takeWhile (· != '"')).length + 2 else 0
  | _ => 0

/-- Length of the longest match of `;[^\n]+`. -/
def commentLen : Str → Nat
  | ';' :: cs => let n := (cs.takeWhile (· != '\n')).length; if n = 0 then 0 else n + 1
  | _ => 0

/-- Length of the longest match of the word rule. -/
def wordLen (s : Str) : Nat := wordLoop .s 0 0 s

/-- Length of a match of a one-character rule. -/
def charLen (p : Char → Bool) : Str → Nat
  | c :: _ => if p c then 1 else 0
  | [] => 0

/-- The rules in the order they are added (src/zone-file-parser.cpp:36-38), with the length of their
longest match. -/
def rules (s : Str) : List (TokId × Nat) :=
  [(.TEXT_WORD, textLen s), (.COMMENT, commentLen s), (.WORD, wordLen s),
   (.LPAREN, charLen (· == '(') s), (.RPAREN, charLen (· == ')') s), (.EOL, charLen (· == '\n') s),
   (.WHITESPACE, (s.takeWhile (fun c => c == ' ' || c == '\t')).length), (.OTHER, charLen (· != '\n') s)]

/-- The longest match; the earliest rule among equals. -/
def best (s : Str) : TokId × Nat :=
  (rules s).foldl (fun b r => if r.2 > b.2 then r else b) (.OTHER, 0)

/-- `lex::tokenize` (src/zone-file-parser.cpp:405) up to the parser callback: the sequence of tokens.
The first argument bounds the number of tokens; the length of the input suffices. -/
def tokensFuel : Nat → Str → List Tok
  | 0, _ => []
  | _, [] => []
  | fuel + 1, c :: cs =>
    let b := best (c :: cs)
    ⟨b.1, (c :: cs).take b.2⟩ :: tokensFuel fuel ((c :: cs).drop b.2)

/-- The tokens of a file. -/
def tokens (s : Str) : List Tok := tokensFuel s.length s

end Lexer

end Groot
