import Verif.Model.Syntax

/-!
# The lexer (`dedukti-parse/src/lex.rs`)

The lexer is generated by the crate `logos`, which is not part of the repository, from the regular expressions attached to the
constructors of `Token`.  `lexStep` spells out what these denote: the longest match wins, a literal wins over a regular expression
of the same length, and a character at which nothing matches is an error token.  The rest of the input after a token
(`lex.remainder()`) is returned.
-/

namespace Kontroli

/-- `dedukti-parse/src/lex.rs` L10-83 (`Token`). -/
inductive Token where
  | def_
  | thm
  | inj
  | lbrk
  | rbrk
  | hash
  | lpar
  | rpar
  | colon
  | colonEq
  | arrow
  | fatArrow
  | longArrow
  | comma
  | dot
  | symb (s : PSymb)
  | comment (opened : Nat)
  | error
  deriving Repr, DecidableEq

/-- the class `[a-zA-Z0-9_!?]` (`dedukti-parse/src/lex.rs` L71, L114) -/
def identHead (c : Char) : Bool :=
  ('a' ≤ c && c ≤ 'z') || ('A' ≤ c && c ≤ 'Z') || ('0' ≤ c && c ≤ '9') || c == '_' || c == '!' || c == '?'

/-- the class `[a-zA-Z0-9_!?']` (`dedukti-parse/src/lex.rs` L71, L115) -/
def identTail (c : Char) : Bool := identHead c || c == '\''

/-- the class `[ \t\n\f]` (`dedukti-parse/src/lex.rs` L80) -/
def isSpace (c : Char) : Bool := c == ' ' || c == '\t' || c == '\n' || c == '\x0c'

/-- `remainder.find("|}")` and `bump` (`dedukti-parse/src/lex.rs` L121, L134-135): the text up to and including the first `|}`, and
the rest. -/
def splitClose : Str → Option (Str × Str)
  | [] => none
  | '|' :: '}' :: s => some (['|', '}'], s)
  | c :: s => match splitClose s with
    | none => none
    | some (a, b) => some (c :: a, b)

/-- The loop of `symb` (`dedukti-parse/src/lex.rs` L110-131), with fuel; `none` is the failure at an unclosed `{|`.  Returns the
remainder in both cases. -/
def dotted : Nat → PSymb → Str → Option PSymb × Str
  | 0, s, rest => (some s, rest)
  | n + 1, s, rest =>
    match rest with
    | '.' :: after =>
      match after with
      | '{' :: '|' :: am => match splitClose am with
        | none => (none, rest)
        | some (a, b) => dotted n (s.push ('{' :: '|' :: a)) b
      | c :: tail =>
        if identHead c then dotted n (s.push (c :: tail.takeWhile identTail)) (tail.dropWhile identTail) else (some s, rest)
      | [] => (some s, rest)
    | _ => (some s, rest)

/-- `symb` (`dedukti-parse/src/lex.rs` L110-131); the fuel suffices as every round of the loop consumes a character. -/
def lexSymb (name rest : Str) : Token × Str :=
  match dotted rest.length (PSymb.new name) rest with
  | (some s, rest) => (.symb s, rest)
  | (none, rest) => (.error, rest)

/-- `comment` (`dedukti-parse/src/lex.rs` L147-169): the number of comments that are still open, and the remainder. -/
def comment : Nat → Str → Nat × Str
  | 0, s => (0, s)
  | n + 1, [] => (n + 1, [])
  | n + 1, '(' :: ';' :: s => comment (n + 2) s
  | n + 1, ';' :: ')' :: s => comment n s
  | n + 1, _ :: s => comment (n + 1) s

/-- identifiers and keywords (`dedukti-parse/src/lex.rs` L11-21, L71) -/
def lexIdent (name rest : Str) : Token × Str :=
  if name = str "def" then (.def_, rest)
  else if name = str "thm" then (.thm, rest)
  else if name = str "injective" then (.inj, rest)
  else lexSymb name rest

/-- `comment1` (`dedukti-parse/src/lex.rs` L139-144), after `(;`. -/
def comment1 (s : Str) : Option Token × Str :=
  match comment 1 s with
  | (0, r) => (none, r)
  | (n + 1, r) => (some (.comment (n + 1)), r)

/-- `moustache` (`dedukti-parse/src/lex.rs` L133-137), after `{|`. -/
def moustache (s : Str) : Option Token × Str :=
  match splitClose s with
  | none => (some .error, s)
  | some (a, b) => (some (lexSymb ('{' :: '|' :: a) b).1, (lexSymb ('{' :: '|' :: a) b).2)

/-- whitespace, identifiers, keywords and errors (`dedukti-parse/src/lex.rs` L11-21, L71, L80-82) -/
def lexOther (c : Char) (s : Str) : Option Token × Str :=
  if isSpace c then (none, s.dropWhile isSpace)
  else if identHead c then
    (some (lexIdent (c :: s.takeWhile identTail) (s.dropWhile identTail)).1,
      (lexIdent (c :: s.takeWhile identTail) (s.dropWhile identTail)).2)
  else (some .error, s)

/-- One match of the lexer: `none` at the end of the input; otherwise the token, if the match is not skipped, and the remainder
(`dedukti-parse/src/lex.rs` L10-83). -/
def lexStep : Str → Option (Option Token × Str)
  | [] => none
  | '[' :: s => some (some .lbrk, s)
  | ']' :: s => some (some .rbrk, s)
  | '#' :: s => some (some .hash, s)
  | '(' :: ';' :: s => some (comment1 s)
  | '(' :: s => some (some .lpar, s)
  | ')' :: s => some (some .rpar, s)
  | ':' :: '=' :: s => some (some .colonEq, s)
  | ':' :: s => some (some .colon, s)
  | '-' :: '-' :: '>' :: s => some (some .longArrow, s)
  | '-' :: '>' :: s => some (some .arrow, s)
  | '=' :: '>' :: s => some (some .fatArrow, s)
  | ',' :: s => some (some .comma, s)
  | '.' :: s => some (some .dot, s)
  | '{' :: '|' :: s => some (moustache s)
  | c :: s => some (lexOther c s)

/-- The tokens of a text, with fuel. -/
def lexN : Nat → Str → List Token
  | 0, _ => []
  | n + 1, s => match lexStep s with
    | none => []
    | some (none, r) => lexN n r
    | some (some t, r) => t :: lexN n r

/-- `Token::lexer(s)` as an iterator; the fuel suffices as every match consumes a character. -/
def lex (s : Str) : List Token := lexN s.length s

end Kontroli
