import Verif.Model.Lex

/-!
# Independent notions for the lexer

Written without reference to the functions of the lexer, except for the type of tokens.
-/

namespace Kontroli

/-- Every `{|` in the text is followed by a `|}`. -/
def MoustacheClosed (s : Str) : Prop := ∀ a b, s = a ++ str "{|" ++ b → ∃ c d, b = c ++ str "|}" ++ d

/-- a sufficient check for `MoustacheClosed`, for examples -/
def moustacheCheck : Str → Bool
  | [] => true
  | '{' :: '|' :: s => (splitClose s).isSome && moustacheCheck s
  | _ :: s => moustacheCheck s

/-- beginning and end of a comment -/
inductive Mark where
  | opening
  | closing
  deriving Repr, DecidableEq

/-- The comment marks of a text, from left to right; marks do not overlap. -/
def marks : Str → List Mark
  | '(' :: ';' :: s => .opening :: marks s
  | ';' :: ')' :: s => .closing :: marks s
  | _ :: s => marks s
  | [] => []

/-- properly nested sequences of marks -/
inductive Balanced : List Mark → Prop where
  | nil : Balanced []
  | wrap {a b : List Mark} : Balanced a → Balanced b → Balanced (.opening :: a ++ .closing :: b)

/-- A comment: `(;`, a text with properly nested comments, and the `;)` that belongs to the beginning. -/
def IsComment (w : Str) : Prop := ∃ c a, w = str "(;" ++ c ++ str ";)" ∧ Balanced a ∧ marks (c ++ str ";)") = a ++ [.closing]

/-- the number of comments opened, minus those closed -/
def depth (ms : List Mark) : Nat := ms.count .opening - ms.count .closing

/-- At no point after the beginning, all comments are closed. -/
def StaysOpen (ms : List Mark) : Prop := ∀ p, p ≠ [] → p <+: ms → p.count .closing < p.count .opening

/-- the text made of some lines -/
def unlines (lines : List Str) : Str := (lines.map (· ++ ['\n'])).flatten

/-- letters, digits, `_`, `!` and `?` -/
def IdentStart (c : Char) : Prop := c.isAlphanum = true ∨ c = '_' ∨ c = '!' ∨ c = '?'

/-- an identifier: a nonempty word of letters, digits, `_`, `!`, `?` and (except at the beginning) `'` -/
def IsIdent (c : Str) : Prop := ∃ h t, c = h :: t ∧ IdentStart h ∧ ∀ d ∈ t, IdentStart d ∨ d = '\''

/-- an arbitrary text between `{|` and the first `|}` after it -/
def IsMoustache (c : Str) : Prop := ∃ m, c = str "{|" ++ m ++ str "|}" ∧ ∀ x y, m ++ str "|}" = x ++ str "|}" ++ y → y = []

/-- a component of a qualified name -/
def IsComp (c : Str) : Prop := IsIdent c ∨ IsMoustache c

/-- the keywords -/
def keywords : List Str := [str "def", str "thm", str "injective"]

/-- an unqualified name -/
def ValidName (c : Str) : Prop := IsComp c ∧ c ∉ keywords

/-- a qualified name; only its beginning can be confused with a keyword -/
def ValidSymb (s : PSymb) : Prop := (∀ c ∈ s.path, IsComp c) ∧ IsComp s.name ∧ ∀ c, (s.path ++ [s.name]).head? = some c → c ∉ keywords

end Kontroli
