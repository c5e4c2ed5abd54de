import Verif.Spec.Tokens
import Verif.Spec.Grammar
import Verif.Model.Parse

/-!
# Errors of a parser

Where an error is found, and which error it is, in terms of the grammar only: what is read can be continued to a text, unless it contains
an error, and the kind of the error is given by what could have followed in its place.
-/

namespace Kontroli

/-- The tokens can be continued to a text. -/
def Viable (ts : List Token) : Prop := ∃ us cs, GText (ts ++ us) cs

/-- A term may begin, or an argument may follow: all symbols are possible. -/
def TermHere (V : List Token → Prop) : Prop := ∀ s, V [.symb s]

/-- The kind of an error at a token, where `V` says which tokens could have followed in its place.

In terms, the errors are: a term is expected (`expectedIdentOrLPar`); `=>` after what is not a name (`anonymousLambda`); neither `->` nor `=>`
after the type of a variable (`abstWithoutRhs`); no closing parenthesis (`unclosedLPar` in a term, after which `->` could follow;
`expectedRPar` for an argument of a command, after which `:` could follow).  After terms in commands, it is told if `-->` is necessary
(`expectedLongArrow`), or `:=` (`expectedColonEq`); if there are several ways to go on, then the token is unexpected
(`unexpectedToken`), except that a `.` after the type of a variable of a rule is said to be in the place of a command (`expectedCmd`).
Where no term is possible, a symbol with path is an `unexpectedPath`, and a name an `unexpectedToken`; for any other token
it is told which one is necessary: only a name (`expectedIdent`), only `:` apart from arguments (`expectedColon`), also `:=`
(`expectedColonOrColonEq`), `]` (`expectedCommaOrRBrk`), or a command (`expectedCmd`). -/
def Explains (V : List Token → Prop) (tok : Token) : ParseError → Prop
  | .term .expectedIdentOrLPar => TermHere V ∧ V [.lpar] ∧ ¬ V [.arrow]
  | .term .anonymousLambda => V [.arrow] ∧ tok = .fatArrow
  | .term .abstWithoutRhs => V [.arrow] ∧ V [.fatArrow] ∧ ¬ V [.colon]
  | .term .unclosedLPar => V [.arrow] ∧ tok ≠ .fatArrow ∧ V [.rpar, .arrow]
  | .command .expectedRPar => V [.arrow] ∧ tok ≠ .fatArrow ∧ V [.rpar, .colon]
  | .command .expectedLongArrow => V [.arrow] ∧ tok ≠ .fatArrow ∧ V [.longArrow]
  | .command .expectedColonEq => V [.arrow] ∧ tok ≠ .fatArrow ∧ V [.colonEq] ∧ ¬ V [.dot]
  | .command .unexpectedToken => (V [.arrow] ∧ tok ≠ .fatArrow ∧ (V [.dot] ∨ V [.comma] ∧ tok ≠ .dot)) ∨ ∃ x, tok = nameTok x
  | .command .expectedCmd => (V [.arrow] ∧ V [.comma] ∧ tok = .dot) ∨ (¬ TermHere V ∧ (∀ s, tok ≠ .symb s) ∧ V [.hash])
  | .command .unexpectedPath => ∃ s, tok = .symb s ∧ s.path ≠ []
  | .command .expectedIdent => (∀ s, tok ≠ .symb s) ∧ (∀ x, V [nameTok x]) ∧ ∀ t, (∀ n, t ≠ .comment n) → V [t] → ∃ x, t = nameTok x
  | .command .expectedColon => ¬ TermHere V ∧ (∀ s, tok ≠ .symb s) ∧ V [.colon] ∧ ¬ V [.colonEq] ∧ ¬ V [.rbrk]
  | .command .expectedColonOrColonEq => ¬ TermHere V ∧ (∀ s, tok ≠ .symb s) ∧ V [.colon] ∧ V [.colonEq]
  | .command .expectedCommaOrRBrk => ¬ TermHere V ∧ (∀ s, tok ≠ .symb s) ∧ V [.rbrk]
  | .expectedInput => False

/-- The first error in a sequence of tokens: what is before the token can be continued to a text, but not with this token. -/
def FirstError (ts : List Token) (e : ParseError) : Prop :=
  ∃ pre tok post, ts = pre ++ tok :: post ∧ Viable pre ∧ ¬ Viable (pre ++ [tok]) ∧ Explains (fun us => Viable (pre ++ us)) tok e

/-- The tokens of some lines, where comments may extend over several lines, and the number of comments open at the end. -/
inductive LexesOpen : Nat → List Str → List Token → Nat → Prop
  | nil {d : Nat} : LexesOpen d [] [] d
  | cons {d e n : Nat} {l : Str} {ls : List Str} {ts us : List Token} : LexesFrom d l ts e → LexesOpen e ls us n →
      LexesOpen d (l :: ls) (ts ++ us) n

end Kontroli
