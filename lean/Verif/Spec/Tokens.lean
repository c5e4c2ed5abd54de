import Verif.Spec.Lex
import Verif.Spec.Grammar

/-!
# The words and lines of a text

What tokens a text consists of, line by line; written without reference to the functions of the lexer and of the parser.
-/

namespace Kontroli

/-- the words that are not names or keywords -/
def signs : List (Str × Token) :=
  [(str "[", .lbrk), (str "]", .rbrk), (str "#", .hash), (str "(", .lpar), (str ")", .rpar), (str ":=", .colonEq), (str ":", .colon),
    (str "-->", .longArrow), (str "->", .arrow), (str "=>", .fatArrow), (str ",", .comma), (str ".", .dot),
    (str "def", .def_), (str "thm", .thm), (str "injective", .inj)]

/-- a qualified name as it is written -/
def symbText (s : PSymb) : Str := (str ".").intercalate (s.path ++ [s.name])

/-- The words, with their tokens; the beginning of a comment has none. -/
inductive Lexeme : Str → Option Token → Prop
  | sign {w : Str} {t : Token} : (w, t) ∈ signs → Lexeme w (some t)
  | symb {s : PSymb} : ValidSymb s → Lexeme (symbText s) (some (.symb s))
  | comment : Lexeme (str "(;") none

/-- the longest word at the beginning of a text -/
def Longest (s w : Str) (k : Option Token) : Prop := Lexeme w k ∧ w <+: s ∧ ∀ w' k', Lexeme w' k' → w' <+: s → w'.length ≤ w.length

/-- no word is at the beginning of the text -/
def NoLexeme (s : Str) : Prop := ∀ w k, Lexeme w k → ¬ w <+: s

/-- A text closes `d` comments exactly at its end. -/
def ClosesAt (d : Nat) (c : Str) : Prop := (∃ e, c = e ++ str ";)") ∧ ∃ m, marks c = m ++ [.closing] ∧
  (∀ p, p <+: m → p.count .closing < d + p.count .opening) ∧ (marks c).count .closing = d + (marks c).count .opening

/-- In a text inside of `d` comments, these are never all closed, and there are `n` at its end. -/
def OpenAt (d : Nat) (c : Str) (n : Nat) : Prop :=
  (∀ p, p <+: marks c → p.count .closing < d + p.count .opening) ∧ n + (marks c).count .closing = d + (marks c).count .opening

/-- The beginning of a text: its token, if any, and the rest.  After a name, an unclosed `.{|` is an error; so are an unclosed `{|` and a
character that begins no word. -/
inductive Scans : Str → Option Token → Str → Prop
  | space {c : Char} {r : Str} : c ∈ [' ', '\t', '\n', '\x0c'] → Scans (c :: r) none r
  | comment {c r : Str} : ClosesAt 1 c → Scans (str "(;" ++ c ++ r) none r
  | word {w r : Str} {t : Token} : Longest (w ++ r) w (some t) → ((∃ s, t = .symb s) → ¬ str ".{|" <+: r) → Scans (w ++ r) (some t) r
  | cut {w r : Str} {s : PSymb} : Longest (w ++ r) w (some (.symb s)) → str ".{|" <+: r → Scans (w ++ r) (some .error) r
  | moustache {r : Str} : NoLexeme (str "{|" ++ r) → Scans (str "{|" ++ r) (some .error) r
  | unknown {c : Char} {r : Str} : NoLexeme (c :: r) → c ∉ [' ', '\t', '\n', '\x0c'] → ¬ str "{|" <+: c :: r →
      Scans (c :: r) (some .error) r

/-- the tokens of a text, and the number of comments that are not closed -/
inductive Lexes : Str → List Token → Nat → Prop
  | nil : Lexes [] [] 0
  | opened {c : Str} {n : Nat} : OpenAt 1 c n → Lexes (str "(;" ++ c) [] n
  | skip {s r : Str} {ts : List Token} {n : Nat} : Scans s none r → Lexes r ts n → Lexes s ts n
  | tok {s r : Str} {t : Token} {ts : List Token} {n : Nat} : Scans s (some t) r → Lexes r ts n → Lexes s (t :: ts) n

/-- the same for a text inside of comments -/
inductive LexesFrom : Nat → Str → List Token → Nat → Prop
  | out {s : Str} {ts : List Token} {n : Nat} : Lexes s ts n → LexesFrom 0 s ts n
  | closes {d n : Nat} {c s : Str} {ts : List Token} : ClosesAt (d + 1) c → Lexes s ts n → LexesFrom (d + 1) (c ++ s) ts n
  | stays {d n : Nat} {s : Str} : OpenAt (d + 1) s n → LexesFrom (d + 1) s [] n

/-- The tokens of some lines, where comments may extend over several lines, but all of them are closed in the end. -/
inductive LexesLines : Nat → List Str → List Token → Prop
  | nil : LexesLines 0 [] []
  | cons {d e : Nat} {l : Str} {ls : List Str} {ts us : List Token} : LexesFrom d l ts e → LexesLines e ls us →
      LexesLines d (l :: ls) (ts ++ us)

/-- The lines of a text: they end in `\n` or `\r\n`; the last one need not. -/
inductive LinesOf : Str → List Str → Prop
  | nil : LinesOf [] []
  | last {l : Str} : l ≠ [] → '\n' ∉ l → LinesOf l [l]
  | lf {l s : Str} {ls : List Str} : '\n' ∉ l → l.getLast? ≠ some '\r' → LinesOf s ls → LinesOf (l ++ str "\n" ++ s) (l :: ls)
  | crlf {l s : Str} {ls : List Str} : '\n' ∉ l → LinesOf s ls → LinesOf (l ++ str "\r\n" ++ s) (l :: ls)

end Kontroli
