import Verif.Model.Parse
import Verif.Model.Text

/-!
# Printing (`dedukti-parse/src/{lex,term,cmd}.rs`, `kofmt/src/main.rs`)

`Display` implementations write to a formatter, which is an accumulated string here.  The implementation for tokens fails on error
tokens, on which `print!` panics: `none`.
-/

namespace Kontroli

/-- `Display for Token` (`dedukti-parse/src/lex.rs` L85-108). -/
def Token.display : Token → Option Str
  | .def_ => some (str "def")
  | .thm => some (str "thm")
  | .inj => some (str "injective")
  | .lbrk => some (str "[")
  | .rbrk => some (str "]")
  | .hash => some (str "#")
  | .lpar => some (str "(")
  | .rpar => some (str ")")
  | .colon => some (str ":")
  | .colonEq => some (str ":=")
  | .arrow => some (str "->")
  | .fatArrow => some (str "=>")
  | .longArrow => some (str "-->")
  | .comma => some (str ",")
  | .dot => some (str ".")
  | .symb s => some s.display
  | .comment _ => some (str " ")
  | .error => none

/-- `no_space_after` (`kofmt/src/main.rs` L38-40). -/
def noSpaceAfter : Token → Bool
  | .lbrk | .lpar | .dot => true
  | _ => false

/-- `no_space_before` (`kofmt/src/main.rs` L42-44). -/
def noSpaceBefore : Token → Bool
  | .rbrk | .rpar | .comma | .dot => true
  | _ => false

/-- `print_token` (`kofmt/src/main.rs` L46-56): what is printed, and the flag `space`. -/
def printToken (token : Token) (space : Bool) : Option Str × Bool :=
  (token.display.map fun s => (if space && !noSpaceBefore token then str " " else []) ++ s ++
    (if token = .dot then str "\n" else []), !noSpaceAfter token)

/-- The loop of `print_tokens` (`kofmt/src/main.rs` L58-70), without `--quiet`. -/
def printTokensFrom : Bool → List Token → Option Str
  | _, [] => some []
  | space, t :: ts => match (printToken t space).1, printTokensFrom (printToken t space).2 ts with
    | some s, some r => some (s ++ r)
    | _, _ => none

/-- `print_tokens` (`kofmt/src/main.rs` L58-70). -/
def printTokens (ts : List Token) : Option Str := printTokensFrom false ts

/-- Lexing mode of the formatter for one file (`kofmt/src/main.rs` L123-127). -/
def kofmt (text : Str) : Option Str := printTokens (lex text)

section
variable {A : Type} (da : A → Str)

mutual
  /-- `Display for App` (`dedukti-parse/src/term.rs` L42-54). -/
  def PTerm.display : PTerm A → Str
    | .app head args =>
      (if args.isEmpty then [] else str "(") ++ head.display ++ displayArgs args ++ (if args.isEmpty then [] else str ")")

  /-- `Display for AppH` (`dedukti-parse/src/term.rs` L66-76). -/
  def PHead.display : PHead A → Str
    | .atom a => da a
    | .abst x (some ty) tm => str "(" ++ x ++ str " : " ++ ty.display ++ str " => " ++ tm.display ++ str ")"
    | .abst x none tm => str "(" ++ x ++ str " => " ++ tm.display ++ str ")"
    | .prod none ty tm => str "(" ++ ty.display ++ str " -> " ++ tm.display ++ str ")"
    | .prod (some x) ty tm => str "(" ++ x ++ str " : " ++ ty.display ++ str " -> " ++ tm.display ++ str ")"

  /-- the loop over the arguments (`dedukti-parse/src/term.rs` L48) -/
  def displayArgs : List (PTerm A) → Str
    | [] => []
    | a :: as => str " " ++ a.display ++ displayArgs as
end

end

section
variable {Tm : Type} (d : Tm → Str)

/-- the loop over the context in `Display for Rule` (`dedukti-parse/src/cmd.rs` L106-110) -/
def displayCtx : List (Str × Option Tm) → Str
  | [] => []
  | (x, ty) :: ctx => x ++ (match ty with
      | some ty => str ": " ++ d ty
      | none => []) ++ (if ctx.isEmpty then [] else str ", ") ++ displayCtx ctx

/-- `Display for Rule` (`dedukti-parse/src/cmd.rs` L102-113). -/
def PRule.display (r : PRule Tm) : Str := str "[" ++ displayCtx d r.ctx ++ str "] " ++ d r.lhs ++ str " --> " ++ d r.rhs

/-- `Display for Command` (`dedukti-parse/src/cmd.rs` L75-100). -/
def PCmd.display : PCmd Tm → Str
  | .intro x args it =>
    (match it with
      | .theorem_ _ _ => str "thm "
      | .definition _ _ => str "def "
      | .declaration true _ => str "injective "
      | .declaration false _ => []) ++ x ++ args.flatMap (fun (x, ty) => str " (" ++ x ++ str " : " ++ d ty ++ str ")") ++
    (match it with
      | .definition ty tm => (match ty with
          | some ty => str " : " ++ d ty
          | none => []) ++ (match tm with
          | some tm => str " := " ++ d tm
          | none => [])
      | .theorem_ ty tm => str " : " ++ d ty ++ str " := " ++ d tm
      | .declaration _ ty => str " : " ++ d ty)
  | .rules rs => rs.flatMap (PRule.display d)

end

/-- a term without scopes, as text -/
abbrev PTerm.show (t : PTerm PSymb) : Str := t.display PSymb.display

/-- a command without scopes, as text -/
abbrev PCmd.show (c : PCmd (PTerm PSymb)) : Str := c.display PTerm.show

/-- `Display for Atom` (`dedukti-parse/src/term.rs` L56-64) -/
def Atom.display : Atom → Str
  | .const c => c.display
  | .var n => Nat.toDigits 10 n
  | .type => str "Type"

/-- `print_cmds` (`kofmt/src/main.rs` L72-83), without `--quiet`: what is printed, and whether the end is reached; `unwrap` panics on an error.
Nothing is printed between commands. -/
def printParsed {A : Type} (da : A → Str) : List (POut ParseError (PCmd (PTerm A))) → Str × Bool
  | [] => ([], true)
  | .ok c :: cs => (c.display (PTerm.display da) ++ (printParsed da cs).1, (printParsed da cs).2)
  | .err _ :: _ => ([], false)
  | .panic :: _ => ([], false)

/-- The parsing mode of the formatter for one file (`kofmt/src/main.rs` L91-121): `--parse lazy` or `--parse strict`, with or without
`--scope`.  `--share` makes no difference for the output.  A lazy parser may go on for ever after an error, at which the program has ended;
so many items are taken that the first error is among them (see `items_textOf`). -/
def kofmtParse (lazy scope : Bool) (text : Str) : Str × Bool :=
  match lazy, scope with
  | false, false => printParsed PSymb.display (strict scopeSymb text)
  | false, true => printParsed Atom.display (strict scopeAtom text)
  | true, false => printParsed PSymb.display ((LazyP.new (splitLines [] text)).items scopeSymb (text.length + 3))
  | true, true => printParsed Atom.display ((LazyP.new (splitLines [] text)).items scopeAtom (text.length + 3))

end Kontroli
