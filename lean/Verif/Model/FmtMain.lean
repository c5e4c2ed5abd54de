import Verif.Model.Fmt
import Verif.Model.Files

/-!
# The formatter as a program (`kofmt/src/main.rs`)

Arguments are given as a structure instead of being read by `clap`; messages to the log are left out.  A file that is not UTF-8 is one that
cannot be read (the code panics instead of returning an error with `--parse lazy`).
-/

namespace Kontroli

/-- `Opt` (`kofmt/src/main.rs` L19-36) without the files; `some true` is `--parse lazy`, `some false` is `--parse strict`. -/
structure FmtOpt where
  parse : Option Bool
  scope : Bool
  share : Bool
  quiet : Bool
  deriving Repr, DecidableEq

/-- How the program ends: `Ok(())`, `Err(..)` of `main`, or a panic. -/
inductive FmtEnd where
  | done
  | io
  | panic
  deriving Repr, DecidableEq

/-- The loop of `print_tokens` (`kofmt/src/main.rs` L58-70): what is printed, and whether the end is reached.  Before the panic at an error token, the
space (L47-49) is printed. -/
def fmtTokens (quiet : Bool) : Bool → List Token → Str × Bool
  | _, [] => ([], true)
  | space, t :: ts =>
    if quiet then fmtTokens quiet space ts
    else match printToken t space with
      | (some s, space) => (s ++ (fmtTokens quiet space ts).1, (fmtTokens quiet space ts).2)
      | (none, _) => (if space && !noSpaceBefore t then str " " else [], false)

/-- `print_cmds` (`kofmt/src/main.rs` L72-83). -/
def fmtCmds {A : Type} (quiet : Bool) (da : A → Str) : List (POut ParseError (PCmd (PTerm A))) → Str × Bool
  | [] => ([], true)
  | .ok c :: cs => ((if quiet then [] else c.display (PTerm.display da)) ++ (fmtCmds quiet da cs).1, (fmtCmds quiet da cs).2)
  | .err _ :: _ => ([], false)
  | .panic :: _ => ([], false)

/-- One file (`kofmt/src/main.rs` L91-125).  For the number of items of the lazy parser see `kofmtParse`.  With `--share`, names are references into
the text instead of copies (L106-118). -/
def fmtFile (opt : FmtOpt) (text : Str) : Str × Bool :=
  match opt.parse with
  | some true =>
    if opt.scope then fmtCmds opt.quiet Atom.display ((LazyP.new (splitLines [] text)).items scopeAtom (text.length + 3))
    else fmtCmds opt.quiet PSymb.display ((LazyP.new (splitLines [] text)).items scopeSymb (text.length + 3))
  | some false =>
    if opt.share then
      if opt.scope then fmtCmds opt.quiet Atom.display (strict scopeAtom text) else fmtCmds opt.quiet PSymb.display (strict scopeSymb text)
    else
      if opt.scope then fmtCmds opt.quiet Atom.display (strict scopeAtom text) else fmtCmds opt.quiet PSymb.display (strict scopeSymb text)
  | none => fmtTokens opt.quiet false (lex text)

/-- `main` (`kofmt/src/main.rs` L85-128): what is printed, and how the program ends. -/
def fmtMain (opt : FmtOpt) (fs : FileSystem) : List Str → Str × FmtEnd
  | [] => ([], .done)
  | path :: paths =>
    match fs path with
    | none => ([], .io)
    | some text =>
      match fmtFile opt text with
      | (s, true) => (s ++ (fmtMain opt fs paths).1, (fmtMain opt fs paths).2)
      | (s, false) => (s, .panic)

end Kontroli
