import Verif.Model.Kernel

/-!
# Parsed terms and commands (`dedukti-parse/src/{symb,term,cmd}.rs`)

The string types `S`, `C`, `V` of the parser are all `Str` (they are `String` or `&str`, which denote the same strings);
the type of atoms `A` stays a parameter, because the parser can be used with and without scoping.
-/

namespace Kontroli

/-- string literals as lists of characters -/
abbrev str (s : String) : Str := s.toList

/-- `dedukti-parse/src/symb.rs` L8-13 (`Symb`). -/
structure PSymb where
  path : List Str
  name : Str
  deriving Repr, DecidableEq

/-- `dedukti-parse/src/symb.rs` L17-20 (`Symb::new`). -/
def PSymb.new (name : Str) : PSymb := ⟨[], name⟩

/-- `dedukti-parse/src/symb.rs` L32-34 (`Symb::push`). -/
def PSymb.push (s : PSymb) (name : Str) : PSymb := ⟨s.path ++ [s.name], name⟩

/-- `dedukti-parse/src/symb.rs` L37-42 (`Display for Symb`). -/
def PSymb.display (s : PSymb) : Str := s.path.foldr (fun p r => p ++ '.' :: r) s.name

/-- `dedukti-parse/src/term.rs` L33-40 (`Atom`), at `Symb<String>`. -/
inductive Atom where
  | const (c : PSymb)
  | var (n : Nat)
  | type
  deriving Repr, DecidableEq

mutual
  /-- `dedukti-parse/src/term.rs` L9-18 (`Term`, `App`). -/
  inductive PTerm (A : Type) where
    | app (head : PHead A) (args : List (PTerm A))
  /-- `dedukti-parse/src/term.rs` L22-29 (`AppH`). -/
  inductive PHead (A : Type) where
    | atom (a : A)
    | abst (x : Str) (ty : Option (PTerm A)) (tm : PTerm A)
    | prod (x : Option Str) (ty tm : PTerm A)
end

/-- head of a parsed term -/
def PTerm.head {A : Type} : PTerm A → PHead A
  | .app h _ => h

/-- arguments of a parsed term -/
def PTerm.args {A : Type} : PTerm A → List (PTerm A)
  | .app _ as => as

/-- `dedukti-parse/src/term.rs` L90-94 (`App::new`). -/
def PTerm.new {A : Type} (h : PHead A) : PTerm A := .app h []

/-- `app.args.push(tm)` (`dedukti-parse/src/term.rs` L355, L383). -/
def PTerm.pushArg {A : Type} : PTerm A → PTerm A → PTerm A
  | .app h as, t => .app h (as ++ [t])

/-- `dedukti-parse/src/cmd.rs` L27-34 (`Rule`). -/
structure PRule (Tm : Type) where
  ctx : List (Str × Option Tm)
  lhs : Tm
  rhs : Tm

/-- `dedukti-parse/src/cmd.rs` L7-12 (`Command`). -/
inductive PCmd (Tm : Type) where
  | intro (c : Str) (args : List (Str × Tm)) (it : Intro Tm)
  | rules (rs : List (PRule Tm))

/-- `dedukti-parse/src/cmd.rs` L57-63 (`Intro::map_type`). -/
def Intro.mapType {Tm : Type} (f : Tm → Tm) : Intro Tm → Intro Tm
  | .definition ty tm => .definition (ty.map f) tm
  | .theorem_ ty tm => .theorem_ (f ty) tm
  | .declaration inj ty => .declaration inj (f ty)

/-- `dedukti-parse/src/cmd.rs` L66-72 (`Intro::map_term`). -/
def Intro.mapTerm {Tm : Type} (f : Tm → Tm) : Intro Tm → Intro Tm
  | .definition ty tm => .definition ty (tm.map f)
  | .theorem_ ty tm => .theorem_ ty (f tm)
  | .declaration inj ty => .declaration inj ty

/-- `dedukti-parse/src/lib.rs` L313 (`Scoped`): commands whose atoms are scoped. -/
abbrev Scoped := PCmd (PTerm Atom)

end Kontroli
