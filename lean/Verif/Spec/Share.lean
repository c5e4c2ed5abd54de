import Verif.Model.Share
import Verif.Spec.Symbols
import Verif.Spec.Tm

/-!
# Specification of sharing: constants of a term, replacement of constants, first-order patterns
-/

namespace Kontroli

mutual
  /-- the constants of a term in textual order -/
  def PTerm.consts : PTerm Atom → List PSymb
    | .app h args => PHead.consts h ++ PTerm.constsList args
  /-- the constants of a head -/
  def PHead.consts : PHead Atom → List PSymb
    | .atom (.const c) => [c]
    | .atom (.var _) => []
    | .atom .type => []
    | .abst _ ty tm => PTerm.constsOpt ty ++ PTerm.consts tm
    | .prod _ ty tm => PTerm.consts ty ++ PTerm.consts tm
  /-- the constants of several terms -/
  def PTerm.constsList : List (PTerm Atom) → List PSymb
    | [] => []
    | t :: ts => PTerm.consts t ++ PTerm.constsList ts
  /-- the constants of an optional term -/
  def PTerm.constsOpt : Option (PTerm Atom) → List PSymb
    | none => []
    | some t => PTerm.consts t
end

mutual
  /-- the term where each constant `c` is replaced by the symbol `f c`; products without name get the name `$` -/
  def PTerm.resolve (f : PSymb → Sym) : PTerm Atom → LTerm
    | .app h [] => PHead.resolve f h
    | .app h (a :: as) => .comb (.appl (PHead.resolve f h) (PTerm.resolve f a :: PTerm.resolveList f as))
  /-- the same for heads -/
  def PHead.resolve (f : PSymb → Sym) : PHead Atom → LTerm
    | .atom (.const c) => .const (f c)
    | .atom (.var n) => .var n
    | .atom .type => .type
    | .abst x ty tm => .comb (.abst x (PTerm.resolveOpt f ty) (PTerm.resolve f tm))
    | .prod x ty tm => .comb (.prod (x.getD ['$']) (PTerm.resolve f ty) (PTerm.resolve f tm))
  /-- the same for lists -/
  def PTerm.resolveList (f : PSymb → Sym) : List (PTerm Atom) → List LTerm
    | [] => []
    | t :: ts => PTerm.resolve f t :: PTerm.resolveList f ts
  /-- the same for options -/
  def PTerm.resolveOpt (f : PSymb → Sym) : Option (PTerm Atom) → Option LTerm
    | none => none
    | some t => some (PTerm.resolve f t)
end

mutual
  /-- the plain term meant by a parsed term, when `f` gives the constants -/
  def PTerm.den (f : PSymb → Sym) : PTerm Atom → Tm
    | .app h args => Tm.apps (PHead.den f h) (PTerm.denList f args)
  /-- the plain term meant by a head -/
  def PHead.den (f : PSymb → Sym) : PHead Atom → Tm
    | .atom (.const c) => .const (f c)
    | .atom (.var n) => .var n
    | .atom .type => .type
    | .abst _ none tm => .dlam (PTerm.den f tm)
    | .abst _ (some ty) tm => .lam (PTerm.den f ty) (PTerm.den f tm)
    | .prod _ ty tm => .pi (PTerm.den f ty) (PTerm.den f tm)
  /-- the plain terms meant by a list -/
  def PTerm.denList (f : PSymb → Sym) : List (PTerm Atom) → List Tm
    | [] => []
    | t :: ts => PTerm.den f t :: PTerm.denList f ts
end

/-- a constant is known to the symbol table -/
def Symbols.Known (s : Symbols) (c : PSymb) : Prop := ∃ sym, s.Resolves c.path c.name sym

/-- the symbol of a constant (any symbol if it is unknown) -/
def Symbols.sym (s : Symbols) (c : PSymb) : Sym := (s.get c.path c.name).getD 0

/-- the usual notation of a qualified name -/
def PSymb.dotted (c : PSymb) : Str := List.intercalate ['.'] (c.path ++ [c.name])

/-- product and abstraction over a list of parameters -/
def telescopeType {A : Type} : List (Str × PTerm A) → PTerm A → PTerm A
  | [], t => t
  | (x, A) :: args, t => .new (.prod (some x) A (telescopeType args t))

/-- abstraction over a list of parameters -/
def telescopeTerm {A : Type} : List (Str × PTerm A) → PTerm A → PTerm A
  | [], t => t
  | (x, A) :: args, t => .new (.abst x (some A) (telescopeTerm args t))

/-- the introduction without parameters -/
def Intro.telescope (args : List (Str × PTerm Atom)) : Intro (PTerm Atom) → Intro (PTerm Atom)
  | .definition ty tm => .definition (ty.map (telescopeType args)) (tm.map (telescopeTerm args))
  | .theorem_ ty tm => .theorem_ (telescopeType args ty) (telescopeTerm args tm)
  | .declaration inj ty => .declaration inj (telescopeType args ty)

/-- the constants of an introduction -/
def Intro.consts : Intro (PTerm Atom) → List PSymb
  | .definition ty tm => PTerm.constsOpt ty ++ PTerm.constsOpt tm
  | .theorem_ ty tm => ty.consts ++ tm.consts
  | .declaration _ ty => ty.consts

/-- replacement of constants -/
def Intro.resolve (f : PSymb → Sym) : Intro (PTerm Atom) → Intro LTerm
  | .definition ty tm => .definition (PTerm.resolveOpt f ty) (PTerm.resolveOpt f tm)
  | .theorem_ ty tm => .theorem_ (ty.resolve f) (tm.resolve f)
  | .declaration inj ty => .declaration inj (ty.resolve f)

/-- the constants of the parameters -/
def argConsts (args : List (Str × PTerm Atom)) : List PSymb := args.flatMap fun a => a.2.consts

/-- first-order patterns: variables, and constants applied to patterns -/
inductive FOPat : PTerm Atom → Prop
  | var {n : Nat} : FOPat (.app (.atom (.var n)) [])
  | symb {c : PSymb} {args : List (PTerm Atom)} : (∀ a ∈ args, FOPat a) → FOPat (.app (.atom (.const c)) args)

/-- a constant applied to patterns -/
def FOTop (t : PTerm Atom) : Prop := ∃ c args, t = .app (.atom (.const c)) args ∧ ∀ a ∈ args, FOPat a

/-- the pattern meant by a first-order pattern: the variable with index `n` (which is the wildcard) matches anything, other
variables are rule variables, constants `c` are symbols `f c` -/
inductive PatOf (f : PSymb → Sym) (n : Nat) : PTerm Atom → Pattern → Prop
  | var {i : Nat} : i ≠ n → PatOf f n (.app (.atom (.var i)) []) (.mvar i)
  | wild : PatOf f n (.app (.atom (.var n)) []) .joker
  | symb {c : PSymb} {args : List (PTerm Atom)} {ps : List Pattern} : args.length = ps.length →
      (∀ i (h : i < args.length) (h' : i < ps.length), PatOf f n args[i] ps[i]) →
      PatOf f n (.app (.atom (.const c)) args) (.symb (f c) ps)

end Kontroli
