import Verif.Model.Driver
import Verif.Spec.Typing

/-!
# Histories of the global context
-/

namespace Kontroli

/-- `gc'` extends `gc`: types are kept, rules are kept and only followed by others. -/
structure GCtx.Grows (gc gc' : GCtx) : Prop where
  types : ∀ s A, gc.types s = some A → gc'.types s = some A
  rules : ∀ s rs, gc.rules s = some rs → ∃ more, gc'.rules s = some (rs ++ more)
  eta : gc'.eta = gc.eta

/-- Smaller theories: fewer constants, fewer rules. -/
structure Theory.Le (T T' : Theory) : Prop where
  ty : ∀ s A, T.ty s = some A → T'.ty s = some A
  rules : ∀ s rs, T.rules s = some rs → ∃ rs', T'.rules s = some rs' ∧ ∀ r ∈ rs, r ∈ rs'
  eta : T'.eta = T.eta

/-- A static symbol has a type and no list of rules. -/
def GCtx.Static (gc : GCtx) (s : Sym) : Prop := (gc.types s).isSome ∧ gc.rules s = none

/-- the body given by an introduction -/
def Intro.body {Tm : Type} : Intro Tm → Option Tm
  | .definition _ tm => tm
  | .theorem_ _ tm => some tm
  | .declaration _ _ => none

/-- the type given by an introduction -/
def Intro.given {Tm : Type} : Intro Tm → Option Tm
  | .definition ty _ => ty
  | .theorem_ ty _ => some ty
  | .declaration _ ty => some ty

/-- The kernel functions used by a driver are runs of the modelled kernel, with any fuel and any reference counts. -/
structure Kern.Real (k : Kern) : Prop where
  intro : ∀ gc i r, k.intro gc i = .ok r → ∃ n rc s, Kontroli.intro n gc i ⟨[], [], rc⟩ = .ok (r, s)
  rewrite : ∀ gc t c, k.rewrite gc t = .ok c → ∃ n rc s, Kontroli.rewrite n gc t ⟨[], [], rc⟩ = .ok (c, s)
  check : ∀ gc c, k.check gc c = .ok () → ∃ n rc s, Check.check n gc c ⟨[], [], rc⟩ = .ok ((), s)

/-- What justifies an introduction with recorded type `A` in a theory. -/
structure IntroJustified (T : Theory) (it : Intro LTerm) (A : LTerm) : Prop where
  /-- the recorded type is typable, unless it was inferred from the body -/
  type : (∃ B, HasType T [] A.den B) ∨ ∃ tm, it = .definition none (some tm)
  /-- a given type is the recorded type -/
  given : ∀ ty, it.given = some ty → A = ty
  /-- without a body, the recorded type has a sort -/
  sort : it.body = none → ∃ s, IsSort s ∧ HasType T [] A.den s
  /-- a given body has the recorded type -/
  body : ∀ tm, it.body = some tm → HasType T [] tm.den A.den

/-- What justifies a rewrite rule with complete annotations in a theory: both sides have a common type. -/
def RuleJustified (T : Theory) (r : Rule) : Prop :=
  ∀ t, r.toT = some t → ∃ A, HasType T (t.ctx.map LTerm.den).reverse t.lhs.den A ∧
    HasType T (t.ctx.map LTerm.den).reverse r.rhs.den A

end Kontroli
