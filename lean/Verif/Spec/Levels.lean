import Verif.Spec.History

/-!
# Levels

In the lambda-Pi calculus, `Type` occurs only at the end of kinds.
-/

namespace Kontroli

/-- The term contains neither `Type` nor `Kind`. -/
def Tm.Small : Tm → Prop
  | .kind => False
  | .type => False
  | .const _ => True
  | .var _ => True
  | .app f a => Tm.Small f ∧ Tm.Small a
  | .lam A b => Tm.Small A ∧ Tm.Small b
  | .dlam b => Tm.Small b
  | .pi A B => Tm.Small A ∧ Tm.Small B

/-- All abstractions are annotated. -/
def Tm.Annotated : Tm → Prop
  | .app f a => Tm.Annotated f ∧ Tm.Annotated a
  | .lam A b => Tm.Annotated A ∧ Tm.Annotated b
  | .dlam _ => False
  | .pi A B => Tm.Annotated A ∧ Tm.Annotated B
  | _ => True

/-- Where the type of a term is to be inferred (`given = false`) or is known (`given = true`), every abstraction without a type stands at a place where
its type is known: it is an argument, or the given type is one of it, or it is the body of such an abstraction. -/
def Tm.Known (given : Bool) : Tm → Prop
  | .app f a => Tm.Known false f ∧ Tm.Known true a
  | .lam A b => Tm.Known false A ∧ Tm.Known given b
  | .dlam b => given = true ∧ Tm.Known given b
  | .pi A B => Tm.Known false A ∧ Tm.Known false B
  | _ => True

/-- A kind: `x1 : A1 -> ... -> xn : An -> Type`. -/
def Tm.IsKind : Tm → Prop
  | .type => True
  | .pi A B => Tm.Small A ∧ Tm.IsKind B
  | _ => False

/-- The term is written as products that end in `Type` (rather than, say, as `Type` applied to no arguments). -/
def LTerm.KindForm : LTerm → Prop
  | .type => True
  | .comb (.prod _ _ b) => LTerm.KindForm b
  | _ => False

/-- The types of the constants are small or kinds, the right-hand sides of the rules are small. -/
structure GCtx.Levelled (gc : GCtx) : Prop where
  types : ∀ c t, gc.types c = some t → t.den.Small ∨ (t.den.IsKind ∧ t.KindForm)
  rules : ∀ s rs r, gc.rules s = some rs → r ∈ rs → r.rhs.den.Small

/-- What a command needs so that levels are respected, apart from being accepted: given types that are kinds are written as such; the types of the
variables of a rule are small; and if a rule has variables without types, so that it is not checked, its right-hand side is small. -/
def Cmd.Levelled : Cmd → Prop
  | .intro _ it => ∀ A, it.given = some A → A.den.IsKind → A.KindForm
  | .rules rs => ∀ r ∈ rs, (∀ t, r.toT = some t → ∀ A ∈ t.ctx, A.den.Small) ∧ (r.toT = none → r.rhs.den.Small)

/-! ## Commands that are right by the textbook -/

/-- The type of an introduction has a sort, and its body has the type. -/
def IntroStrict (T : Theory) : Intro LTerm → Prop
  | .declaration _ ty => ∃ s, IsSort s ∧ Strict T [] ty.den s
  | .definition (some ty) none => ∃ s, IsSort s ∧ Strict T [] ty.den s
  | .definition (some ty) (some tm) => (∃ s, IsSort s ∧ Strict T [] ty.den s) ∧ Strict T [] tm.den ty.den
  | .definition none (some tm) => ∃ A s, IsSort s ∧ Strict T [] A s ∧ Strict T [] tm.den A
  | .definition none none => False
  | .theorem_ ty tm => (∃ s, IsSort s ∧ Strict T [] ty.den s) ∧ Strict T [] tm.den ty.den

/-- Both sides of an annotated rule have a common type, which has a sort. -/
def RuleStrict (T : Theory) (r : Rule) : Prop :=
  ∀ t, r.toT = some t → ∃ A s, IsSort s ∧ Strict T (t.ctx.map LTerm.den).reverse A s ∧
    Strict T (t.ctx.map LTerm.den).reverse t.lhs.den A ∧ Strict T (t.ctx.map LTerm.den).reverse r.rhs.den A

/-- The command introduces a new symbol correctly, or adds correct rules to symbols that may have rules. -/
def CmdStrict (gc : GCtx) : Cmd → Prop
  | .intro s it => gc.types s = none ∧ gc.rules s = none ∧ IntroStrict gc.theory it
  | .rules rs => ∀ r ∈ rs, (gc.rules r.lhs.symbol).isSome ∧ RuleStrict gc.theory r

/-- All abstractions in the command are annotated. -/
def Cmd.Annotated : Cmd → Prop
  | .intro _ it => (∀ A, it.given = some A → A.den.Annotated) ∧ ∀ t, it.body = some t → t.den.Annotated
  | .rules rs => ∀ r ∈ rs, r.rhs.den.Annotated

/-- The abstractions without types in the command stand where their types are known: types are inferred, bodies are checked against the given types,
and inferred if there are none, and the right-hand sides of rules are checked against the types of the left-hand sides. -/
def Cmd.Known : Cmd → Prop
  | .intro _ it => (∀ A, it.given = some A → A.den.Known false) ∧ ∀ t, it.body = some t → t.den.Known it.given.isSome
  | .rules rs => ∀ r ∈ rs, r.rhs.den.Known true

end Kontroli
