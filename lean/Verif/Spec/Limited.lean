import Verif.Spec.Program

/-!
# What is right about a program whose bodies and right-hand sides are not checked
-/

namespace Kontroli

/-- An introduction is right up to its body: a given type is typable, a body without a given type has the type that is recorded, and what has no
body has a type with a sort. -/
def IntroTyped (T : Theory) (R : PSymb → Sym → Prop) (s : Sym) (args : List (Str × PTerm PSymb)) (it : Intro (PTerm PSymb)) : Prop :=
  ∃ A, T.ty s = some A ∧
    (∀ ty, it.given = some ty → Means R (telescopeType args ty) A ∧ ∃ B, HasType T [] A B) ∧
    (it.given = none → ∀ tm, it.body = some tm → ∃ t, Means R (telescopeTerm args tm) t ∧ HasType T [] t A) ∧
    (it.body = none → ∃ B, IsSort B ∧ HasType T [] A B)

/-- A rule is right up to its right-hand side: if its variables have types and there is no `_` on its left-hand side then that has a type. -/
def LeftTyped (T : Theory) (f : PSymb → Sym) (r : PRule (PTerm PSymb)) : Prop :=
  ∀ tys : List (PTerm Atom), r.scope.ctx.map Prod.snd = tys.map some → ¬ OccursIn r.ctx.length r.scope.lhs →
    ∃ A, HasType T (tys.map (PTerm.den f)).reverse (r.scope.lhs.den f) A

/-- A theory is what a program says, and is right up to bodies and right-hand sides. -/
structure ProgramTyped (es : List Entry) (T : Theory) : Prop where
  /-- no name is introduced twice -/
  nodup : (declared es).Nodup
  /-- the symbols are the numbers of the names -/
  names : ∀ s, (T.ty s).isSome ↔ s < (declared es).length
  intros : ∀ pre m x args it post, es = pre ++ ⟨m, .intro x args it⟩ :: post →
    IntroTyped T (Refers (declared pre) m) (declared pre).length args it
  rules : ∀ pre m rs post, es = pre ++ ⟨m, .rules rs⟩ :: post → ∀ r ∈ rs, ∃ f r',
    RuleMeans (Refers (declared pre) m) f r r' ∧ LeftTyped T f r ∧ ∃ l, T.rules r'.lhs.symbol = some l ∧ r' ∈ l

end Kontroli
