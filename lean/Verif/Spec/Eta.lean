import Verif.Spec.Confluence
import Verif.Spec.Typing

/-!
# Conversion with eta, for definitions

Without rewrite rules proper, the only rules of a program are those that unfold definitions: a constant without arguments on the
left, a closed term on the right.  `RedE` is reduction with eta.
-/

namespace Kontroli

/-- All rules unfold definitions: the left-hand sides have no arguments, the right-hand sides are closed, and every symbol has
at most one right-hand side. -/
structure Definitional (R : RuleMap) : Prop where
  args : ∀ s rs r, R s = some rs → r ∈ rs → r.lhs.args = []
  closed : ∀ s rs r, R s = some rs → r ∈ rs → r.rhs.den.FreeBelow 0
  unique : ∀ s rs r r', R s = some rs → r ∈ rs → r' ∈ rs → r.rhs = r'.rhs

/-- The symbol has a definition. -/
def Defines (R : RuleMap) (s : Sym) (d : Tm) : Prop := ∃ rs r, R s = some rs ∧ r ∈ rs ∧ r.Scoped ∧ r.rhs.den = d

/-- Many-step reduction by beta, eta and definitions from left to right, where annotations of abstractions may be dropped. -/
inductive RedE (R : RuleMap) : Tm → Tm → Prop
  | refl (t : Tm) : RedE R t t
  | trans {t u v : Tm} : RedE R t u → RedE R u v → RedE R t v
  | app {f f' a a' : Tm} : RedE R f f' → RedE R a a' → RedE R (.app f a) (.app f' a')
  | lam {A A' b b' : Tm} : RedE R A A' → RedE R b b' → RedE R (.lam A b) (.lam A' b')
  | dlam {b b' : Tm} : RedE R b b' → RedE R (.dlam b) (.dlam b')
  | annot (A b : Tm) : RedE R (.lam A b) (.dlam b)
  | pi {A A' B B' : Tm} : RedE R A A' → RedE R B B' → RedE R (.pi A B) (.pi A' B')
  | beta (b a : Tm) : RedE R (.app (.dlam b) a) (b.inst a)
  | eta (f : Tm) : RedE R (.dlam (.app (f.shift 1) (.var 0))) f
  | delta {s : Sym} {d : Tm} : Defines R s d → RedE R (.const s) d

/-- The theories for which the results below are proved: without eta, those with confluent rewrite rules; with eta, those whose
rules only unfold definitions, where the defined symbols have types. -/
inductive Theory.Church (T : Theory) : Prop
  | plain : T.eta = false → Confluent T.rules → T.Church
  | eta : T.eta = true → Definitional T.rules → (∀ s d, Defines T.rules s d → ∃ A, T.ty s = some A) → T.Church

end Kontroli
