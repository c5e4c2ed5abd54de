import Verif.Spec.Red
import Verif.Spec.Typing
import Verif.Spec.Eta
import Verif.Model.Driver

/-!
# Well-formed contexts and theories

The usual assumptions of the meta-theory of the lambda-Pi calculus modulo rewriting, for the textbook system.
-/

namespace Kontroli

/-- Local contexts in which every type has type `Type`. -/
inductive WfCtx (T : Theory) : List Tm → Prop
  | nil : WfCtx T []
  | cons {Γ : List Tm} {A : Tm} : WfCtx T Γ → Strict T Γ A .type → WfCtx T (A :: Γ)

/-- The types of the constants have sorts. -/
def Theory.Sorted (T : Theory) : Prop := ∀ c A, T.ty c = some A → ∃ s, IsSort s ∧ Strict T [] A s

/-- The rule `r` for the symbol `s` preserves types: an instance of its right-hand side has the types of the matched left-hand side. -/
def RulePreserves (T : Theory) (s : Sym) (r : Rule) : Prop :=
  ∀ Γ σ ts bs A, WfCtx T Γ → r.Scoped → PBinds r.lhs.args ts bs → Solves T.rules T.eta bs σ →
    (∀ m, r.ctx.length ≤ m → ∃ n, σ m = .var n) → Strict T Γ (Tm.apps (.const s) ts) A → Strict T Γ (r.rhs.den.sub σ) A

/-- The types of the constants have sorts, and the rules preserve types. -/
structure Theory.WellFormed (T : Theory) : Prop where
  types : T.Sorted
  rules : ∀ s rs r, T.rules s = some rs → r ∈ rs → RulePreserves T s r

/-- The global contexts for which refusals are shown to be justified: without eta, those with confluent rewrite rules; with eta, those that are
well-formed and whose rules only unfold definitions. -/
structure GCtx.Apt (gc : GCtx) : Prop where
  church : gc.theory.Church
  wellFormed : gc.eta = true → gc.theory.WellFormed

theorem GCtx.Apt.plain {gc : GCtx} (he : gc.eta = false) (cr : Confluent gc.rules) : gc.Apt :=
  ⟨.plain he cr, fun h => by rw [he] at h; cases h⟩

theorem GCtx.eta_off {gc : GCtx} (he : gc.eta = false) {P : Prop} (h : gc.eta = true) : P := by rw [he] at h; cases h

/-- The variables of the rule have types, there are no wildcards on the left, the types of the variables have type `Type`, and both sides have a common
type. -/
def RuleTyped (T : Theory) (r : Rule) : Prop :=
  ∃ t, r.toT = some t ∧ WfCtx T (t.ctx.map LTerm.den).reverse ∧
    ∃ A, Strict T (t.ctx.map LTerm.den).reverse t.lhs.den A ∧ Strict T (t.ctx.map LTerm.den).reverse r.rhs.den A

/-- The types of the constants have sorts, symbols with rules have types, and the rules that have types for their variables and no wildcards are
typed. -/
structure GCtx.Right (gc : GCtx) : Prop where
  dom : ∀ s, gc.types s = none → gc.rules s = none
  types : gc.theory.Sorted
  rules : ∀ s rs r, gc.rules s = some rs → r ∈ rs → r.lhs.symbol = s ∧ (r.toT.isSome → RuleTyped gc.theory r)

/-- The rules that are not checked preserve types. -/
def GCtx.Untyped (gc : GCtx) : Prop := ∀ s rs r, gc.rules s = some rs → r ∈ rs → r.toT = none → RulePreserves gc.theory s r

/-- The types of the variables of rules have type `Type` (the code does not check this). -/
def Cmd.WfCtx (gc : GCtx) : Cmd → Prop
  | .intro _ _ => True
  | .rules rs => ∀ r ∈ rs, ∀ t, r.toT = some t → Kontroli.WfCtx gc.theory (t.ctx.map LTerm.den).reverse

end Kontroli
