import Verif.Model.GCtx
import Verif.Spec.Tm

/-!
# The equational theory of a set of rewrite rules

`Conv rules eta` is the least congruence containing beta, all instances of the rules and, if `eta`, eta.
Abstractions are compared up to their annotations (Curry style conversion, as in Dedukti).
-/

namespace Kontroli

mutual
  /-- The rule variables of a pattern. -/
  def Pattern.vars : Pattern → List Nat
    | .symb _ ps => Pattern.varsList ps
    | .mvar m => [m]
    | .joker => []
  /-- The rule variables of a list of patterns. -/
  def Pattern.varsList : List Pattern → List Nat
    | [] => []
    | p :: ps => Pattern.vars p ++ Pattern.varsList ps
end

/-- The variables of the left-hand side are exactly those of the context. -/
def Rule.Scoped (r : Rule) : Prop := ∀ m, m ∈ Pattern.varsList r.lhs.args ↔ m < r.ctx.length

mutual
  /-- `PInst σ p t`: the term `t` is the instance of the pattern `p` by `σ`, wildcards standing for anything. -/
  inductive PInst (σ : Nat → Tm) : Pattern → Tm → Prop
    | mvar (m : Nat) : PInst σ (.mvar m) (σ m)
    | joker (t : Tm) : PInst σ .joker t
    | symb {s : Sym} {ps : List Pattern} {ts : List Tm} :
        PInsts σ ps ts → PInst σ (.symb s ps) (Tm.apps (.const s) ts)
  /-- Pointwise `PInst`. -/
  inductive PInsts (σ : Nat → Tm) : List Pattern → List Tm → Prop
    | nil : PInsts σ [] []
    | cons {p : Pattern} {t : Tm} {ps : List Pattern} {ts : List Tm} :
        PInst σ p t → PInsts σ ps ts → PInsts σ (p :: ps) (t :: ts)
end

/-- Maps from symbols to their rewrite rules. -/
abbrev RuleMap := Sym → Option (List Rule)

/-- Conversion: the least congruence containing beta, the instances of the rules and, on request, eta. -/
inductive Conv (R : RuleMap) (eta : Bool) : Tm → Tm → Prop
  | refl (t : Tm) : Conv R eta t t
  | symm {t u : Tm} : Conv R eta t u → Conv R eta u t
  | trans {t u v : Tm} : Conv R eta t u → Conv R eta u v → Conv R eta t v
  | app {f f' a a' : Tm} : Conv R eta f f' → Conv R eta a a' → Conv R eta (.app f a) (.app f' a')
  | dlam {b b' : Tm} : Conv R eta b b' → Conv R eta (.dlam b) (.dlam b')
  | annot (A b : Tm) : Conv R eta (.lam A b) (.dlam b)
  | pi {A A' B B' : Tm} : Conv R eta A A' → Conv R eta B B' → Conv R eta (.pi A B) (.pi A' B')
  | beta (b a : Tm) : Conv R eta (.app (.dlam b) a) (b.inst a)
  | eta (h : eta = true) (f : Tm) : Conv R eta (.dlam (.app (f.shift 1) (.var 0))) f
  | rule {s : Sym} {rs : List Rule} {r : Rule} {σ : Nat → Tm} {ts : List Tm} :
      R s = some rs → r ∈ rs → r.Scoped → PInsts σ r.lhs.args ts →
      Conv R eta (Tm.apps (.const s) ts) (r.rhs.den.sub σ)

end Kontroli
