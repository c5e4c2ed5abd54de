import Verif.Spec.Red

/-!
# Confluence

Conversion without eta ignores the annotations of abstractions.  Hence confluence is stated for reduction that may also drop
annotations.
-/

namespace Kontroli

/-- Many-step reduction by beta and by rules from left to right, where annotations of abstractions may be dropped. -/
inductive RedA (R : RuleMap) : Tm → Tm → Prop
  | refl (t : Tm) : RedA R t t
  | trans {t u v : Tm} : RedA R t u → RedA R u v → RedA R t v
  | app {f f' a a' : Tm} : RedA R f f' → RedA R a a' → RedA R (.app f a) (.app f' a')
  | lam {A A' b b' : Tm} : RedA R A A' → RedA R b b' → RedA R (.lam A b) (.lam A' b')
  | dlam {b b' : Tm} : RedA R b b' → RedA R (.dlam b) (.dlam b')
  | annot (A b : Tm) : RedA R (.lam A b) (.dlam b)
  | pi {A A' B B' : Tm} : RedA R A A' → RedA R B B' → RedA R (.pi A B) (.pi A' B')
  | beta (b a : Tm) : RedA R (.app (.dlam b) a) (b.inst a)
  | rule {s : Sym} {rs : List Rule} {r : Rule} {σ : Nat → Tm} {ts : List Tm} {bs : List (Nat × Tm)} :
      R s = some rs → r ∈ rs → r.Scoped → PBinds r.lhs.args ts bs → Solves R false bs σ →
      (∀ m, r.ctx.length ≤ m → ∃ n, σ m = .var n) →
      RedA R (Tm.apps (.const s) ts) (r.rhs.den.sub σ)

/-- Convertible terms have a common reduct. -/
def Confluent (R : RuleMap) : Prop := ∀ t u, Conv R false t u → ∃ v, RedA R t v ∧ RedA R u v

/-! ## Orthogonal rules -/

/-- All free variables of the term are below `k`. -/
def Tm.FreeBelow : Nat → Tm → Prop
  | _, .kind => True
  | _, .type => True
  | _, .const _ => True
  | k, .var n => n < k
  | k, .app f a => Tm.FreeBelow k f ∧ Tm.FreeBelow k a
  | k, .lam A b => Tm.FreeBelow k A ∧ Tm.FreeBelow (k + 1) b
  | k, .dlam b => Tm.FreeBelow (k + 1) b
  | k, .pi A B => Tm.FreeBelow k A ∧ Tm.FreeBelow (k + 1) B

mutual
  /-- `q.In p`: the pattern `q` is the pattern `p` or a part of it. -/
  inductive Pattern.In (q : Pattern) : Pattern → Prop
    | self : Pattern.In q q
    | arg {s : Sym} {ps : List Pattern} : Pattern.InList q ps → Pattern.In q (.symb s ps)
  /-- The pattern is part of a pattern in the list. -/
  inductive Pattern.InList (q : Pattern) : List Pattern → Prop
    | here {p : Pattern} {ps : List Pattern} : Pattern.In q p → Pattern.InList q (p :: ps)
    | there {p : Pattern} {ps : List Pattern} : Pattern.InList q ps → Pattern.InList q (p :: ps)
end

/-- The rule matches the first of the arguments. -/
def Rule.Matches (r : Rule) (ts : List Tm) : Prop := ∃ bs, PBinds r.lhs.args (ts.take r.lhs.args.length) bs

/-- The rules agree: a term that both match becomes the same by both. -/
def Rule.Agrees (r r' : Rule) : Prop :=
  ∀ (σ σ' : Nat → Tm) (ts : List Tm), PInsts σ r.lhs.args (ts.take r.lhs.args.length) → PInsts σ' r'.lhs.args (ts.take r'.lhs.args.length) →
    (r.rhs.den.sub σ).apps (ts.drop r.lhs.args.length) = (r'.rhs.den.sub σ').apps (ts.drop r'.lhs.args.length)

/-- Orthogonal rules, in the weak sense: no variable occurs twice on a left-hand side, the variables on the right-hand side occur on the left,
two rules for a symbol agree where both match, and no rule matches at a constant of the pattern of another. -/
structure Orthogonal (R : RuleMap) : Prop where
  linear : ∀ s rs r, R s = some rs → r ∈ rs → (Pattern.varsList r.lhs.args).Nodup
  closed : ∀ s rs r, R s = some rs → r ∈ rs → r.rhs.den.FreeBelow r.ctx.length
  root : ∀ s rs r r', R s = some rs → r ∈ rs → r' ∈ rs → r = r' ∨ r.Agrees r'
  inner : ∀ s rs r s' ps rs' r' us bs, R s = some rs → r ∈ rs → Pattern.InList (.symb s' ps) r.lhs.args →
    R s' = some rs' → r' ∈ rs' → PBinds ps us bs → ¬ r'.Matches us

end Kontroli
