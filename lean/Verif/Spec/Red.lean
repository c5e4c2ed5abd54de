import Verif.Spec.Conv

/-!
# Directed reduction

`Red` is the reflexive, transitive, congruent closure of beta and of the rewrite rules read from left to right.
When a rule variable occurs several times on the left, the occurrences need only be convertible;
the first occurrence (from left to right) is used on the right.
Variables of the right-hand side that do not belong to the rule (there are none in rules that come from the parser)
stay variables.
-/

namespace Kontroli

mutual
  /-- `PBind p t bs`: the term `t` has the shape of the pattern `p`; `bs` lists, from left to right, which subterm of `t`
  is found at each occurrence of a rule variable. -/
  inductive PBind : Pattern → Tm → List (Nat × Tm) → Prop
    | mvar (m : Nat) (t : Tm) : PBind (.mvar m) t [(m, t)]
    | joker (t : Tm) : PBind .joker t []
    | symb {s : Sym} {ps : List Pattern} {ts : List Tm} {bs : List (Nat × Tm)} :
        PBinds ps ts bs → PBind (.symb s ps) (Tm.apps (.const s) ts) bs
  /-- Pointwise `PBind`. -/
  inductive PBinds : List Pattern → List Tm → List (Nat × Tm) → Prop
    | nil : PBinds [] [] []
    | cons {p : Pattern} {t : Tm} {ps : List Pattern} {ts : List Tm} {bs bs' : List (Nat × Tm)} :
        PBind p t bs → PBinds ps ts bs' → PBinds (p :: ps) (t :: ts) (bs ++ bs')
end

/-- `σ` maps every variable to its first occurrence in `bs`, and all other occurrences are convertible with it. -/
def Solves (R : RuleMap) (eta : Bool) (bs : List (Nat × Tm)) (σ : Nat → Tm) : Prop :=
  (∀ m t, bs.lookup m = some t → σ m = t) ∧ (∀ p ∈ bs, Conv R eta p.2 (σ p.1))

/-- Many-step reduction. -/
inductive Red (R : RuleMap) (eta : Bool) : Tm → Tm → Prop
  | refl (t : Tm) : Red R eta t t
  | trans {t u v : Tm} : Red R eta t u → Red R eta u v → Red R eta t v
  | app {f f' a a' : Tm} : Red R eta f f' → Red R eta a a' → Red R eta (.app f a) (.app f' a')
  | lam {A A' b b' : Tm} : Red R eta A A' → Red R eta b b' → Red R eta (.lam A b) (.lam A' b')
  | dlam {b b' : Tm} : Red R eta b b' → Red R eta (.dlam b) (.dlam b')
  | pi {A A' B B' : Tm} : Red R eta A A' → Red R eta B B' → Red R eta (.pi A B) (.pi A' B')
  | beta (A b a : Tm) : Red R eta (.app (.lam A b) a) (b.inst a)
  | dbeta (b a : Tm) : Red R eta (.app (.dlam b) a) (b.inst a)
  | rule {s : Sym} {rs : List Rule} {r : Rule} {σ : Nat → Tm} {ts : List Tm} {bs : List (Nat × Tm)} :
      R s = some rs → r ∈ rs → r.Scoped → PBinds r.lhs.args ts bs → Solves R eta bs σ →
      (∀ m, r.ctx.length ≤ m → ∃ n, σ m = .var n) →
      Red R eta (Tm.apps (.const s) ts) (r.rhs.den.sub σ)

end Kontroli
