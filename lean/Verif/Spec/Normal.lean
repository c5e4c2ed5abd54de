import Verif.Spec.Red

/-!
# One step of reduction and strong normalisation
-/

namespace Kontroli

/-- One step of beta or of a rewrite rule, anywhere in a term. -/
inductive Step (R : RuleMap) (eta : Bool) : Tm → Tm → Prop
  | appL {f f' a : Tm} : Step R eta f f' → Step R eta (.app f a) (.app f' a)
  | appR {f a a' : Tm} : Step R eta a a' → Step R eta (.app f a) (.app f a')
  | lamL {A A' b : Tm} : Step R eta A A' → Step R eta (.lam A b) (.lam A' b)
  | lamR {A b b' : Tm} : Step R eta b b' → Step R eta (.lam A b) (.lam A b')
  | dlam {b b' : Tm} : Step R eta b b' → Step R eta (.dlam b) (.dlam b')
  | piL {A A' B : Tm} : Step R eta A A' → Step R eta (.pi A B) (.pi A' B)
  | piR {A B B' : Tm} : Step R eta B B' → Step R eta (.pi A B) (.pi A B')
  | beta (A b a : Tm) : Step R eta (.app (.lam A b) a) (b.inst a)
  | dbeta (b a : Tm) : Step R eta (.app (.dlam b) a) (b.inst a)
  | rule {s : Sym} {rs : List Rule} {r : Rule} {σ : Nat → Tm} {ts : List Tm} {bs : List (Nat × Tm)} :
      R s = some rs → r ∈ rs → r.Scoped → PBinds r.lhs.args ts bs → Solves R eta bs σ →
      (∀ m, r.ctx.length ≤ m → ∃ n, σ m = .var n) → Step R eta (Tm.apps (.const s) ts) (r.rhs.den.sub σ)

/-- Strong normalisation: no infinite sequence of steps starts at the term. -/
def SN (R : RuleMap) (eta : Bool) (t : Tm) : Prop := Acc (fun u t => Step R eta t u) t

end Kontroli
