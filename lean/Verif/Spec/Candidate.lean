import Verif.Spec.Normal
import Verif.Spec.Confluence

/-!
# Types read as sets of terminating terms

Types are read as sets of strongly normalising terms, products as functions between such sets.  What a type is may be computed by rules from terms that it depends on.
-/

namespace Kontroli

/-- the types that are no products are read by `B` -/
inductive Denotes (R : RuleMap) (B : Tm → (Tm → Prop) → Prop) : Tm → (Tm → Prop) → Prop
  | base {A : Tm} {P : Tm → Prop} : B A P → Denotes R B A P
  | pi {A A₁ A₂ : Tm} {P : Tm → Prop} {Q : Tm → Tm → Prop} : Conv R false A (.pi A₁ A₂) → Denotes R B A₁ P → (∀ a, P a → Denotes R B (A₂.inst a) (Q a)) →
      Denotes R B A fun f => ∀ a, P a → Q a (.app f a)

/-- what is no product and no sort is read as the strongly normalising terms -/
def Flat (R : RuleMap) (A : Tm) (P : Tm → Prop) : Prop :=
  P = SN R false ∧ (∀ A₁ A₂, ¬ Conv R false A (.pi A₁ A₂)) ∧ ¬ Conv R false A .type ∧ ¬ Conv R false A .kind

/-- with `Type` -/
def FlatT (R : RuleMap) (A : Tm) (P : Tm → Prop) : Prop :=
  Flat R A P ∨ Conv R false A .type ∧ P = fun t => SN R false t ∧ ∃ Q, Denotes R (Flat R) t Q

/-- with `Kind` -/
def FlatK (R : RuleMap) (A : Tm) (P : Tm → Prop) : Prop :=
  FlatT R A P ∨ Conv R false A .kind ∧ P = fun t => SN R false t ∧ ∃ Q, Denotes R (FlatT R) t Q

/-- The term belongs to what the type is read as. -/
def Fine (R : RuleMap) (t A : Tm) : Prop := ∃ P, Denotes R (FlatK R) A P ∧ P t

end Kontroli
