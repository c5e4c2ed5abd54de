import Verif.Spec.Eta
import Mathlib.Order.Lattice

/-!
# Types read as sets of terms

A type is read as a set of terms, in a set of worlds: a product is read as the functions that, now and later, give elements of its second part when applied to elements of
its first part; what the other types are read as is a parameter.  Types are read up to conversion.
-/

namespace Kontroli

/-- For every world, the terms that belong to a type there. -/
abbrev Sem (W : Type) := W → Tm → Prop

/-- `Reads T B A P`: the type `A` is read as `P`, where types that are not products are read by `B`. -/
inductive Reads (T : Theory) {W : Type} [LE W] (B : Tm → Sem W → Prop) : Tm → Sem W → Prop
  | base {A : Tm} {P : Sem W} : B A P → Reads T B A P
  | pi {A A₁ A₂ : Tm} {P : Sem W} {Q : Tm → Sem W} : T.Conv A (.pi A₁ A₂) → Reads T B A₁ P → (∀ w a, P w a → Reads T B (A₂.inst a) (Q a)) →
      Reads T B A fun w f => ∀ w', w ≤ w' → ∀ a, P w' a → Q a w' (.app f a)

/-- A way to read types that are not products: up to conversion, in one way, as sets of terms up to conversion that grow with the world. -/
structure Basis (T : Theory) {W : Type} [LE W] (B : Tm → Sem W → Prop) : Prop where
  conv : ∀ {A A' P}, B A P → T.Conv A A' → B A' P
  unique : ∀ {A P P'}, B A P → B A P' → P = P'
  notPi : ∀ {A P A₁ A₂}, B A P → ¬ T.Conv A (.pi A₁ A₂)
  later : ∀ {A P w w' t}, B A P → w ≤ w' → P w t → P w' t
  elems : ∀ {A P w t t'}, B A P → T.Conv t t' → P w t → P w t'

/-- `Type` is read as the types that can be read. -/
def Basis.types (T : Theory) {W : Type} [LE W] (B : Tm → Sem W → Prop) (A : Tm) (P : Sem W) : Prop :=
  B A P ∨ T.Conv A .type ∧ P = fun _ t => ∃ Q, Reads T B t Q

/-- `Kind` is read as the kinds that can be read. -/
def Basis.kinds (T : Theory) {W : Type} [LE W] (B : Tm → Sem W → Prop) (A : Tm) (P : Sem W) : Prop :=
  Basis.types T B A P ∨ T.Conv A .kind ∧ P = fun _ t => ∃ Q, Reads T (Basis.types T B) t Q

/-- The term belongs to what the type is read as. -/
def Belongs (T : Theory) {W : Type} [LE W] (B : Tm → Sem W → Prop) (w : W) (t A : Tm) : Prop := ∃ P, Reads T (Basis.kinds T B) A P ∧ P w t

/-- A model of a theory: a way to read types, by which every constant belongs to its type. -/
structure Reading (T : Theory) {W : Type} [LE W] (B : Tm → Sem W → Prop) : Prop where
  basis : Basis T B
  small : ∀ {A P}, B A P → ¬ T.Conv A .type ∧ ¬ T.Conv A .kind
  consts : ∀ w c A, T.ty c = some A → Belongs T B w (.const c) A

end Kontroli
