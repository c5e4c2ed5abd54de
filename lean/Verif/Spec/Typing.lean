import Verif.Spec.Conv

/-!
# The lambda-Pi calculus modulo rewriting

Declarative type systems over a `Theory`:

* `HasType`: the conversion rule does not ask the new type to be well-sorted, and an annotated abstraction may be given any
  product type whose domain is convertible with its annotation.  Sound for the code without any assumption on the rules.
* `WellTyped`: like `HasType`, but the annotation of an abstraction has type `Type`.
* `Strict`: the textbook system, in which conversion goes to well-sorted types only.
-/

namespace Kontroli

/-- A theory: the types of the constants, the rewrite rules, and whether eta is on. -/
structure Theory where
  ty : Sym → Option Tm
  rules : RuleMap
  eta : Bool

/-- The theory given by a global context. -/
def GCtx.theory (gc : GCtx) : Theory := ⟨fun s => (gc.types s).map LTerm.den, gc.rules, gc.eta⟩

/-- Convertibility in a theory. -/
def Theory.Conv (T : Theory) (t u : Tm) : Prop := Kontroli.Conv T.rules T.eta t u

/-- Sorts. -/
inductive IsSort : Tm → Prop
  | type : IsSort .type
  | kind : IsSort .kind

/-- `HasType T Γ t A`: the term `t` has type `A` in the local context `Γ` (head = variable 0). -/
inductive HasType (T : Theory) : List Tm → Tm → Tm → Prop
  | type {Γ : List Tm} : HasType T Γ .type .kind
  | const {Γ : List Tm} {c : Sym} {A : Tm} : T.ty c = some A → HasType T Γ (.const c) A
  | var {Γ : List Tm} {n : Nat} {A : Tm} : Γ[n]? = some A → HasType T Γ (.var n) (A.shift (n + 1))
  | app {Γ : List Tm} {f a A B : Tm} :
      HasType T Γ f (.pi A B) → HasType T Γ a A → HasType T Γ (.app f a) (B.inst a)
  | lam {Γ : List Tm} {A b B : Tm} :
      HasType T Γ A .type → HasType T (A :: Γ) b B → B ≠ .kind → HasType T Γ (.lam A b) (.pi A B)
  | pi {Γ : List Tm} {A B s : Tm} :
      HasType T Γ A .type → HasType T (A :: Γ) B s → IsSort s → HasType T Γ (.pi A B) s
  | dlam {Γ : List Tm} {A b B : Tm} : HasType T (A :: Γ) b B → HasType T Γ (.dlam b) (.pi A B)
  | alam {Γ : List Tm} {A A' b B X : Tm} :
      HasType T Γ A' X → T.Conv A' A → HasType T (A :: Γ) b B → HasType T Γ (.lam A' b) (.pi A B)
  | conv {Γ : List Tm} {t A B : Tm} : HasType T Γ t A → T.Conv A B → HasType T Γ t B

/-- `WellTyped T Γ t A`: as `HasType`, but annotations have type `Type`, and the body of an annotated abstraction has a type
that is not `Kind` in disguise. -/
inductive WellTyped (T : Theory) : List Tm → Tm → Tm → Prop
  | type {Γ : List Tm} : WellTyped T Γ .type .kind
  | const {Γ : List Tm} {c : Sym} {A : Tm} : T.ty c = some A → WellTyped T Γ (.const c) A
  | var {Γ : List Tm} {n : Nat} {A : Tm} : Γ[n]? = some A → WellTyped T Γ (.var n) (A.shift (n + 1))
  | app {Γ : List Tm} {f a A B : Tm} :
      WellTyped T Γ f (.pi A B) → WellTyped T Γ a A → WellTyped T Γ (.app f a) (B.inst a)
  | lam {Γ : List Tm} {A b B : Tm} :
      WellTyped T Γ A .type → WellTyped T (A :: Γ) b B → ¬ T.Conv B .kind → WellTyped T Γ (.lam A b) (.pi A B)
  | dlam {Γ : List Tm} {A b B : Tm} : WellTyped T (A :: Γ) b B → WellTyped T Γ (.dlam b) (.pi A B)
  | pi {Γ : List Tm} {A B s : Tm} :
      WellTyped T Γ A .type → WellTyped T (A :: Γ) B s → IsSort s → WellTyped T Γ (.pi A B) s
  | conv {Γ : List Tm} {t A B : Tm} : WellTyped T Γ t A → T.Conv A B → WellTyped T Γ t B

/-- `Strict T Γ t A`: the textbook system. -/
inductive Strict (T : Theory) : List Tm → Tm → Tm → Prop
  | type {Γ : List Tm} : Strict T Γ .type .kind
  | const {Γ : List Tm} {c : Sym} {A : Tm} : T.ty c = some A → Strict T Γ (.const c) A
  | var {Γ : List Tm} {n : Nat} {A : Tm} : Γ[n]? = some A → Strict T Γ (.var n) (A.shift (n + 1))
  | app {Γ : List Tm} {f a A B : Tm} :
      Strict T Γ f (.pi A B) → Strict T Γ a A → Strict T Γ (.app f a) (B.inst a)
  | lam {Γ : List Tm} {A b B s : Tm} :
      Strict T Γ A .type → Strict T (A :: Γ) b B → Strict T (A :: Γ) B s → IsSort s → Strict T Γ (.lam A b) (.pi A B)
  | dlam {Γ : List Tm} {A b B s : Tm} :
      Strict T Γ A .type → Strict T (A :: Γ) b B → Strict T (A :: Γ) B s → IsSort s → Strict T Γ (.dlam b) (.pi A B)
  | pi {Γ : List Tm} {A B s : Tm} :
      Strict T Γ A .type → Strict T (A :: Γ) B s → IsSort s → Strict T Γ (.pi A B) s
  | conv {Γ : List Tm} {t A B s : Tm} :
      Strict T Γ t A → T.Conv A B → Strict T Γ B s → IsSort s → Strict T Γ t B

end Kontroli
