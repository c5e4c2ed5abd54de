import Verif.Spec.Correct

/-!
# Types read as propositions

A type is read as a proposition of propositional logic: a product is an implication, the arguments of a type are forgotten, and truth values are
given to the constants.
-/

namespace Kontroli

/-- The truth value of a type, when the constants have truth values. -/
def Tm.Holds (v : Sym → Prop) : Tm → Prop
  | .kind => True
  | .type => True
  | .const c => v c
  | .var _ => True
  | .app f _ => f.Holds v
  | .lam _ b => b.Holds v
  | .dlam b => b.Holds v
  | .pi A B => A.Holds v → B.Holds v

/-- The constant is an object: its type has type `Type`.  (The other constants are types, or families of types.) -/
def Theory.Object (T : Theory) (c : Sym) : Prop := ∃ A, T.ty c = some A ∧ Strict T [] A .type

/-- The truth values respect the rules for types. -/
def Theory.Models (T : Theory) (v : Sym → Prop) : Prop :=
  ∀ s rs r, T.rules s = some rs → r ∈ rs → ¬ T.Object s → (v s ↔ r.rhs.den.Holds v)

/-- The commands introduce the symbol without a body. -/
def Postulated (cmds : List Cmd) (s : Sym) : Prop := ∃ it : Intro LTerm, .intro s it ∈ cmds ∧ it.body = none

/-- A type ends in `Type` (`none`), or in a constant with arguments. -/
inductive Tm.Ends : Tm → Option Sym → Prop
  | type : Tm.Ends .type none
  | const {c : Sym} {ts : List Tm} : Tm.Ends (Tm.apps (.const c) ts) (some c)
  | pi {A B : Tm} {o : Option Sym} : Tm.Ends B o → Tm.Ends (.pi A B) o

/-- Nothing is made for the type `k`: it is postulated, but what else is postulated ends in `Type` or in another postulated symbol, and the rewrite rules
are for symbols that do not end in `Type`. -/
structure Barren (cmds : List Cmd) (T : Theory) (k : Sym) : Prop where
  postulated : Postulated cmds k
  ends : ∀ s A, Postulated cmds s → T.ty s = some A → ∃ o, A.Ends o ∧ ∀ c, o = some c → Postulated cmds c ∧ c ≠ k
  rules : ∀ rs, .rules rs ∈ cmds → ∀ r ∈ rs, ∃ A c, T.ty r.lhs.symbol = some A ∧ A.Ends (some c)

/-- A written type that ends in `Type`: what has such a type is a type or a family of types. -/
inductive PTerm.Family : PTerm Atom → Prop
  | type : PTerm.Family (.app (.atom .type) [])
  | prod {x : Option Str} {A B : PTerm Atom} : PTerm.Family B → PTerm.Family (.app (.prod x A B) [])

/-- Nothing but types and families of types is introduced without a body. -/
def NoAxioms (es : List Entry) : Prop :=
  ∀ m x args it, ⟨m, .intro x args it⟩ ∈ es → it.body = none → ∃ ty, it.given = some ty ∧ PTerm.Family ((telescopeType args ty).scope [])

end Kontroli
