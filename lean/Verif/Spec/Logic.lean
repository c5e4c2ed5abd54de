import Verif.Spec.Arith
import Verif.Spec.Reading
import Mathlib.Data.Set.Insert
import Mathlib.Data.Set.Lattice

/-!
# The logic of `fo_imp.dk`

The text of `/repo/examples/fo_imp.dk`, the commands that it stands for, and minimal propositional logic with implication, in natural deduction.
-/

namespace Kontroli

/-- `/repo/examples/fo_imp.dk` -/
def foText : Str := lines [
  "prop: Type.",
  "imp: prop -> prop -> prop.",
  "def prf: prop -> Type.",
  "[x: prop, y: prop] prf (imp x y) --> prf x -> prf y.",
  "thm imp_refl (x: prop) : prf (imp x x) := p: prf x => p."]

/-- `prf (imp x y) --> prf x -> prf y` -/
def foRule : Rule :=
  ⟨[(['x'], some (.const 0)), (['y'], some (.const 0))], ⟨2, [.symb 1 [.mvar 1, .mvar 0]]⟩, .arrow (.appl (.const 2) [.var 1]) (.appl (.const 2) [.var 1])⟩

/-- The commands of `fo_imp.dk` before `imp_refl`.  The symbols are `prop` (0), `imp` (1) and `prf` (2). -/
def foCmds : List Cmd :=
  [.intro 0 (.declaration false .type), .intro 1 (.declaration false (.arrow (.const 0) (.arrow (.const 0) (.const 0)))),
   .intro 2 (.definition (some (.arrow (.const 0) .type)) none), .rules [foRule]]

/-- `imp_refl` in `fo_imp.dk` -/
def foRefl : Intro LTerm :=
  .theorem_ (.comb (.prod ['x'] (.const 0) (.appl (.const 2) [.appl (.const 1) [.var 0, .var 0]])))
    (.comb (.abst ['x'] (some (.const 0)) (.comb (.abst ['p'] (some (.appl (.const 2) [.var 0])) (.var 0)))))

/-- Formulas: atoms, which are numbered, and implications. -/
inductive Fml where
  | atom (i : Nat)
  | imp (φ ψ : Fml)
  deriving DecidableEq

/-- Natural deduction for minimal logic. -/
inductive Proves : Set Fml → Fml → Prop
  | hyp {Γ : Set Fml} {φ : Fml} : φ ∈ Γ → Proves Γ φ
  | intro {Γ : Set Fml} {φ ψ : Fml} : Proves (insert φ Γ) ψ → Proves Γ (.imp φ ψ)
  | elim {Γ : Set Fml} {φ ψ : Fml} : Proves Γ (.imp φ ψ) → Proves Γ φ → Proves Γ ψ

/-- The term of `fo_imp.dk` for a formula, where atoms are variables. -/
def Fml.tm : Fml → Tm
  | .atom i => .var i
  | .imp φ ψ => .app (.app (.const 1) φ.tm) ψ.tm

/-- All atoms of the formula have numbers below `n`. -/
def Fml.Below (n : Nat) : Fml → Prop
  | .atom i => i < n
  | .imp φ ψ => φ.Below n ∧ ψ.Below n

/-- `x₁ : prop -> ... -> xₙ : prop -> prf φ`, where the atom 0 is the last variable -/
def foStatement (φ : Fml) : Nat → Tm
  | 0 => .app (.const 2) φ.tm
  | n + 1 => .pi (.const 0) (foStatement φ n)

/-- The command is a theorem, whose statement is that of the formula for `n` propositions. -/
def Cmd.States (n : Nat) (φ : Fml) (c : Cmd) : Prop := ∃ s A t, c = .intro s (.theorem_ A t) ∧ A.den = foStatement φ n

/-- The command introduces a name that is not one of `fo_imp.dk`; if it is defined, then by a closed term. -/
def Cmd.Later (c : Cmd) : Prop := ∃ s it, c = .intro s it ∧ 2 < s ∧ ∀ r ∈ (it.ruleList s).getD [], r.rhs.den.FreeBelow 0

end Kontroli
