import Verif.Spec.Lex
import Verif.Model.Syntax

/-! # Terms and commands that can be written down -/

namespace Kontroli

mutual
  /-- all names in a term are lexically valid -/
  def PTerm.Valid : PTerm PSymb → Prop
    | .app h args => h.Valid ∧ ValidArgs args

  /-- all names in a head are lexically valid -/
  def PHead.Valid : PHead PSymb → Prop
    | .atom s => ValidSymb s
    | .abst x none tm => ValidName x ∧ tm.Valid
    | .abst x (some ty) tm => ValidName x ∧ ty.Valid ∧ tm.Valid
    | .prod none ty tm => ty.Valid ∧ tm.Valid
    | .prod (some x) ty tm => ValidName x ∧ ty.Valid ∧ tm.Valid

  /-- all names in the arguments are lexically valid -/
  def ValidArgs : List (PTerm PSymb) → Prop
    | [] => True
    | a :: as => a.Valid ∧ ValidArgs as
end

/-- all names in an introduction are lexically valid, and there is a type or a term -/
def ValidIntro : Intro (PTerm PSymb) → Prop
  | .declaration _ ty => ty.Valid
  | .theorem_ ty tm => ty.Valid ∧ tm.Valid
  | .definition (some ty) none => ty.Valid
  | .definition none (some tm) => tm.Valid
  | .definition (some ty) (some tm) => ty.Valid ∧ tm.Valid
  | .definition none none => False

/-- all names in a rule are lexically valid -/
def PRule.Valid (r : PRule (PTerm PSymb)) : Prop :=
  (∀ v ∈ r.ctx, ValidName v.1 ∧ ∀ ty, v.2 = some ty → ty.Valid) ∧ r.lhs.Valid ∧ r.rhs.Valid

/-- all names in a command are lexically valid, definitions have a type or a term, and there are rules in a list of rules -/
def PCmd.Valid : PCmd (PTerm PSymb) → Prop
  | .intro x args it => ValidName x ∧ (∀ a ∈ args, ValidName a.1 ∧ a.2.Valid) ∧ ValidIntro it
  | .rules rs => rs ≠ [] ∧ ∀ r ∈ rs, r.Valid

end Kontroli
