import Verif.Spec.Web

/-!
# Programs for the loop of users of the library
-/

namespace Kontroli

/-- no name in the command has a path -/
def PCmd.Unqualified : PCmd (PTerm PSymb) → Prop
  | .intro _ args it => ∀ c, c ∈ (it.scope (teleEnv (args.map Prod.fst))).consts ∨ c ∈ argConsts (scopeTele PTerm.scope [] args) → c.path = []
  | .rules rs => ∀ r ∈ rs, ∀ c ∈ r.scope.consts, c.path = []

/-- Every rule is right in the theory made by the commands before it, if these are right. -/
def RulesRight (cmds : List Cmd) : Prop :=
  ∀ pre rs post T, cmds = pre ++ .rules rs :: post → Session pre T → ∀ r ∈ rs, RuleRight T r

end Kontroli
