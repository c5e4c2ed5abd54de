import Verif.Spec.Program

/-! # Occurrences of constants in commands -/

namespace Kontroli

/-- the constants in an introduction -/
def Scoped.introConsts : Scoped → List PSymb
  | .intro _ args it => args.flatMap (fun a => a.2.consts) ++ PTerm.constsOpt it.given ++ PTerm.constsOpt it.body
  | .rules _ => []

/-- all constants in a command -/
def Scoped.allConsts : Scoped → List PSymb
  | .rules rs => rs.flatMap PRule.consts
  | c => c.introConsts

/-- the command introduces the name -/
def Scoped.Introduces (c : PSymb) : Scoped → Prop
  | .intro x _ _ => c = .new x
  | .rules _ => False

/-- the number of occurrences of a constant in the introductions among some commands -/
def occurrences (cs : List Scoped) (c : PSymb) : Nat := (cs.flatMap Scoped.introConsts).count c

/-- What is counted: the occurrences in introductions, from the last introduction of the constant on.  Nothing is said about constants
that are neither introduced nor occur. -/
def Counted (cs : List Scoped) (c : PSymb) (n : Nat) : Prop :=
  (∃ pre cmd post, cs = pre ++ cmd :: post ∧ cmd.Introduces c ∧ (∀ d ∈ post, ¬ d.Introduces c) ∧ n = occurrences (cmd :: post) c) ∨
  ((∀ d ∈ cs, ¬ d.Introduces c) ∧ n = occurrences cs c ∧ 0 < n)

end Kontroli
