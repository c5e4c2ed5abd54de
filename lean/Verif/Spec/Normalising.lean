import Verif.Spec.Normal
import Verif.Spec.Correct

/-!
# Theories in which typed terms are strongly normalising
-/

namespace Kontroli

/-- Every typed term is strongly normalising. -/
def Theory.Normalising (T : Theory) : Prop := ∀ Γ t A, WfCtx T Γ → Strict T Γ t A → SN T.rules T.eta t

/-- The rules for which evaluation and comparison are known to be right: without eta confluent ones, with eta those that only unfold definitions. -/
def Coherent : Bool → RuleMap → Prop
  | false, R => Confluent R
  | true, R => Definitional R

/-- Commands whose checks, with or without eta, come to an end: the variables of rules have types that have type `Type`, there are no wildcards, and after
any of the commands the rules are confluent (with eta: they only unfold definitions) and, if the commands so far are right, typed terms are strongly
normalising. -/
structure TameIn (eta : Bool) (cmds : List Cmd) : Prop where
  full : ∀ rs, Cmd.rules rs ∈ cmds → ∀ r ∈ rs, r.Full
  ctxs : CtxsRightIn eta cmds
  coherent : ∀ pre post, cmds = pre ++ post → Coherent eta (rulesOfCmds pre)
  normalising : ∀ pre post T, cmds = pre ++ post → SessionIn eta pre T → T.Normalising

/-- the same without eta -/
abbrev Tame (cmds : List Cmd) : Prop := TameIn false cmds

end Kontroli
