import Verif.Spec.Tm
import Verif.Model.Driver

/-!
# Proper terms

The code can represent the application of a term to no arguments.  Sharing never makes one; the left-hand sides of rules, turned
into terms, contain the applications of constants to no arguments.  Proper terms contain no others.
-/

namespace Kontroli

mutual
  /-- only constants are applied to no arguments -/
  def LTerm.Proper : LTerm → Prop
    | .type => True
    | .const _ => True
    | .var _ => True
    | .comb c => LComb.Proper c
  /-- only constants are applied to no arguments -/
  def LComb.Proper : Comb Str LTerm → Prop
    | .appl f args => LTerm.Proper f ∧ LTerm.ProperList args ∧ (args = [] → ∃ s, f = .const s)
    | .prod _ ty tm => LTerm.Proper ty ∧ LTerm.Proper tm
    | .abst _ ty tm => LTerm.ProperOpt ty ∧ LTerm.Proper tm
  /-- all terms of the list are proper -/
  def LTerm.ProperList : List LTerm → Prop
    | [] => True
    | t :: ts => LTerm.Proper t ∧ LTerm.ProperList ts
  /-- the term is proper, if there is one -/
  def LTerm.ProperOpt : Option LTerm → Prop
    | none => True
    | some t => LTerm.Proper t
end

mutual
  /-- only constants are applied to no arguments -/
  def STerm.Proper : STerm → Prop
    | .kind => True
    | .type => True
    | .const _ => True
    | .var _ => True
    | .lcomb c => LComb.Proper c
    | .scomb c => SComb.Proper c
  /-- only constants are applied to no arguments -/
  def SComb.Proper : Comb Str STerm → Prop
    | .appl f args => STerm.Proper f ∧ STerm.ProperList args ∧ (args = [] → ∃ s, f = .const s)
    | .prod _ ty tm => STerm.Proper ty ∧ STerm.Proper tm
    | .abst _ ty tm => STerm.ProperOpt ty ∧ STerm.Proper tm
  /-- all terms of the list are proper -/
  def STerm.ProperList : List STerm → Prop
    | [] => True
    | t :: ts => STerm.Proper t ∧ STerm.ProperList ts
  /-- the term is proper, if there is one -/
  def STerm.ProperOpt : Option STerm → Prop
    | none => True
    | some t => STerm.Proper t
end

/-- all right-hand sides of rules are proper -/
def GCtx.ProperRules (gc : GCtx) : Prop := ∀ s rs, gc.rules s = some rs → ∀ r ∈ rs, r.rhs.Proper

/-- the terms of an introduction are proper -/
def Intro.Proper : Intro LTerm → Prop
  | .definition ty tm => LTerm.ProperOpt ty ∧ LTerm.ProperOpt tm
  | .theorem_ ty tm => ty.Proper ∧ tm.Proper
  | .declaration _ ty => ty.Proper

/-- the right-hand side and the types of the variables of a rule are proper -/
def Rule.Proper (r : Rule) : Prop := r.rhs.Proper ∧ ∀ a ∈ r.ctx, LTerm.ProperOpt a.2

/-- the terms of a command are proper -/
def Cmd.Proper : Cmd → Prop
  | .intro _ it => it.Proper
  | .rules rs => ∀ r ∈ rs, r.Proper

/-- Every outcome of the kernel functions is one of the modelled kernel, with some fuel and some reference counts, which may differ from
call to call.  (`Kern.Real` is about successes only.) -/
structure Kern.Exact (k : Kern) : Prop where
  intro : ∀ gc i, ∃ n rc, k.intro gc i = (Kontroli.intro n gc i ⟨[], [], rc⟩).value
  rewrite : ∀ gc t, ∃ n rc, k.rewrite gc t = (Kontroli.rewrite n gc t ⟨[], [], rc⟩).value
  check : ∀ gc c, ∃ n rc, k.check gc c = (Check.check n gc c ⟨[], [], rc⟩).value

/-- there is a verdict: the run has come to an end, with success or with an error -/
def Out.Decided {α : Type} (o : Out α) : Prop := (∃ a, o = .ok a) ∨ ∃ e, o = .err e

/-- two outcomes agree: the same error, or results related by `Q`; nothing is said if one run does not end or panics -/
def ResRel {α β : Type} (Q : α → β → Prop) : Res α → Res β → Prop
  | .ok a, .ok b => Q a b
  | .err e, .err e' => e = e'
  | .ok _, .err _ => False
  | .err _, .ok _ => False
  | _, _ => True

/-- all terms of a context are proper -/
structure GCtx.Proper (gc : GCtx) : Prop where
  rules : gc.ProperRules
  types : ∀ s A, gc.types s = some A → A.Proper

end Kontroli
