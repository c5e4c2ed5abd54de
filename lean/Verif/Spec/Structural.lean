import Verif.Spec.Normalising
import Verif.Spec.Overlap

/-!
# Structurally recursive rules

A simple criterion for termination.  Symbols have levels.  The right-hand side of a rule may use symbols of lower levels freely; symbols of its own level
have to be applied, at a fixed position, to a proper part of the pattern that the rule has at the fixed position of its symbol.
-/

namespace Kontroli

/-- `t.Descends lv pos r d`: the part `t`, below `d` binders, of the right-hand side of the rule `r` uses constants in accordance with the levels `lv` and
the positions `pos`. -/
inductive Tm.Descends (lv pos : Sym → Nat) (r : Rule) : Nat → Tm → Prop
  | kind {d : Nat} : Tm.Descends lv pos r d .kind
  | type {d : Nat} : Tm.Descends lv pos r d .type
  | var {d n : Nat} : Tm.Descends lv pos r d (.var n)
  | const {d : Nat} {c : Sym} : lv c < lv r.lhs.symbol → Tm.Descends lv pos r d (.const c)
  | app {d : Nat} {f a : Tm} : Tm.Descends lv pos r d f → Tm.Descends lv pos r d a → Tm.Descends lv pos r d (.app f a)
  | lam {d : Nat} {A b : Tm} : Tm.Descends lv pos r d A → Tm.Descends lv pos r (d + 1) b → Tm.Descends lv pos r d (.lam A b)
  | dlam {d : Nat} {b : Tm} : Tm.Descends lv pos r (d + 1) b → Tm.Descends lv pos r d (.dlam b)
  | pi {d : Nat} {A B : Tm} : Tm.Descends lv pos r d A → Tm.Descends lv pos r (d + 1) B → Tm.Descends lv pos r d (.pi A B)
  /-- a recursive call: `t` is the pattern `q`, which is a proper part of the pattern at the position of the symbol of the rule -/
  | call {d : Nat} {c s : Sym} {ts : List Tm} {ps : List Pattern} {q : Pattern} {t : Tm} : lv c = lv r.lhs.symbol →
      r.lhs.args[pos r.lhs.symbol]? = some (.symb s ps) → Pattern.InList q ps → PatTm q t → ts[pos c]? = some (t.shift d) →
      (∀ u ∈ ts, Tm.Descends lv pos r d u) → Tm.Descends lv pos r d (Tm.apps (.const c) ts)

/-- The variables of the rule that occur inside of patterns have types made by constants to which no rules apply (in particular, they are not functions). -/
def Rule.Flat (R : RuleMap) (r : Rule) : Prop :=
  ∀ s ps n, .symb s ps ∈ r.lhs.args → n ∈ Pattern.varsList ps →
    ∃ ty c as, (r.ctx.map Prod.snd).reverse[n]? = some (some ty) ∧ LTerm.den ty = Tm.apps (.const c) as ∧ ∀ rs, R c = some rs → rs = []

/-- The symbols of rules are objects: their types have type `Type`, in the theory made by the commands before the rules, if these are right. -/
def RulesForObjects (cmds : List Cmd) : Prop :=
  ∀ pre rs post T, cmds = pre ++ .rules rs :: post → Session pre T → ∀ r ∈ rs, ∀ A, T.ty r.lhs.symbol = some A → Strict T [] A .type

/-- Commands with structurally recursive rules on objects. -/
structure Structural (cmds : List Cmd) : Prop where
  objects : RulesForObjects cmds
  flat : ∀ rs, Cmd.rules rs ∈ cmds → ∀ r ∈ rs, r.Flat (rulesOfCmds cmds)
  descends : ∃ lv pos, ∀ s rs r, rulesOfCmds cmds s = some rs → r ∈ rs → r.rhs.den.Descends lv pos r 0

/-! ## A test

This is not part of the code: it shows that the criterion can be tested, if levels and positions are given. -/

mutual
  /-- the term of a pattern without wildcards -/
  def Pattern.term : Pattern → Option Tm
    | .mvar n => some (.var n)
    | .symb s ps => (Pattern.terms ps).map (Tm.apps (.const s))
    | .joker => none
  /-- the terms of patterns without wildcards -/
  def Pattern.terms : List Pattern → Option (List Tm)
    | [] => some []
    | p :: ps => (Pattern.term p).bind fun t => (Pattern.terms ps).map (t :: ·)
end

mutual
  /-- the parts of a pattern -/
  def Pattern.parts : Pattern → List Pattern
    | .symb s ps => .symb s ps :: Pattern.partsList ps
    | p => [p]
  /-- the parts of some patterns -/
  def Pattern.partsList : List Pattern → List Pattern
    | [] => []
    | p :: ps => Pattern.parts p ++ Pattern.partsList ps
end

/-- the terms that are smaller than the argument at the position of the symbol of the rule -/
def Rule.smaller (pos : Sym → Nat) (r : Rule) : List Tm :=
  match r.lhs.args[pos r.lhs.symbol]? with
  | some (.symb _ ps) => (Pattern.partsList ps).filterMap Pattern.term
  | _ => []

/-- the term, applied to the arguments, uses constants in accordance with the levels and positions -/
def Tm.descends (lv pos : Sym → Nat) (r : Rule) : Nat → Tm → List Tm → Bool
  | _, .kind, _ => true
  | _, .type, _ => true
  | _, .var _, _ => true
  | d, .const c, as => decide (lv c < lv r.lhs.symbol) ||
      (lv c == lv r.lhs.symbol && (r.smaller pos).any fun t => decide (as[pos c]? = some (t.shift d)))
  | d, .app f a, as => Tm.descends lv pos r d f (a :: as) && Tm.descends lv pos r d a []
  | d, .lam A b, _ => Tm.descends lv pos r d A [] && Tm.descends lv pos r (d + 1) b []
  | d, .dlam b, _ => Tm.descends lv pos r (d + 1) b []
  | d, .pi A B, _ => Tm.descends lv pos r d A [] && Tm.descends lv pos r (d + 1) B []

/-- the head of a term is a constant without rules -/
def Tm.rigid (R : RuleMap) : Tm → Bool
  | .const c => (R c).all List.isEmpty
  | .app f _ => Tm.rigid R f
  | _ => false

/-- the variables of the rule inside of patterns have types made by constants without rules -/
def Rule.flat (R : RuleMap) (r : Rule) : Bool :=
  r.lhs.args.all fun
    | .symb _ ps => (Pattern.varsList ps).all fun n => ((r.ctx.map Prod.snd).reverse[n]?).any fun o => o.any fun ty => Tm.rigid R (LTerm.den ty)
    | _ => true

/-- the type is not a kind -/
def Tm.small : Tm → Bool
  | .type => false
  | .pi _ B => Tm.small B
  | _ => true

/-- the symbol has a written type that is not a kind -/
def isObject (cmds : List Cmd) (s : Sym) : Bool :=
  cmds.all fun
    | .intro s' it => s' != s || it.given.any fun ty => Tm.small (LTerm.den ty)
    | .rules _ => true

/-- the rules of the commands are structurally recursive, on objects -/
def structural (lv pos : Sym → Nat) (cmds : List Cmd) : Bool :=
  (allRules cmds).all (fun r => Tm.descends lv pos r 0 r.rhs.den []) &&
    cmds.all fun
      | .intro _ _ => true
      | .rules rs => rs.all fun r => r.flat (rulesOfCmds cmds) && isObject cmds r.lhs.symbol

end Kontroli
