import Verif.Spec.Correct

/-!
# A test for orthogonality

This is not part of the code: it shows that the hypothesis of orthogonality can be tested.
-/

namespace Kontroli

mutual
  /-- the patterns have different constants at some place that both have -/
  def Pattern.clash : Pattern → Pattern → Bool
    | .symb s ps, .symb s' ps' => s != s' || ps.length != ps'.length || Pattern.clashList ps ps'
    | _, _ => false
  /-- some patterns at the same position clash -/
  def Pattern.clashList : List Pattern → List Pattern → Bool
    | p :: ps, p' :: ps' => Pattern.clash p p' || Pattern.clashList ps ps'
    | _, _ => false
end

mutual
  /-- the constants of a pattern, with their arguments -/
  def Pattern.inner : Pattern → List (Sym × List Pattern)
    | .symb s ps => (s, ps) :: Pattern.innerList ps
    | _ => []
  /-- the constants of some patterns -/
  def Pattern.innerList : List Pattern → List (Sym × List Pattern)
    | [] => []
    | p :: ps => Pattern.inner p ++ Pattern.innerList ps
end

/-- all free variables of the term are below `k` -/
def Tm.freeBelow : Nat → Tm → Bool
  | _, .kind => true
  | _, .type => true
  | _, .const _ => true
  | k, .var n => decide (n < k)
  | k, .app f a => Tm.freeBelow k f && Tm.freeBelow k a
  | k, .lam A b => Tm.freeBelow k A && Tm.freeBelow (k + 1) b
  | k, .dlam b => Tm.freeBelow (k + 1) b
  | k, .pi A B => Tm.freeBelow k A && Tm.freeBelow (k + 1) B

/-- the rules in some commands -/
def allRules (cmds : List Cmd) : List Rule :=
  cmds.flatMap fun
    | .intro s it => (it.ruleList s).getD []
    | .rules rs => rs

/-- no variable occurs twice on the left, and all variables on the right are bound -/
def Rule.simple (r : Rule) : Bool := decide (Pattern.varsList r.lhs.args).Nodup && Tm.freeBelow r.ctx.length r.rhs.den

mutual
  /-- the term of a pattern without wildcards, where the variables are numbered by `f` -/
  def Pattern.tm (f : Nat → Nat) : Pattern → Option Tm
    | .mvar m => some (.var (f m))
    | .joker => none
    | .symb s ps => (Pattern.tms f ps).map (Tm.apps (.const s))
  /-- the terms of some patterns without wildcards -/
  def Pattern.tms (f : Nat → Nat) : List Pattern → Option (List Tm)
    | [] => some []
    | p :: ps => match Pattern.tm f p, Pattern.tms f ps with
      | some t, some ts => some (t :: ts)
      | _, _ => none
end

/-- the variables of the first of two rules -/
def firstVar (m : Nat) : Nat := 2 * m

/-- the variables of the second of two rules -/
def secondVar (m : Nat) : Nat := 2 * m + 1

mutual
  /-- what the variables of the first and of the second pattern stand for in a common instance (not for all variables; the
  variables of the patterns are numbered by `firstVar` and `secondVar`) -/
  def Pattern.meet : Pattern → Pattern → List (Nat × Tm) × List (Nat × Tm)
    | .mvar m, p' => (((p'.tm secondVar).map fun t => (m, t)).toList, [])
    | p, .mvar m' => ([], ((p.tm firstVar).map fun t => (m', t)).toList)
    | .symb _ ps, .symb _ ps' => Pattern.meets ps ps'
    | _, _ => ([], [])
  /-- the same for lists of patterns -/
  def Pattern.meets : List Pattern → List Pattern → List (Nat × Tm) × List (Nat × Tm)
    | p :: ps, p' :: ps' =>
      ((Pattern.meet p p').1 ++ (Pattern.meets ps ps').1, (Pattern.meet p p').2 ++ (Pattern.meets ps ps').2)
    | _, _ => ([], [])
end

/-- the right-hand side of a rule where variables stand for what is given, and are numbered by `f` otherwise -/
def Rule.meetRhs (f : Nat → Nat) (bs : List (Nat × Tm)) (r : Rule) : Tm := r.rhs.den.sub fun m => (bs.lookup m).getD (.var (f m))

/-- the right-hand sides are the same for common instances of the left-hand sides -/
def Rule.same (r r' : Rule) : Bool :=
  decide (r.lhs.args.length = r'.lhs.args.length) &&
    decide (r.meetRhs firstVar (Pattern.meets r.lhs.args r'.lhs.args).1 = r'.meetRhs secondVar (Pattern.meets r.lhs.args r'.lhs.args).2)

/-- the left-hand sides have no common instance, or the right-hand sides are the same for common instances -/
def Rule.apart (r r' : Rule) : Bool := r.lhs.symbol != r'.lhs.symbol || Pattern.clashList r.lhs.args r'.lhs.args || r.same r'

/-- the rule `r'` is not applicable inside the left-hand side of `r` -/
def Rule.outside (r r' : Rule) : Bool :=
  (Pattern.innerList r.lhs.args).all fun a => a.1 != r'.lhs.symbol || decide (a.2.length < r'.lhs.args.length) || Pattern.clashList r'.lhs.args a.2

/-- all pairs of elements at different positions -/
def allPairs {α : Type} (f : α → α → Bool) : List α → Bool
  | [] => true
  | a :: as => as.all (f a) && allPairs f as

/-- the rules of the commands are simple and do not overlap, except that two rules may agree at the same place -/
def orthogonal (cmds : List Cmd) : Bool :=
  (allRules cmds).all Rule.simple && allPairs Rule.apart (allRules cmds) && (allRules cmds).all fun r => (allRules cmds).all r.outside

end Kontroli
