import Verif.Model.Parse

/-!
# Scoping

What the names in a term stand for, defined on the tree of the term.  An environment lists the enclosing binders, the innermost first;
a product without a name binds nothing, but counts.
-/

namespace Kontroli

/-- the position of the innermost binder of a name -/
def binderOf (env : List (Option Str)) (x : Str) : Option Nat := env.findIdx? fun o => decide (o = some x)

/-- what a name stands for -/
def resolve (env : List (Option Str)) (s : PSymb) : Atom :=
  if s.path = [] then
    match binderOf env s.name with
    | some n => .var n
    | none => if s.name = str "Type" then .type else .const s
  else .const s

mutual
  /-- resolve all names in a term -/
  def PTerm.scope (env : List (Option Str)) : PTerm PSymb → PTerm Atom
    | .app h args => .app (h.scope env) (scopeArgs env args)

  /-- resolve all names in a head -/
  def PHead.scope (env : List (Option Str)) : PHead PSymb → PHead Atom
    | .atom s => .atom (resolve env s)
    | .abst x none tm => .abst x none (tm.scope (some x :: env))
    | .abst x (some ty) tm => .abst x (some (ty.scope env)) (tm.scope (some x :: env))
    | .prod x ty tm => .prod x (ty.scope env) (tm.scope (x :: env))

  /-- resolve all names in arguments -/
  def scopeArgs (env : List (Option Str)) : List (PTerm PSymb) → List (PTerm Atom)
    | [] => []
    | a :: as => a.scope env :: scopeArgs env as
end

/-- variables that are bound one after the other -/
def scopeTele {T T' : Type} (f : List (Option Str) → T → T') (env : List (Option Str)) : List (Str × T) → List (Str × T')
  | [] => []
  | (x, ty) :: l => (x, f env ty) :: scopeTele f (some x :: env) l

/-- the environment below variables that are bound one after the other -/
def teleEnv (names : List Str) : List (Option Str) := (names.map some).reverse

/-- resolve all names in an introduction -/
def Intro.scope (env : List (Option Str)) : Intro (PTerm PSymb) → Intro (PTerm Atom)
  | .definition ty tm => .definition (ty.map (PTerm.scope env)) (tm.map (PTerm.scope env))
  | .theorem_ ty tm => .theorem_ (ty.scope env) (tm.scope env)
  | .declaration inj ty => .declaration inj (ty.scope env)

/-- Resolve all names in a rule.  On the left-hand side, `_` is bound outside of all variables. -/
def PRule.scope (r : PRule (PTerm PSymb)) : PRule (PTerm Atom) :=
  ⟨scopeTele (fun env ty => ty.map (PTerm.scope env)) [] r.ctx, r.lhs.scope (teleEnv (r.ctx.map Prod.fst) ++ [some (str "_")]),
    r.rhs.scope (teleEnv (r.ctx.map Prod.fst))⟩

/-- resolve all names in a command -/
def PCmd.scope : PCmd (PTerm PSymb) → PCmd (PTerm Atom)
  | .intro x args it => .intro x (scopeTele PTerm.scope [] args) (it.scope (teleEnv (args.map Prod.fst)))
  | .rules rs => .rules (rs.map PRule.scope)

/-- the items until the first one that is not a command, inclusively -/
def upToError {ε C : Type} : List (POut ε C) → List (POut ε C)
  | [] => []
  | .ok c :: l => .ok c :: upToError l
  | i :: _ => [i]

/-- an item with its names resolved -/
def scopeItem : POut ParseError (PCmd (PTerm PSymb)) → POut ParseError (PCmd (PTerm Atom))
  | .ok c => .ok c.scope
  | .err e => .err e
  | .panic => .panic

end Kontroli
