import Verif.Spec.Program
import Verif.Spec.WellFormed
import Verif.Spec.Confluence
import Verif.Spec.Eta
import Mathlib.Data.List.Forall2

/-!
# Correct programs

A program is correct if its names can be resolved, which gives commands on numbered symbols (`Shared`), and these commands are right, one after
another, by the textbook (`Session`).
-/

namespace Kontroli

/-! ## Names become symbols -/

/-- an introduction of the kernel is a written introduction -/
def IntroMeans (R : PSymb → Sym → Prop) (args : List (Str × PTerm PSymb)) (it : Intro (PTerm PSymb)) (it' : Intro LTerm) : Prop :=
  ∃ f, (∀ c, c ∈ (it.scope (teleEnv (args.map Prod.fst))).consts ∨ c ∈ argConsts (scopeTele PTerm.scope [] args) → R c (f c)) ∧
    it' = ((it.scope (teleEnv (args.map Prod.fst))).telescope (scopeTele PTerm.scope [] args)).resolve f

/-- a rule of the kernel is a written rule -/
def RuleShared (R : PSymb → Sym → Prop) (r : PRule (PTerm PSymb)) (r' : Rule) : Prop :=
  ∃ f, RuleMeans R f r r' ∧ r'.ctx = r.scope.ctx.map (fun a => (a.1, PTerm.resolveOpt f a.2)) ∧ r'.rhs = r.scope.rhs.resolve f

/-- commands of the kernel for a program, when some names were introduced before -/
inductive Shared : List (List Str × Str) → List Entry → List Cmd → Prop
  | nil {ns : List (List Str × Str)} : Shared ns [] []
  | intro {ns : List (List Str × Str)} {m : List Str} {x : Str} {args : List (Str × PTerm PSymb)} {it : Intro (PTerm PSymb)}
      {it' : Intro LTerm} {es : List Entry} {cmds : List Cmd} : (m, x) ∉ ns → IntroMeans (Refers ns m) args it it' →
      Shared (ns ++ [(m, x)]) es cmds → Shared ns (⟨m, .intro x args it⟩ :: es) (.intro ns.length it' :: cmds)
  | rules {ns : List (List Str × Str)} {m : List Str} {rs : List (PRule (PTerm PSymb))} {rs' : List Rule} {es : List Entry}
      {cmds : List Cmd} : List.Forall₂ (RuleShared (Refers ns m)) rs rs' → Shared ns es cmds →
      Shared ns (⟨m, .rules rs⟩ :: es) (.rules rs' :: cmds)

/-! ## Sessions that are right -/

/-- A theory in which nothing is declared, with or without eta. -/
def Theory.bare (eta : Bool) : Theory := ⟨fun _ => none, fun _ => none, eta⟩

/-- Give a type to a symbol, and make it rewritable with some rules, or not. -/
def Theory.declare (T : Theory) (s : Sym) (A : Tm) (rs : Option (List Rule)) : Theory :=
  ⟨fun c => if c = s then some A else T.ty c, fun c => if c = s then rs else T.rules c, T.eta⟩

/-- Add rules to their symbols. -/
def Theory.extend (T : Theory) (rs : List Rule) : Theory :=
  ⟨T.ty, fun c => (T.rules c).map (· ++ rs.filter fun r => r.lhs.symbol = c), T.eta⟩

/-- The type has a sort. -/
def Theory.IsType (T : Theory) (A : Tm) : Prop := ∃ s, IsSort s ∧ Strict T [] A s

/-- `Introduces T s it A rs`: the introduction `it` of the symbol `s` is right, and gives it the type `A` and the rules `rs`. -/
inductive Introduces (T : Theory) (s : Sym) : Intro LTerm → Tm → Option (List Rule) → Prop
  /-- `s : ty.` -/
  | declared {ty : LTerm} : T.IsType ty.den → Introduces T s (.declaration false ty) ty.den none
  /-- `inj s : ty.` -/
  | injective {ty : LTerm} : T.IsType ty.den → Introduces T s (.declaration true ty) ty.den (some [])
  /-- `def s : ty.` -/
  | definable {ty : LTerm} : T.IsType ty.den → Introduces T s (.definition (some ty) none) ty.den (some [])
  /-- `def s : ty := tm.` -/
  | defined {ty tm : LTerm} : T.IsType ty.den → Strict T [] tm.den ty.den →
      Introduces T s (.definition (some ty) (some tm)) ty.den (some [⟨[], ⟨s, []⟩, tm⟩])
  /-- `def s := tm.` -/
  | inferred {tm : LTerm} {A : Tm} : T.IsType A → Strict T [] tm.den A →
      Introduces T s (.definition none (some tm)) A (some [⟨[], ⟨s, []⟩, tm⟩])
  /-- `thm s : ty := tm.` -/
  | proved {ty tm : LTerm} : T.IsType ty.den → Strict T [] tm.den ty.den → Introduces T s (.theorem_ ty tm) ty.den none

/-- A pattern without wildcards is a term. -/
inductive PatTm : Pattern → Tm → Prop
  | var {n : Nat} : PatTm (.mvar n) (.var n)
  | symb {s : Sym} {ps : List Pattern} {ts : List Tm} : ps.length = ts.length → (∀ (i : Nat) p t, ps[i]? = some p → ts[i]? = some t → PatTm p t) →
      PatTm (.symb s ps) (Tm.apps (.const s) ts)

/-- The rule has types for its variables and no wildcards on its left-hand side; it consists of a context, in which the variable 0 comes first, and of
two terms. -/
def Rule.Consists (r : Rule) (Γ : List Tm) (l u : Tm) : Prop :=
  ∃ tys : List LTerm, r.ctx.map Prod.snd = tys.map some ∧ Γ = (tys.map LTerm.den).reverse ∧
    PatTm (.symb r.lhs.symbol r.lhs.args) l ∧ u = r.rhs.den

/-- The rule has types for its variables and no wildcards. -/
def Rule.Full (r : Rule) : Prop := ∃ Γ l u, r.Consists Γ l u

/-- Both sides of the rule have a common type. -/
def RuleRight (T : Theory) (r : Rule) : Prop :=
  ∃ Γ l u, r.Consists Γ l u ∧ WfCtx T Γ ∧ ∃ A s, IsSort s ∧ Strict T Γ A s ∧ Strict T Γ l A ∧ Strict T Γ u A

/-- `SessionIn eta cmds T`: the commands are right, one after another, from nothing, and make the theory `T`. -/
inductive SessionIn (eta : Bool) : List Cmd → Theory → Prop
  | nil : SessionIn eta [] (.bare eta)
  | intro {cmds : List Cmd} {T : Theory} {s : Sym} {it : Intro LTerm} {A : Tm} {rs : Option (List Rule)} : SessionIn eta cmds T → T.ty s = none →
      Introduces T s it A rs → SessionIn eta (cmds ++ [.intro s it]) (T.declare s A rs)
  | rules {cmds : List Cmd} {T : Theory} {rs : List Rule} : SessionIn eta cmds T →
      (∀ r ∈ rs, (T.rules r.lhs.symbol).isSome ∧ RuleRight T r) → SessionIn eta (cmds ++ [.rules rs]) (T.extend rs)

/-- the same without eta -/
abbrev Session (cmds : List Cmd) (T : Theory) : Prop := SessionIn false cmds T

/-- A program is correct, with or without eta, and makes the theory `T`. -/
def CorrectIn (eta : Bool) (es : List Entry) (T : Theory) : Prop := ∃ cmds, Shared [] es cmds ∧ SessionIn eta cmds T

/-- the same without eta -/
abbrev Correct (es : List Entry) (T : Theory) : Prop := CorrectIn false es T

/-! ## What the code cannot do or does not check -/

/-- The types of the variables of every rule have type `Type`, in the theory made by the commands before it, if these are right. -/
def CtxsRightIn (eta : Bool) (cmds : List Cmd) : Prop :=
  ∀ pre rs post T, cmds = pre ++ .rules rs :: post → SessionIn eta pre T → ∀ r ∈ rs, ∀ Γ l u, r.Consists Γ l u → WfCtx T Γ

/-- the same without eta -/
abbrev CtxsRight (cmds : List Cmd) : Prop := CtxsRightIn false cmds

/-- The rules for which the meta-theory is proved: without eta orthogonal ones, with eta those that only unfold definitions. -/
def Amenable : Bool → RuleMap → Prop
  | false, R => Orthogonal R
  | true, R => Definitional R

/-- The rules of an introduction. -/
def Intro.ruleList (s : Sym) : Intro LTerm → Option (List Rule)
  | .declaration true _ => some []
  | .declaration false _ => none
  | .definition _ none => some []
  | .definition _ (some tm) => some [⟨[], ⟨s, []⟩, tm⟩]
  | .theorem_ _ _ => none

/-- The rules made by commands. -/
def rulesOfCmds (cmds : List Cmd) : RuleMap :=
  cmds.foldl (fun R cmd => match cmd with
    | .intro s it => fun c => if c = s then it.ruleList s else R c
    | .rules rs => fun c => (R c).map (· ++ rs.filter fun r => r.lhs.symbol = c)) fun _ => none

mutual
  /-- all abstractions in a written term have types -/
  def PTerm.Annotated {A : Type} : PTerm A → Prop
    | .app h args => PHead.Annotated h ∧ PTerm.AnnotatedList args
  /-- all abstractions in a head have types -/
  def PHead.Annotated {A : Type} : PHead A → Prop
    | .atom _ => True
    | .abst _ none _ => False
    | .abst _ (some ty) tm => PTerm.Annotated ty ∧ PTerm.Annotated tm
    | .prod _ ty tm => PTerm.Annotated ty ∧ PTerm.Annotated tm
  /-- all abstractions in some terms have types -/
  def PTerm.AnnotatedList {A : Type} : List (PTerm A) → Prop
    | [] => True
    | t :: ts => PTerm.Annotated t ∧ PTerm.AnnotatedList ts
end

/-- all abstractions in a written command have types (for rules, those on the right-hand side) -/
def PCmd.Annotated {A : Type} : PCmd (PTerm A) → Prop
  | .intro _ args it => (∀ a ∈ args, a.2.Annotated) ∧ (∀ ty, it.given = some ty → ty.Annotated) ∧ ∀ tm, it.body = some tm → tm.Annotated
  | .rules rs => ∀ r ∈ rs, r.rhs.Annotated

mutual
  /-- Where the type of a written term is to be inferred (`given = false`) or is known (`given = true`), every abstraction without a type stands at a
  place where its type is known. -/
  def PTerm.Known {A : Type} (given : Bool) : PTerm A → Prop
    | .app h args => PHead.Known (given && args.isEmpty) h ∧ PTerm.KnownList args
  /-- the same for a head -/
  def PHead.Known {A : Type} (given : Bool) : PHead A → Prop
    | .atom _ => True
    | .abst _ none tm => given = true ∧ PTerm.Known given tm
    | .abst _ (some ty) tm => PTerm.Known false ty ∧ PTerm.Known given tm
    | .prod _ ty tm => PTerm.Known false ty ∧ PTerm.Known false tm
  /-- the same for arguments, whose types are known -/
  def PTerm.KnownList {A : Type} : List (PTerm A) → Prop
    | [] => True
    | t :: ts => PTerm.Known true t ∧ PTerm.KnownList ts
end

/-- The abstractions without types in a written command stand where their types are known: types are inferred, bodies are checked against the given
types, and inferred if there are none, and the right-hand sides of rules are checked against the types of the left-hand sides. -/
def PCmd.Known {A : Type} : PCmd (PTerm A) → Prop
  | .intro _ args it => (∀ a ∈ args, a.2.Known false) ∧ (∀ ty, it.given = some ty → ty.Known false) ∧
      ∀ tm, it.body = some tm → tm.Known it.given.isSome
  | .rules rs => ∀ r ∈ rs, r.rhs.Known true

/-- In the program, every abstraction without a type stands where its type is known. -/
def Directed (es : List Entry) : Prop := ∀ e ∈ es, e.cmd.Known

/-- the variables of a written rule have types, and there is no `_` on its left-hand side -/
def PRule.Full (r : PRule (PTerm PSymb)) : Prop := (∀ a ∈ r.ctx, a.2.isSome) ∧ ¬ OccursIn r.ctx.length r.scope.lhs

/-- Programs that are treated exactly: the variables of rules have types that have type `Type` (which the code does not check), there are no
wildcards, and the rules are orthogonal; with eta, they only unfold definitions. -/
structure RegularIn (eta : Bool) (es : List Entry) : Prop where
  full : ∀ m rs, ⟨m, .rules rs⟩ ∈ es → ∀ r ∈ rs, r.Full
  ctxs : ∀ cmds, Shared [] es cmds → CtxsRightIn eta cmds
  orthogonal : ∀ cmds, Shared [] es cmds → Amenable eta (rulesOfCmds cmds)

/-- the same without eta -/
abbrev Regular (es : List Entry) : Prop := RegularIn false es

end Kontroli
