import Verif.Model.Files
import Verif.Spec.Path
import Verif.Spec.Tokens
import Verif.Spec.Scope
import Verif.Spec.Share
import Verif.Spec.History

/-!
# What a program means

A program is a list of commands as they are written, each with the module it is in.  The names of a program are numbered in the order of
their introduction.
-/

namespace Kontroli

/-- a command as it is written, in a module -/
structure Entry where
  mod : List Str
  cmd : PCmd (PTerm PSymb)

/-- the names that are introduced, with their modules, in order -/
def declared : List Entry → List (List Str × Str)
  | [] => []
  | ⟨m, .intro x _ _⟩ :: es => (m, x) :: declared es
  | ⟨_, .rules _⟩ :: es => declared es

/-- The name `c` in the module `m` refers to the `i`-th of some names: its module is found from a module that encloses `m` (or is `m`), and
not from one further inside. -/
def Refers (names : List (List Str × Str)) (m : List Str) (c : PSymb) (i : Nat) : Prop :=
  ∃ p, p <+: m ∧ names[i]? = some (p ++ c.path, c.name) ∧
    ∀ p', p' <+: m → p.length < p'.length → (p' ++ c.path, c.name) ∉ names

/-- A written term means a plain term: its constants refer to symbols by `R`. -/
def Means (R : PSymb → Sym → Prop) (t : PTerm PSymb) (u : Tm) : Prop :=
  ∃ f, (∀ c ∈ (t.scope []).consts, R c (f c)) ∧ u = (t.scope []).den f

/-- The introduction of the symbol `s` is right in a theory: its type is the one that is written and can be typed, and the body that is
written has this type. -/
def IntroSound (T : Theory) (R : PSymb → Sym → Prop) (s : Sym) (args : List (Str × PTerm PSymb)) (it : Intro (PTerm PSymb)) : Prop :=
  ∃ A, T.ty s = some A ∧
    (∀ ty, it.given = some ty → Means R (telescopeType args ty) A ∧ ∃ B, HasType T [] A B) ∧
    (∀ tm, it.body = some tm → ∃ t, Means R (telescopeTerm args tm) t ∧ HasType T [] t A) ∧
    (it.body = none → ∃ B, IsSort B ∧ HasType T [] A B)

/-- the constants of a rule -/
def PRule.consts (r : PRule (PTerm Atom)) : List PSymb :=
  (r.ctx.flatMap fun a => PTerm.constsOpt a.2) ++ r.lhs.consts ++ r.rhs.consts

/-- the variable with index `n` occurs in a pattern -/
inductive OccursIn (n : Nat) : PTerm Atom → Prop
  | here : OccursIn n (.app (.atom (.var n)) [])
  | arg {h : PHead Atom} {args : List (PTerm Atom)} {a : PTerm Atom} : a ∈ args → OccursIn n a → OccursIn n (.app h args)

/-- A rule is right in a theory: if its variables have types and there is no `_` on its left-hand side then both sides have a common
type, where the variables have the types that are written. -/
def RuleSound (T : Theory) (f : PSymb → Sym) (r : PRule (PTerm PSymb)) : Prop :=
  ∀ tys : List (PTerm Atom), r.scope.ctx.map Prod.snd = tys.map some → ¬ OccursIn r.ctx.length r.scope.lhs →
    ∃ A, HasType T (tys.map (PTerm.den f)).reverse (r.scope.lhs.den f) A ∧ HasType T (tys.map (PTerm.den f)).reverse (r.scope.rhs.den f) A

/-- A rule of a theory is a written rule: `f` gives the symbols to which its constants refer. -/
structure RuleMeans (R : PSymb → Sym → Prop) (f : PSymb → Sym) (r : PRule (PTerm PSymb)) (r' : Rule) : Prop where
  consts : ∀ c ∈ r.scope.consts, R c (f c)
  lhs : PatOf f r.ctx.length r.scope.lhs (.symb r'.lhs.symbol r'.lhs.args)
  rhs : r'.rhs.den = r.scope.rhs.den f

/-- A theory is what a program says, and is right. -/
structure ProgramSound (es : List Entry) (T : Theory) : Prop where
  /-- no name is introduced twice -/
  nodup : (declared es).Nodup
  /-- the symbols are the numbers of the names -/
  names : ∀ s, (T.ty s).isSome ↔ s < (declared es).length
  /-- every introduction is right, where constants refer to names introduced before -/
  intros : ∀ pre m x args it post, es = pre ++ ⟨m, .intro x args it⟩ :: post →
    IntroSound T (Refers (declared pre) m) (declared pre).length args it
  /-- every rule is right, where constants refer to names introduced before -/
  rules : ∀ pre m rs post, es = pre ++ ⟨m, .rules rs⟩ :: post → ∀ r ∈ rs, ∃ f r',
    RuleMeans (Refers (declared pre) m) f r r' ∧ RuleSound T f r ∧ ∃ l, T.rules r'.lhs.symbol = some l ∧ r' ∈ l
  /-- the rules of the theory are the bodies of definitions and the written rules -/
  origin : ∀ s l r', T.rules s = some l → r' ∈ l →
    (∃ pre m x args ty tm post, es = pre ++ ⟨m, .intro x args (.definition ty (some tm))⟩ :: post ∧ s = (declared pre).length ∧
      r'.lhs = ⟨s, []⟩ ∧ Means (Refers (declared pre) m) (telescopeTerm args tm) r'.rhs.den) ∨
    (∃ pre m rs post r f, es = pre ++ ⟨m, .rules rs⟩ :: post ∧ r ∈ rs ∧ r'.lhs.symbol = s ∧ RuleMeans (Refers (declared pre) m) f r r')

/-- the standard input is meant -/
def MeansStdin (pieces : List Str) : Prop := pieces.head? = some ['-'] ∧ naming pieces = [['-']]

/-- a path consists of pieces -/
def PathOf (p : Str) (pieces : List Str) : Prop := pieces ≠ [] ∧ (∀ q ∈ pieces, '/' ∉ q) ∧ p = pathText pieces

/-- The texts that some paths mean, with their modules.  The standard input is read by the first path that means it. -/
inductive Sources (fs : FileSystem) : Str → List Str → List (List Str × Str) → Prop
  | nil {stdin : Str} : Sources fs stdin [] []
  | stdin {stdin p : Str} {ps pieces m : List Str} {srcs : List (List Str × Str)} : PathOf p pieces → ModuleOf pieces m → MeansStdin pieces →
      Sources fs [] ps srcs → Sources fs stdin (p :: ps) ((m, stdin) :: srcs)
  | file {stdin p text : Str} {ps pieces m : List Str} {srcs : List (List Str × Str)} : PathOf p pieces → ModuleOf pieces m →
      ¬ MeansStdin pieces → fs p = some text → Sources fs stdin ps srcs → Sources fs stdin (p :: ps) ((m, text) :: srcs)

/-- A text consists of some commands, by the grammar (`Spec/Tokens.lean`, `Spec/Grammar.lean`). -/
def TextOf (text : Str) (cs : List (PCmd (PTerm PSymb))) : Prop :=
  ∃ lines ts, LinesOf text lines ∧ LexesLines 0 lines ts ∧ GText ts cs

/-- The program given by texts in modules. -/
inductive ProgramOf : List (List Str × Str) → List Entry → Prop
  | nil : ProgramOf [] []
  | cons {m : List Str} {text : Str} {cs : List (PCmd (PTerm PSymb))} {srcs : List (List Str × Str)} {es : List Entry} :
      TextOf text cs → ProgramOf srcs es → ProgramOf ((m, text) :: srcs) (cs.map (Entry.mk m) ++ es)

end Kontroli
