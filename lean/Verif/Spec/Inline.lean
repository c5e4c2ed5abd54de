import Verif.Spec.Program

/-!
# Expansion of definitions

What it means to expand names in a program, written as replacement at all occurrences.
-/

namespace Kontroli

/-- the application of a term to more arguments -/
def PTerm.more {A : Type} : PTerm A → List (PTerm A) → PTerm A
  | .app h as, bs => .app h (as ++ bs)

mutual
  /-- replacement of names by terms -/
  def PTerm.expand (σ : PSymb → Option (PTerm PSymb)) : PTerm PSymb → PTerm PSymb
    | .app h args => (PHead.expand σ h).more (expandArgs σ args)
  /-- replacement in a head -/
  def PHead.expand (σ : PSymb → Option (PTerm PSymb)) : PHead PSymb → PTerm PSymb
    | .atom a => (σ a).getD (symbTerm a)
    | .abst x ty tm => .app (.abst x (expandOpt σ ty) (PTerm.expand σ tm)) []
    | .prod x ty tm => .app (.prod x (PTerm.expand σ ty) (PTerm.expand σ tm)) []
  /-- replacement in arguments -/
  def expandArgs (σ : PSymb → Option (PTerm PSymb)) : List (PTerm PSymb) → List (PTerm PSymb)
    | [] => []
    | t :: ts => PTerm.expand σ t :: expandArgs σ ts
  /-- replacement in the type of an abstraction -/
  def expandOpt (σ : PSymb → Option (PTerm PSymb)) : Option (PTerm PSymb) → Option (PTerm PSymb)
    | none => none
    | some t => some (PTerm.expand σ t)
end

/-- a function on all terms of an introduction -/
def Intro.map {A B : Type} (f : A → B) : Intro A → Intro B
  | .definition ty tm => .definition (ty.map f) (tm.map f)
  | .theorem_ ty tm => .theorem_ (f ty) (f tm)
  | .declaration inj ty => .declaration inj (f ty)

/-- replacement in an introduction; rules are left as they are -/
def PCmd.expand (σ : PSymb → Option (PTerm PSymb)) : PCmd (PTerm PSymb) → PCmd (PTerm PSymb)
  | .intro x args it => .intro x (args.map fun a => (a.1, a.2.expand σ)) (it.map (PTerm.expand σ))
  | .rules rs => .rules rs

/-- A command introduces one of the names, without arguments and with a body. -/
def Expands (names : List Str) (c : PCmd (PTerm PSymb)) (x : Str) (tm : PTerm PSymb) : Prop :=
  x ∈ names ∧ ∃ it, c = .intro x [] it ∧ it.body = some tm

/-- A program and its expansion: introductions to be expanded are dropped, and their names stand for their (expanded) bodies further
on. -/
inductive Expansion (names : List Str) : (PSymb → Option (PTerm PSymb)) → List (PCmd (PTerm PSymb)) → List (PCmd (PTerm PSymb)) → Prop
  | nil {σ : PSymb → Option (PTerm PSymb)} : Expansion names σ [] []
  | drop {σ σ' : PSymb → Option (PTerm PSymb)} {c : PCmd (PTerm PSymb)} {cs ds : List (PCmd (PTerm PSymb))} {x : Str} {tm : PTerm PSymb} :
      Expands names c x tm → σ' (.new x) = some (tm.expand σ) → (∀ y, y ≠ .new x → σ' y = σ y) → Expansion names σ' cs ds →
      Expansion names σ (c :: cs) ds
  | keep {σ : PSymb → Option (PTerm PSymb)} {c : PCmd (PTerm PSymb)} {cs ds : List (PCmd (PTerm PSymb))} :
      (∀ x tm, ¬ Expands names c x tm) → Expansion names σ cs ds → Expansion names σ (c :: cs) (c.expand σ :: ds)

mutual
  /-- the names in a term, apart from binders -/
  def PTerm.symbs : PTerm PSymb → List PSymb
    | .app h args => PHead.symbs h ++ symbsArgs args
  /-- the names in a head -/
  def PHead.symbs : PHead PSymb → List PSymb
    | .atom a => [a]
    | .abst _ ty tm => symbsOpt ty ++ PTerm.symbs tm
    | .prod _ ty tm => PTerm.symbs ty ++ PTerm.symbs tm
  /-- the names in arguments -/
  def symbsArgs : List (PTerm PSymb) → List PSymb
    | [] => []
    | t :: ts => PTerm.symbs t ++ symbsArgs ts
  /-- the names in the type of an abstraction -/
  def symbsOpt : Option (PTerm PSymb) → List PSymb
    | none => []
    | some t => PTerm.symbs t
end

/-- the names in an introduction, apart from binders -/
def PCmd.symbs : PCmd (PTerm PSymb) → List PSymb
  | .intro _ args it => args.flatMap (fun a => a.2.symbs) ++ symbsOpt it.given ++ symbsOpt it.body
  | .rules _ => []

mutual
  /-- A name is bound in a term. -/
  def PTerm.Binds (x : Str) : PTerm PSymb → Prop
    | .app h args => PHead.Binds x h ∨ bindsArgs x args
  /-- A name is bound in a head. -/
  def PHead.Binds (x : Str) : PHead PSymb → Prop
    | .atom _ => False
    | .abst y ty tm => y = x ∨ bindsOpt x ty ∨ PTerm.Binds x tm
    | .prod y ty tm => y = some x ∨ PTerm.Binds x ty ∨ PTerm.Binds x tm
  /-- A name is bound in arguments. -/
  def bindsArgs (x : Str) : List (PTerm PSymb) → Prop
    | [] => False
    | t :: ts => PTerm.Binds x t ∨ bindsArgs x ts
  /-- A name is bound in the type of an abstraction. -/
  def bindsOpt (x : Str) : Option (PTerm PSymb) → Prop
    | none => False
    | some t => PTerm.Binds x t
end

/-- A name is bound in an introduction. -/
def PCmd.Binds (x : Str) : PCmd (PTerm PSymb) → Prop
  | .intro _ args it => (∃ a ∈ args, a.1 = x ∨ a.2.Binds x) ∨ bindsOpt x it.given ∨ bindsOpt x it.body
  | .rules _ => False

/-- Each name to be expanded occurs at most once in the introductions after its own. -/
def UsedOnce (names : List Str) (cs : List (PCmd (PTerm PSymb))) : Prop :=
  ∀ pre c post x tm, cs = pre ++ c :: post → Expands names c x tm → (post.flatMap PCmd.symbs).count (.new x) ≤ 1

end Kontroli
