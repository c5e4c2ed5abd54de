import Verif.Model.Fmt
import Verif.Model.Text

/-!
# Inlining of definitions (`dedukti-parse/examples/inline.rs`)

The program reads a file of commands with the strict parser, without scoping, and a file of names, one per line.  The hash map is a partial
function.  That the text is read is not modelled.
-/

namespace Kontroli

/-- `HashMap<Symb<&str>, Term>` (`dedukti-parse/examples/inline.rs` L42) -/
abbrev Bodies := PSymb → Option (PTerm PSymb)

/-- `map.remove(&a)`, without the value -/
def Bodies.remove (m : Bodies) (a : PSymb) : Bodies := fun b => if b = a then none else m b

/-- `map.insert(a, t)` -/
def Bodies.insert (m : Bodies) (a : PSymb) (t : PTerm PSymb) : Bodies := fun b => if b = a then some t else m b

mutual
  /-- `subst`, that is `map_atoms` (`dedukti-parse/examples/inline.rs` L5-26) with the function of L32-38: arguments first. -/
  def PTerm.inl (m : Bodies) : PTerm PSymb → PTerm PSymb × Bodies
    | .app h args => match inlArgs m args with
      | (args, m) => match PHead.inl m h with
        | (.app h as, m) => (.app h (as ++ args), m)

  /-- the head (`dedukti-parse/examples/inline.rs` L8-24), as a term: an atom may become an application -/
  def PHead.inl (m : Bodies) : PHead PSymb → PTerm PSymb × Bodies
    | .atom a => match m a with
      | none => (.app (.atom a) [], m)
      | some t => (t, m.remove a)
    | .abst x ty tm => match inlOpt m ty with
      | (ty, m) => match PTerm.inl m tm with
        | (tm, m) => (.app (.abst x ty tm) [], m)
    | .prod x ty tm => match PTerm.inl m ty with
      | (ty, m) => match PTerm.inl m tm with
        | (tm, m) => (.app (.prod x ty tm) [], m)

  /-- the arguments, from left to right (`dedukti-parse/examples/inline.rs` L7) -/
  def inlArgs (m : Bodies) : List (PTerm PSymb) → List (PTerm PSymb) × Bodies
    | [] => ([], m)
    | t :: ts => match PTerm.inl m t with
      | (t, m) => match inlArgs m ts with
        | (ts, m) => (t :: ts, m)

  /-- the type of an abstraction (`dedukti-parse/examples/inline.rs` L18) -/
  def inlOpt (m : Bodies) : Option (PTerm PSymb) → Option (PTerm PSymb) × Bodies
    | none => (none, m)
    | some t => match PTerm.inl m t with
      | (t, m) => (some t, m)
end

/-- the arguments of a command (`dedukti-parse/examples/inline.rs` L63-66) -/
def inlParams (m : Bodies) : List (Str × PTerm PSymb) → List (Str × PTerm PSymb) × Bodies
  | [] => ([], m)
  | (x, t) :: as => match t.inl m with
    | (t, m) => match inlParams m as with
      | (as, m) => ((x, t) :: as, m)

/-- `intro.map_type(..)` (`dedukti-parse/src/cmd.rs` L57-63) with `subst` -/
def inlType (m : Bodies) : Intro (PTerm PSymb) → Intro (PTerm PSymb) × Bodies
  | .definition ty tm => match inlOpt m ty with
    | (ty, m) => (.definition ty tm, m)
  | .theorem_ ty tm => match ty.inl m with
    | (ty, m) => (.theorem_ ty tm, m)
  | .declaration inj ty => match ty.inl m with
    | (ty, m) => (.declaration inj ty, m)

/-- `intro.map_term(..)` (`dedukti-parse/src/cmd.rs` L66-72) with `subst` -/
def inlTerm (m : Bodies) : Intro (PTerm PSymb) → Intro (PTerm PSymb) × Bodies
  | .definition ty tm => match inlOpt m tm with
    | (tm, m) => (.definition ty tm, m)
  | .theorem_ ty tm => match tm.inl m with
    | (tm, m) => (.theorem_ ty tm, m)
  | .declaration inj ty => (.declaration inj ty, m)

/-- the introductions that are not printed (`dedukti-parse/examples/inline.rs` L56-57), with their bodies -/
def inlines (names : List Str) (x : Str) (args : List (Str × PTerm PSymb)) : Intro (PTerm PSymb) → Option (PTerm PSymb)
  | .definition _ (some tm) => if names.contains x && args.isEmpty then some tm else none
  | .theorem_ _ tm => if names.contains x && args.isEmpty then some tm else none
  | _ => none

/-- a command (`dedukti-parse/examples/inline.rs` L55-73): what is printed, if anything -/
def inlineCmd (names : List Str) (m : Bodies) : PCmd (PTerm PSymb) → Option (PCmd (PTerm PSymb)) × Bodies
  | .intro x args it => match inlines names x args it with
    | some tm => match tm.inl m with
      | (tm, m) => (none, m.insert (.new x) tm)
    | none => match inlParams m args with
      | (args, m) => match inlType m it with
        | (it, m) => match inlTerm m it with
          | (it, m) => (some (.intro x args it), m)
  | .rules rs => (some (.rules rs), m)

/-- the loop (`dedukti-parse/examples/inline.rs` L51-74): the commands that are printed, and whether the end is reached; `unwrap` panics on an
error -/
def inlineLoop (names : List Str) (m : Bodies) : List (POut ParseError (PCmd (PTerm PSymb))) → List (PCmd (PTerm PSymb)) × Bool
  | [] => ([], true)
  | .ok c :: cs => match inlineCmd names m c with
    | (o, m) => match inlineLoop names m cs with
      | (ds, b) => (o.toList ++ ds, b)
  | .err _ :: _ => ([], false)
  | .panic :: _ => ([], false)

/-- `main` of `inline` (`dedukti-parse/examples/inline.rs` L41-77) for the text of the names and the text of the commands -/
def inline (names text : Str) : Str × Bool :=
  match inlineLoop (splitLines [] names) (fun _ => none) (strict scopeSymb text) with
  | (cs, b) => (cs.flatMap fun c => c.show ++ str ".\n", b)

end Kontroli
