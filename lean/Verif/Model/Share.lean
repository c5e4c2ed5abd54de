import Verif.Model.Symbols

/-!
# From scoped to shared structures (`kontroli/src/share.rs`)
-/

namespace Kontroli

/-- `kontroli/src/share.rs` L41-47 (`Share for Symb`). -/
def PSymb.share (syms : Symbols) (s : PSymb) : Except ShareError Sym :=
  match syms.get s.path s.name with
  | some c => .ok c
  | none => .error (.undeclaredSymbol s.display)

mutual
  /-- `kontroli/src/share.rs` L71-81 (`Share for PTerm`). -/
  def PTerm.share (syms : Symbols) : PTerm Atom → Except ShareError LTerm
    | .app h [] =>
      match PHead.share syms h with
      | .error e => .error e
      | .ok head => .ok head
    | .app h (a :: as) =>
      match PHead.share syms h with
      | .error e => .error e
      | .ok head => match PTerm.share syms a with
        | .error e => .error e
        | .ok t => match PTerm.shareList syms as with
          | .error e => .error e
          | .ok ts => .ok (.comb (.appl head (t :: ts)))
  /-- `kontroli/src/share.rs` L49-69 (`Share for AppH`). -/
  def PHead.share (syms : Symbols) : PHead Atom → Except ShareError LTerm
    | .atom (.const c) => match PSymb.share syms c with
      | .error e => .error e
      | .ok s => .ok (.const s)
    | .atom (.var v) => .ok (.var v)
    | .atom .type => .ok .type
    | .prod x ty tm =>
      match PTerm.share syms ty with
      | .error e => .error e
      | .ok ty => match PTerm.share syms tm with
        | .error e => .error e
        | .ok tm => .ok (.comb (.prod (x.getD ['$']) ty tm))
    | .abst x ty tm =>
      match PTerm.shareOpt syms ty with
      | .error e => .error e
      | .ok ty => match PTerm.share syms tm with
        | .error e => .error e
        | .ok tm => .ok (.comb (.abst x ty tm))
  /-- `args.into_iter().map(|tm| tm.share(syms)).collect()` (`kontroli/src/share.rs` L77). -/
  def PTerm.shareList (syms : Symbols) : List (PTerm Atom) → Except ShareError (List LTerm)
    | [] => .ok []
    | t :: ts => match PTerm.share syms t with
      | .error e => .error e
      | .ok t => match PTerm.shareList syms ts with
        | .error e => .error e
        | .ok ts => .ok (t :: ts)
  /-- `ty.map(|ty| ty.share(syms)).transpose()` (`kontroli/src/share.rs` L64, L112, L132-133). -/
  def PTerm.shareOpt (syms : Symbols) : Option (PTerm Atom) → Except ShareError (Option LTerm)
    | none => .ok none
    | some t => match PTerm.share syms t with
      | .error e => .error e
      | .ok t => .ok (some t)
end

mutual
  /-- `kontroli/src/share.rs` L83-105 (`TryFrom<&LTerm> for Pattern`). -/
  def Pattern.ofL : LTerm → Except ShareError Pattern
    | .const c => .ok (.symb c [])
    | .var v => .ok (.mvar v)
    | .type => .error .noPrepattern
    | .comb (.appl head args2) =>
      match Pattern.ofL head with
      | .error e => .error e
      | .ok (.symb s args) => match Pattern.ofLList args2 with
        | .error e => .error e
        | .ok args2 => .ok (.symb s (args ++ args2))
      | .ok _ => .error .noPrepattern
    | .comb (.prod _ _ _) => .error .noPrepattern
    | .comb (.abst _ _ _) => .error .noPrepattern
  /-- `args2.into_iter().map(Self::try_from).collect()` (`kontroli/src/share.rs` L93-94). -/
  def Pattern.ofLList : List LTerm → Except ShareError (List Pattern)
    | [] => .ok []
    | t :: ts => match Pattern.ofL t with
      | .error e => .error e
      | .ok p => match Pattern.ofLList ts with
        | .error e => .error e
        | .ok ps => .ok (p :: ps)
end

mutual
  /-- `kontroli/src/pattern.rs` L48-54 (`Pattern::joke`). -/
  def Pattern.joke (joker : Nat) : Pattern → Pattern
    | .symb s args => .symb s (Pattern.jokeList joker args)
    | .mvar v => if v = joker then .joker else .mvar v
    | .joker => .joker
  /-- `args.into_iter().map(|p| p.joke(joker)).collect()` (`kontroli/src/pattern.rs` L50). -/
  def Pattern.jokeList (joker : Nat) : List Pattern → List Pattern
    | [] => []
    | p :: ps => Pattern.joke joker p :: Pattern.jokeList joker ps
end

/-- `kontroli/src/pattern.rs` L63-72 (`TryFrom<Pattern> for TopPattern`) with `map_err` (`kontroli/src/share.rs` L120). -/
def TopPattern.ofPattern : Pattern → Except ShareError TopPattern
  | .symb s args => .ok ⟨s, args⟩
  | _ => .error .noTopPattern

/-- the context of a rule (`kontroli/src/share.rs` L110-115) -/
def shareCtx (syms : Symbols) : List (Str × Option (PTerm Atom)) → Except ShareError (List (Str × Option LTerm))
  | [] => .ok []
  | (id, ty) :: ctx => match PTerm.shareOpt syms ty with
    | .error e => .error e
    | .ok ty => match shareCtx syms ctx with
      | .error e => .error e
      | .ok ctx => .ok ((id, ty) :: ctx)

/-- `kontroli/src/share.rs` L107-126 (`Share for parse::Rule`). -/
def PRule.share (syms : Symbols) (r : PRule (PTerm Atom)) : Except ShareError Rule :=
  match shareCtx syms r.ctx with
  | .error e => .error e
  | .ok ctx => match r.lhs.share syms with
    | .error e => .error e
    | .ok lhs => match Pattern.ofL lhs with
      | .error e => .error e
      | .ok lhs => match TopPattern.ofPattern (lhs.joke r.ctx.length) with
        | .error e => .error e
        | .ok lhs => match r.rhs.share syms with
          | .error e => .error e
          | .ok rhs => .ok ⟨ctx, lhs, rhs⟩

/-- `kontroli/src/share.rs` L128-139 (`Share for parse::Intro`). -/
def Intro.share (syms : Symbols) : Intro (PTerm Atom) → Except ShareError (Intro LTerm)
  | .definition ty tm => match PTerm.shareOpt syms ty with
    | .error e => .error e
    | .ok ty => match PTerm.shareOpt syms tm with
      | .error e => .error e
      | .ok tm => .ok (.definition ty tm)
  | .theorem_ ty tm => match PTerm.share syms ty with
    | .error e => .error e
    | .ok ty => match PTerm.share syms tm with
      | .error e => .error e
      | .ok tm => .ok (.theorem_ ty tm)
  | .declaration inj ty => match PTerm.share syms ty with
    | .error e => .error e
    | .ok ty => .ok (.declaration inj ty)

/-- one step of the fold over the arguments (`kontroli/src/share.rs` L146-152) -/
def wrapArg (x : Str) (aty : LTerm) (it : Intro LTerm) : Intro LTerm :=
  (it.mapType fun ty => .comb (.prod x aty ty)).mapTerm fun tm => .comb (.abst x (some aty) tm)

/-- the fold over the reversed arguments (`kontroli/src/share.rs` L145-152) -/
def shareArgs (syms : Symbols) : List (Str × PTerm Atom) → Intro LTerm → Except ShareError (Intro LTerm)
  | [], it => .ok it
  | (x, aty) :: args, it => match aty.share syms with
    | .error e => .error e
    | .ok aty => shareArgs syms args (wrapArg x aty it)

/-- `kontroli/src/share.rs` L156 (`rules.into_iter().map(|r| r.share(syms)).collect()`). -/
def shareRules (syms : Symbols) : List (PRule (PTerm Atom)) → Except ShareError (List Rule)
  | [] => .ok []
  | r :: rs => match r.share syms with
    | .error e => .error e
    | .ok r => match shareRules syms rs with
      | .error e => .error e
      | .ok rs => .ok (r :: rs)

/-- `kontroli/src/share.rs` L14 (`Command`), `kontroli/src/command.rs` L5-11. -/
inductive SCmd where
  | intro (id : Str) (it : Intro LTerm)
  | rules (rs : List Rule)

/-- `kontroli/src/share.rs` L141-161 (`Share for parse::Command`). -/
def Scoped.share (syms : Symbols) : Scoped → Except ShareError SCmd
  | .intro id args it => match it.share syms with
    | .error e => .error e
    | .ok it => match shareArgs syms args.reverse it with
      | .error e => .error e
      | .ok it => .ok (.intro id it)
  | .rules rs => match shareRules syms rs with
    | .error e => .error e
    | .ok rs => .ok (.rules rs)

end Kontroli
