/-!
# Basic types of the model

Strings are lists of characters; symbols are natural numbers.
-/

namespace Kontroli

/-- Rust `String` / `&str`: a sequence of characters (all string functions used are modelled on it). -/
abbrev Str := List Char

/-- `kontroli/src/symbol.rs` L57 (`Symbol<'s>(&'s Owned)`), L71-75 (`PartialEq` is pointer equality).
A symbol is a reference to an arena cell; it is modelled by the index of that cell, so that equality
of symbols is equality of addresses (two cells may hold the same name). -/
abbrev Sym := Nat

/-- `kontroli/src/comb.rs` L5-12 (`Comb`). -/
inductive Comb (Id Tm : Type) where
  /-- application of a head to a vector of arguments -/
  | appl (f : Tm) (args : List Tm)
  /-- dependent product -/
  | prod (id : Id) (ty tm : Tm)
  /-- abstraction, the annotation may be missing -/
  | abst (id : Id) (ty : Option Tm) (tm : Tm)
  deriving Repr

/-- `kontroli/src/comb.rs` L22-28 (`Comb::is_whnf`).  The closure `no_args` is a boolean here, as it has no effects. -/
def Comb.isWhnf {Id Tm : Type} : Comb Id Tm → Bool → Bool
  | .appl _ _, _ => false
  | .prod _ _ _, _ => true
  | .abst _ _ _, noArgs => noArgs

/-- `kontroli/src/lterm.rs` L11-22 (`LTerm`, `LComb`). -/
inductive LTerm where
  | type
  | const (s : Sym)
  | var (n : Nat)
  | comb (c : Comb Str LTerm)
  deriving Repr

/-- `kontroli/src/lterm.rs` L22 (`LComb`). -/
abbrev LComb := Comb Str LTerm

/-- `kontroli/src/kernel/sterm.rs` L12-19 (`STerm`).  The shared reference `&'t LComb` and the reference-counted `Rc<SComb>`
are modelled by their contents; the outcome of "is this `Rc` unique" tests is given by an oracle, see `tick`. -/
inductive STerm where
  | kind
  | type
  | const (s : Sym)
  | var (n : Nat)
  | lcomb (c : Comb Str LTerm)
  | scomb (c : Comb Str STerm)
  deriving Repr

/-- `kontroli/src/kernel/sterm.rs` L21 (`SComb`). -/
abbrev SComb := Comb Str STerm

/-- `kontroli/src/kernel/sterm.rs` L66-75 (`From<&LTerm> for STerm`). -/
def STerm.ofL : LTerm → STerm
  | .type => .type
  | .const c => .const c
  | .var v => .var v
  | .comb c => .lcomb c

/-- `kontroli/src/comb.rs` L32-40 (`From<&Comb> for Comb`), at the instance `LComb` to `SComb`: converts one layer. -/
def SComb.ofL : LComb → SComb
  | .appl tm args => .appl (STerm.ofL tm) (args.map STerm.ofL)
  | .prod id ty tm => .prod id (STerm.ofL ty) (STerm.ofL tm)
  | .abst id ty tm => .abst id (ty.map STerm.ofL) (STerm.ofL tm)

/-- `kontroli/src/kernel/sterm.rs` L24-31 (`STerm::get_comb`).  `Rc::try_unwrap` or clone: same value. -/
def STerm.getComb : STerm → Option SComb
  | .scomb c => some c
  | .lcomb c => some (SComb.ofL c)
  | _ => none

/-- `kontroli/src/kernel/sterm.rs` L33-42 (`STerm::get_abst`). -/
def STerm.getAbst : STerm → Option (Str × Option STerm × STerm)
  | .scomb (.abst id ty tm) => some (id, ty, tm)
  | .lcomb (.abst id ty tm) => some (id, ty.map STerm.ofL, STerm.ofL tm)
  | _ => none

/-- `kontroli/src/kernel/sterm.rs` L44-49 (`STerm::get_prod`). -/
def STerm.getProd (t : STerm) : Option (Str × STerm × STerm) :=
  match t.getComb with
  | some (.prod id ty tm) => some (id, ty, tm)
  | _ => none

mutual
  /-- `kontroli/src/kernel/sterm.rs` L77-89 (`TryFrom<&STerm> for LTerm`); `none` is `Err(UnexpectedKind)`. -/
  def STerm.toL : STerm → Option LTerm
    | .kind => none
    | .type => some .type
    | .const c => some (.const c)
    | .var v => some (.var v)
    | .lcomb c => some (.comb c)
    | .scomb c => (SComb.toL c).map .comb
  /-- `kontroli/src/comb.rs` L43-63 (`TryFrom<&Comb> for Comb`), at the instance `SComb` to `LComb`. -/
  def SComb.toL : Comb Str STerm → Option (Comb Str LTerm)
    | .appl head args =>
      match STerm.toL head with
      | none => none
      | some head => match STerm.toLList args with
        | none => none
        | some args => some (.appl head args)
    | .prod id ty tm =>
      match STerm.toL ty with
      | none => none
      | some ty => match STerm.toL tm with
        | none => none
        | some tm => some (.prod id ty tm)
    | .abst id ty tm =>
      match STerm.toLOpt ty with
      | none => none
      | some ty => match STerm.toL tm with
        | none => none
        | some tm => some (.abst id ty tm)
  /-- `args.iter().map(Tm2::try_from).collect::<Result<_, _>>()` in `kontroli/src/comb.rs` L49. -/
  def STerm.toLList : List STerm → Option (List LTerm)
    | [] => some []
    | t :: ts => match STerm.toL t with
      | none => none
      | some t => match STerm.toLList ts with
        | none => none
        | some ts => some (t :: ts)
  /-- `ty.as_ref().map(Tm2::try_from).transpose()` in `kontroli/src/comb.rs` L58. -/
  def STerm.toLOpt : Option STerm → Option (Option LTerm)
    | none => some none
    | some t => (STerm.toL t).map some
end

mutual
  /-- derived `PartialEq for LTerm`, `kontroli/src/lterm.rs` L10. -/
  def LTerm.beq : LTerm → LTerm → Bool
    | .type, .type => true
    | .const s, .const s' => s == s'
    | .var n, .var n' => n == n'
    | .comb c, .comb c' => LComb.beq c c'
    | _, _ => false
  /-- derived `PartialEq for Comb`, `kontroli/src/comb.rs` L4, at `LComb` (binder names are compared too). -/
  def LComb.beq : Comb Str LTerm → Comb Str LTerm → Bool
    | .appl f as, .appl f' as' => LTerm.beq f f' && LTerm.beqList as as'
    | .prod i a b, .prod i' a' b' => i == i' && LTerm.beq a a' && LTerm.beq b b'
    | .abst i a b, .abst i' a' b' => i == i' && LTerm.beqOpt a a' && LTerm.beq b b'
    | _, _ => false
  /-- derived equality of vectors. -/
  def LTerm.beqList : List LTerm → List LTerm → Bool
    | [], [] => true
    | a :: as, b :: bs => LTerm.beq a b && LTerm.beqList as bs
    | _, _ => false
  /-- derived equality of options. -/
  def LTerm.beqOpt : Option LTerm → Option LTerm → Bool
    | none, none => true
    | some a, some b => LTerm.beq a b
    | _, _ => false
end

mutual
  /-- derived `PartialEq for STerm`, `kontroli/src/kernel/sterm.rs` L11.  Structural: a short combinator is never equal to
  a long one. (`Rc` compares addresses first, which gives the same answer because equality is reflexive.) -/
  def STerm.beq : STerm → STerm → Bool
    | .kind, .kind => true
    | .type, .type => true
    | .const s, .const s' => s == s'
    | .var n, .var n' => n == n'
    | .lcomb c, .lcomb c' => LComb.beq c c'
    | .scomb c, .scomb c' => SComb.beq c c'
    | _, _ => false
  /-- derived `PartialEq for Comb`, at `SComb`. -/
  def SComb.beq : Comb Str STerm → Comb Str STerm → Bool
    | .appl f as, .appl f' as' => STerm.beq f f' && STerm.beqList as as'
    | .prod i a b, .prod i' a' b' => i == i' && STerm.beq a a' && STerm.beq b b'
    | .abst i a b, .abst i' a' b' => i == i' && STerm.beqOpt a a' && STerm.beq b b'
    | _, _ => false
  /-- derived equality of vectors. -/
  def STerm.beqList : List STerm → List STerm → Bool
    | [], [] => true
    | a :: as, b :: bs => STerm.beq a b && STerm.beqList as bs
    | _, _ => false
  /-- derived equality of options. -/
  def STerm.beqOpt : Option STerm → Option STerm → Bool
    | none, none => true
    | some a, some b => STerm.beq a b
    | _, _ => false
end

/-- `kontroli/src/pattern.rs` L30-38 (`Pattern`). -/
inductive Pattern where
  | symb (s : Sym) (args : List Pattern)
  | mvar (m : Nat)
  | joker
  deriving Repr

/-- `kontroli/src/app.rs` L6-9 (`App`) at `kontroli/src/pattern.rs` L44 (`TopPattern`). -/
structure TopPattern where
  symbol : Sym
  args : List Pattern
  deriving Repr

/-- `kontroli/src/rule.rs` L6-13 (`Rule`), at the instance of `kontroli/src/share.rs` L22 / `gctx.rs` L9. -/
structure Rule where
  ctx : List (Str × Option LTerm)
  lhs : TopPattern
  rhs : LTerm
  deriving Repr

end Kontroli
