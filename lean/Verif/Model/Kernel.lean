import Verif.Model.Infer

/-!
# The kernel interface (`kontroli/src/kernel/mod.rs`)
-/

namespace Kontroli

/-- `dedukti-parse/src/cmd.rs` L19-23 (`Intro`), at `kontroli/src/share.rs` L17. -/
inductive Intro (Tm : Type) where
  | definition (ty tm : Option Tm)
  | theorem_ (ty tm : Tm)
  | declaration (inj : Bool) (ty : Tm)
  deriving Repr

/-- `dedukti-parse/src/cmd.rs` L48-54 (`Intro::rewritable`). -/
def Intro.rewritable {Tm : Type} : Intro Tm → Bool
  | .declaration inj _ => inj
  | .definition _ _ => true
  | .theorem_ _ _ => false

/-- `kontroli/src/kernel/mod.rs` L14 (`Check`, a `Typing` whose term is present). -/
structure Check where
  lc : List LTerm
  ty : LTerm
  tm : LTerm
  deriving Repr

/-- `LTerm::try_from(&STerm)?` with `From<UnexpectedKind> for Error` (`kontroli/src/kernel/mod.rs` L32-36). -/
def toLTerm (t : STerm) : M LTerm := M.okOr .unexpectedKind t.toL

/-- `declare` (`kontroli/src/kernel/mod.rs` L38-44). -/
def declare (n : Nat) (gc : GCtx) (ty : LTerm) : M (Typing × Option Check) :=
  M.bind (infer n gc [] (STerm.ofL ty)) fun r =>
  match r.1 with
  | .kind => M.pure (⟨[], ty, none⟩, none)
  | .type => M.pure (⟨[], ty, none⟩, none)
  | _ => M.throw .sortExpected

/-- `define` (`kontroli/src/kernel/mod.rs` L46-56). -/
def define (n : Nat) (gc : GCtx) (ty : Option LTerm) (tm : LTerm) : M (Typing × Option Check) :=
  match ty with
  | some ty =>
    M.bind (infer n gc [] (STerm.ofL ty)) fun _ =>
    M.pure (⟨[], ty, some tm⟩, some ⟨[], ty, tm⟩)
  | none =>
    M.bind (infer n gc [] (STerm.ofL tm)) fun r =>
    M.bind (toLTerm r.1) fun ty =>
    M.pure (⟨[], ty, some tm⟩, none)

/-- `theorem` (`kontroli/src/kernel/mod.rs` L58-61). -/
def theorem_ (n : Nat) (gc : GCtx) (ty tm : LTerm) : M (Typing × Option Check) :=
  M.bind (infer n gc [] (STerm.ofL ty)) fun _ =>
  M.pure (⟨[], ty, none⟩, some ⟨[], ty, tm⟩)

/-- `intro` (`kontroli/src/kernel/mod.rs` L76-89). -/
def intro (n : Nat) (gc : GCtx) : Intro LTerm → M (Typing × Option Check)
  | .declaration _ ty => declare n gc ty
  | .definition (some ty) none => declare n gc ty
  | .definition oty (some tm) => define n gc oty tm
  | .definition none none => M.throw .typeAndTermEmpty
  | .theorem_ ty tm => theorem_ n gc ty tm

/-- `Rule<LTerm>`: a rule with annotated context and terms on both sides (`kontroli/src/kernel/mod.rs` L91). -/
structure TRule where
  ctx : List LTerm
  lhs : LTerm
  rhs : LTerm
  deriving Repr

mutual
  /-- `TryFrom<Pattern> for LTerm` (`kontroli/src/lterm.rs` L24-38); `none` is the error. -/
  def Pattern.toL : Pattern → Option LTerm
    | .symb s args => (Pattern.toLList args).map fun args => .comb (.appl (.const s) args)
    | .mvar v => some (.var v)
    | .joker => none
  /-- `args.into_iter().map(Self::try_from).collect()` (`kontroli/src/lterm.rs` L31). -/
  def Pattern.toLList : List Pattern → Option (List LTerm)
    | [] => some []
    | p :: ps => match Pattern.toL p with
      | none => none
      | some t => match Pattern.toLList ps with
        | none => none
        | some ts => some (t :: ts)
end

/-- `arg.1` collected to an option (`kontroli/src/rule.rs` L34-35). -/
def annotations : List (Str × Option LTerm) → Option (List LTerm)
  | [] => some []
  | (_, none) :: _ => none
  | (_, some ty) :: ctx => (annotations ctx).map (ty :: ·)

/-- `TryFrom<Rule> for Rule<Tm>` (`kontroli/src/rule.rs` L31-41) after `map_lhs(Pattern::from)`
(`kontroli/src/pattern.rs` L57-61); both errors are `none`. -/
def Rule.toT (r : Rule) : Option TRule :=
  match annotations r.ctx with
  | none => none
  | some ctx => match Pattern.toL (.symb r.lhs.symbol r.lhs.args) with
    | none => none
    | some lhs => some ⟨ctx, lhs, r.rhs⟩

/-- The local context of a check: `lc.iter().map(STerm::from).collect()` (`kontroli/src/kernel/mod.rs` L93, L106), reversed. -/
def lctxOf (lc : List LTerm) : LCtx := (lc.map STerm.ofL).reverse

/-- `rewrite` (`kontroli/src/kernel/mod.rs` L91-101). -/
def rewrite (n : Nat) (gc : GCtx) (r : TRule) : M Check :=
  M.bind (infer n gc (lctxOf r.ctx) (STerm.ofL r.lhs)) fun t =>
  M.bind (toLTerm t.1) fun ty =>
  M.pure ⟨r.ctx, ty, r.rhs⟩

/-- `Check::check` (`kontroli/src/kernel/mod.rs` L105-114). -/
def Check.check (n : Nat) (gc : GCtx) (c : Check) : M Unit :=
  M.bind (Kontroli.check n gc (lctxOf c.lc) (STerm.ofL c.tm) (STerm.ofL c.ty)) fun r =>
  if r.1 then M.pure () else M.throw .unconvertible

end Kontroli
