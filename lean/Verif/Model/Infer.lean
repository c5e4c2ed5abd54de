import Verif.Model.Reduce

/-!
# Type inference and checking (`kontroli/src/kernel/infer_check.rs`)

The local context `LCtx` is a vector of types; here a list whose head is the last element of the vector
(the type of variable 0).  `&mut LCtx` is threaded through.
-/

namespace Kontroli

/-- `LCtx` (`kontroli/src/kernel/infer_check.rs` L12), reversed. -/
abbrev LCtx := List STerm

/-- The recursive entry points of inference and checking. -/
structure IOps where
  /-- `STerm::infer` -/
  inf : LCtx → STerm → M (STerm × LCtx)
  /-- `STerm::check` -/
  chk : LCtx → STerm → STerm → M (Bool × LCtx)

/-- `LCtx::get_type` (`kontroli/src/kernel/infer_check.rs` L15-17) followed by `ok_or(Error::TypeNotFound)?` (L64). -/
def lctxGet (lc : LCtx) (n : Nat) : M STerm :=
  match lc[n]? with
  | none => M.throw .typeNotFound
  | some t => shift t (n + 1)

/-- `LCtx::bind` (`kontroli/src/kernel/infer_check.rs` L19-27). -/
def bindL {α : Type} (lc : LCtx) (arg : STerm) (f : LCtx → M (α × LCtx)) : M (α × LCtx) :=
  M.bind (f (arg :: lc)) fun r => M.pure (r.1, r.2.tail)

/-- `LCtx::bind_of_type` (`kontroli/src/kernel/infer_check.rs` L29-37). -/
def bindOfType {α : Type} (ic : IOps) (lc : LCtx) (arg : STerm) (f : LCtx → M (α × LCtx)) : M (α × LCtx) :=
  M.bind (ic.inf lc arg) fun r =>
  match r.1 with
  | .type => bindL r.2 arg f
  | _ => M.throw .bindNoType

/-- The `try_fold` over the arguments of an application (`kontroli/src/kernel/infer_check.rs` L96-101). -/
def inferArgs (o : Ops) (ic : IOps) : List STerm → STerm → LCtx → M (STerm × LCtx)
  | [], ty, lc => M.pure (ty, lc)
  | arg :: args, ty, lc =>
    M.bind (whnfTerm o ty) fun w =>
    M.bind (M.okOr .productExpected w.getProd) fun p =>
    M.bind (ic.chk lc arg p.2.1) fun r =>
    if r.1 then M.bind (subst p.2.2 arg) fun ty => inferArgs o ic args ty r.2
    else M.throw .unconvertible

/-- `SComb::infer` (`kontroli/src/kernel/infer_check.rs` L91-116). -/
def inferComb (o : Ops) (ic : IOps) (lc : LCtx) : SComb → M (STerm × LCtx)
  | .appl tm args => M.bind (ic.inf lc tm) fun r => inferArgs o ic args r.1 r.2
  | .abst id (some ty) tm =>
    M.bind (bindOfType ic lc ty fun lc => ic.inf lc tm) fun r =>
    match r.1 with
    | .kind => M.throw .unexpectedKind
    | tmTy => M.pure (.scomb (.prod id ty tmTy), r.2)
  | .prod _ ty tm =>
    M.bind (bindOfType ic lc ty fun lc => ic.inf lc tm) fun r =>
    match r.1 with
    | .kind => M.pure (.kind, r.2)
    | .type => M.pure (.type, r.2)
    | _ => M.throw .sortExpected
  | .abst _ none _ => M.throw .domainFreeAbstraction

/-- `STerm::infer` (`kontroli/src/kernel/infer_check.rs` L58-68). -/
def inferBody (gc : GCtx) (o : Ops) (ic : IOps) (lc : LCtx) : STerm → M (STerm × LCtx)
  | .kind => M.throw .kindNotTypable
  | .type => M.pure (.kind, lc)
  | .const c => M.bind (M.okOr .typeNotFound (gc.getType c)) fun t => M.pure (STerm.ofL t, lc)
  | .var v => M.bind (lctxGet lc v) fun t => M.pure (t, lc)
  | .scomb c => inferComb o ic lc c
  | .lcomb c => inferComb o ic lc (SComb.ofL c)

/-- The annotation test in `STerm::check` (`kontroli/src/kernel/infer_check.rs` L75-80): is the annotation, if any, typable and
convertible with the domain? -/
def checkDom (o : Ops) (ic : IOps) (lc : LCtx) (argTy : Option STerm) (tyA : STerm) : M (Bool × LCtx) :=
  match argTy with
  | none => M.pure (true, lc)
  | some argTy =>
    M.bind (ic.inf lc argTy) fun r =>
    M.bind (o.cv [(argTy, tyA)]) fun b =>
    M.pure (b, r.2)

/-- `STerm::check` (`kontroli/src/kernel/infer_check.rs` L71-87). -/
def checkBody (o : Ops) (ic : IOps) (lc : LCtx) (t ty : STerm) : M (Bool × LCtx) :=
  match t.getAbst with
  | some (_, argTy, tm) =>
    M.bind (whnfTerm o ty) fun w =>
    M.bind (M.okOr .productExpected w.getProd) fun p =>
    M.bind (checkDom o ic lc argTy p.2.1) fun r =>
    if r.1 then bindL r.2 p.2.1 fun lc => ic.chk lc tm p.2.2
    else M.pure (false, r.2)
  | none =>
    M.bind (ic.inf lc t) fun r =>
    M.bind (o.cv [(r.1, ty)]) fun b =>
    M.pure (b, r.2)

/-- Inference and checking with recursion depth bounded by `n`. -/
def iops (gc : GCtx) : Nat → IOps
  | 0 => { inf := fun _ _ => M.timeout, chk := fun _ _ _ => M.timeout }
  | n + 1 => { inf := inferBody gc (ops gc n) (iops gc n), chk := checkBody (ops gc n) (iops gc n) }

/-- `STerm::infer` (`kontroli/src/kernel/infer_check.rs` L58-68). -/
def infer (n : Nat) (gc : GCtx) (lc : LCtx) (t : STerm) : M (STerm × LCtx) := (iops gc n).inf lc t

/-- `STerm::check` (`kontroli/src/kernel/infer_check.rs` L71-87). -/
def check (n : Nat) (gc : GCtx) (lc : LCtx) (t ty : STerm) : M (Bool × LCtx) := (iops gc n).chk lc t ty

end Kontroli
