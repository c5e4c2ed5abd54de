import Verif.Model.Monad

/-!
# Substitution and shifting (`kontroli/src/kernel/subst.rs`, `STerm::apply` in `sterm.rs`)

`&mut self` methods return the new value; a closure passed to `apply_subst` may itself use the heap (it forces thunks),
so it is a computation.
-/

namespace Kontroli

mutual
  /-- `STerm::apply_subst` (`kontroli/src/kernel/subst.rs` L6-32) on the short form of a long term, i.e. on `STerm.ofL t`.
  It is a separate function only because Lean needs to see the recursion through `SComb::from` (L11);
  `applySubst_lcomb` and `applySubst_ofL` in `Proofs/SubstEq.lean` prove that it is the same code. -/
  def applySubstL (S : Nat → Nat → M STerm) : LTerm → Nat → M (STerm × Bool)
    | .type, _ => M.pure (.type, false)
    | .const c, _ => M.pure (.const c, false)
    | .var n, k => if n ≥ k then M.bind (S n k) fun t => M.pure (t, true) else M.pure (.var n, false)
    | .comb c, k => M.bind (applySubstLC S c k) fun r => M.pure (.scomb r.1, r.2)
  /-- `SComb::apply_subst` (`kontroli/src/kernel/subst.rs` L62-83) on `SComb.ofL c`. -/
  def applySubstLC (S : Nat → Nat → M STerm) : Comb Str LTerm → Nat → M (SComb × Bool)
    | .appl f args, k =>
      M.bind (applySubstL S f k) fun f' =>
      M.bind (applySubstLList S args k) fun args' =>
      M.pure (.appl f'.1 args'.1, args'.2 || f'.2)
    | .abst id ty f, k =>
      M.bind (applySubstL S f (k + 1)) fun f' =>
      M.bind (applySubstLOpt S ty k) fun ty' =>
      M.pure (.abst id ty'.1 f'.1, ty'.2 || f'.2)
    | .prod id ty f, k =>
      M.bind (applySubstL S ty k) fun ty' =>
      M.bind (applySubstL S f (k + 1)) fun f' =>
      M.pure (.prod id ty'.1 f'.1, f'.2 || ty'.2)
  /-- `args.iter_mut().for_each(...)` (`kontroli/src/kernel/subst.rs` L71), on long terms. -/
  def applySubstLList (S : Nat → Nat → M STerm) : List LTerm → Nat → M (List STerm × Bool)
    | [], _ => M.pure ([], false)
    | t :: ts, k =>
      M.bind (applySubstL S t k) fun t' =>
      M.bind (applySubstLList S ts k) fun ts' =>
      M.pure (t'.1 :: ts'.1, ts'.2 || t'.2)
  /-- `ty.iter_mut().for_each(...)` (`kontroli/src/kernel/subst.rs` L75), on long terms. -/
  def applySubstLOpt (S : Nat → Nat → M STerm) : Option LTerm → Nat → M (Option STerm × Bool)
    | none, _ => M.pure (none, false)
    | some t, k => M.bind (applySubstL S t k) fun t' => M.pure (some t'.1, t'.2)
end

mutual
  /-- `STerm::apply_subst` (`kontroli/src/kernel/subst.rs` L6-32); returns the new term and whether it changed. -/
  def applySubst (S : Nat → Nat → M STerm) : STerm → Nat → M (STerm × Bool)
    | .kind, _ => M.pure (.kind, false)
    | .type, _ => M.pure (.type, false)
    | .const c, _ => M.pure (.const c, false)
    | .var n, k => if n ≥ k then M.bind (S n k) fun t => M.pure (t, true) else M.pure (.var n, false)
    | .lcomb c, k => M.bind (applySubstLC S c k) fun r => M.pure (.scomb r.1, r.2)
    | .scomb c, k =>
      M.bind tick fun unique =>
      M.bind (applySubstC S c k) fun r =>
      if unique then M.pure (.scomb r.1, r.2)
      else if r.2 then M.pure (.scomb r.1, true)
      else M.pure (.scomb c, false)
  /-- `SComb::apply_subst` (`kontroli/src/kernel/subst.rs` L62-83). -/
  def applySubstC (S : Nat → Nat → M STerm) : Comb Str STerm → Nat → M (SComb × Bool)
    | .appl f args, k =>
      M.bind (applySubst S f k) fun f' =>
      M.bind (applySubstList S args k) fun args' =>
      M.pure (.appl f'.1 args'.1, args'.2 || f'.2)
    | .abst id ty f, k =>
      M.bind (applySubst S f (k + 1)) fun f' =>
      M.bind (applySubstOpt S ty k) fun ty' =>
      M.pure (.abst id ty'.1 f'.1, ty'.2 || f'.2)
    | .prod id ty f, k =>
      M.bind (applySubst S ty k) fun ty' =>
      M.bind (applySubst S f (k + 1)) fun f' =>
      M.pure (.prod id ty'.1 f'.1, f'.2 || ty'.2)
  /-- `args.iter_mut().for_each(|x| change = sub(x) || change)` (`kontroli/src/kernel/subst.rs` L71). -/
  def applySubstList (S : Nat → Nat → M STerm) : List STerm → Nat → M (List STerm × Bool)
    | [], _ => M.pure ([], false)
    | t :: ts, k =>
      M.bind (applySubst S t k) fun t' =>
      M.bind (applySubstList S ts k) fun ts' =>
      M.pure (t'.1 :: ts'.1, ts'.2 || t'.2)
  /-- `ty.iter_mut().for_each(|x| change = sub(x) || change)` (`kontroli/src/kernel/subst.rs` L75). -/
  def applySubstOpt (S : Nat → Nat → M STerm) : Option STerm → Nat → M (Option STerm × Bool)
    | none, _ => M.pure (none, false)
    | some t, k => M.bind (applySubst S t k) fun t' => M.pure (some t'.1, t'.2)
end

/-- `STerm::shift_mut` (`kontroli/src/kernel/subst.rs` L56-58). -/
def shiftMut (t : STerm) (rhs : Nat) : M STerm :=
  M.bind (applySubst (fun n _ => M.pure (.var (n + rhs))) t 0) fun r => M.pure r.1

/-- `STerm::shift` (`kontroli/src/kernel/subst.rs` L49-54). -/
def shift (t : STerm) (rhs : Nat) : M STerm :=
  if rhs ≠ 0 then shiftMut t rhs else M.pure t

/-- `STerm::psubst_single` (`kontroli/src/kernel/subst.rs` L39-47); `n - 1` panics if it underflows. -/
def psubstSingle (u : STerm) (n k : Nat) : M STerm :=
  if n = k then shift u k
  else if n = 0 then M.panic
  else M.pure (.var (n - 1))

/-- `STerm::subst` (`kontroli/src/kernel/subst.rs` L34-37). -/
def subst (t u : STerm) : M STerm :=
  M.bind (applySubst (psubstSingle u) t 0) fun r => M.pure r.1

/-- `STerm::apply` (`kontroli/src/kernel/sterm.rs` L52-60). The arguments are already evaluated here;
in Rust the iterator evaluates them while extending/collecting, after the test of uniqueness
(which does not depend on them). -/
def applyArgs (t : STerm) (args : List STerm) : M STerm :=
  match t with
  | .scomb (.appl f args1) =>
    M.bind tick fun unique =>
    if unique then M.pure (.scomb (.appl f (args1 ++ args)))
    else M.pure (.scomb (.appl t args))
  | _ => M.pure (.scomb (.appl t args))

end Kontroli
