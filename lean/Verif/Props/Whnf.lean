import Verif.Proofs.Adequacy
import Verif.Proofs.WhnfLemmas
import Verif.Spec.Nat

/-!
# C03, C42: evaluation stops at weak-head normal forms; what a negative answer of the conversion test means
-/

namespace Kontroli

open Example (okAnd okAnd_elim)

/-- the term is the constant with this number of arguments -/
def Example.headIs (c : Sym) (n : Nat) : STerm → Bool
  | .scomb (.appl (.const c') args) => c == c' && args.length == n
  | .lcomb (.appl (.const c') args) => c == c' && args.length == n
  | _ => false

/-! ## C03 -/

/-- C03. The result of evaluation is a weak-head normal form: every rule of a constant at the head is refused for a reason
that can be read off the arguments. -/
theorem C03_whnf (gc : GCtx) (n : Nat) (rc : Nat → Bool) (t u : STerm) (s : St)
    (h : whnf n gc t (St.init rc) = .ok (u, s)) : Whnf gc.rules gc.eta u.den :=
  (TriG.ok (Tri.whnf gc n t) h).2

/-- C03. The result is an abstraction, or a sort, constant, variable or product, possibly with arguments. -/
theorem C03_shape (gc : GCtx) (n : Nat) (rc : Nat → Bool) (t u : STerm) (s : St)
    (h : whnf n gc t (St.init rc) = .ok (u, s)) :
    (∃ b, u.den.IsAbs b) ∨ ∃ f ts, f.Atom ∧ u.den = Tm.apps f ts :=
  (C03_whnf gc n rc t u s h).cases_head

/-- C03. The result is not an abstraction with arguments. -/
theorem C03_no_beta (gc : GCtx) (n : Nat) (rc : Nat → Bool) (t u : STerm) (s : St)
    (h : whnf n gc t (St.init rc) = .ok (u, s)) (f b : Tm) (ts : List Tm) (hf : f.IsAbs b) (hts : ts ≠ []) :
    u.den ≠ Tm.apps f ts :=
  fun e => Whnf.no_beta hf hts (e ▸ C03_whnf gc n rc t u s h)

/-- C03. No left-linear rule matches at the head of the result. -/
theorem C03_no_rule (gc : GCtx) (n : Nat) (rc : Nat → Bool) (t u : STerm) (s : St)
    (h : whnf n gc t (St.init rc) = .ok (u, s)) (c : Sym) (ts : List Tm) (hu : u.den = Tm.apps (.const c) ts)
    (rules : List Rule) (hrs : gc.rules c = some rules) (r : Rule) (hr : r ∈ rules) (hsc : r.Scoped)
    (hlin : (Pattern.varsList r.lhs.args).Nodup) (bs : List (Nat × Tm)) :
    ¬ PBinds r.lhs.args (ts.take r.lhs.args.length) bs :=
  (Whnf.inv_const (hu ▸ C03_whnf gc n rc t u s h) rules r hrs hr).not_match hsc hlin bs

/-- `(x => x + x) (1 + 1)` has a weak-head normal form, with head `S` -/
example : ∃ u s, whnf 60 Example.gc (STerm.ofL Example.double) (St.init fun _ => true) = .ok (u, s) ∧
    Example.headIs Example.succ 1 u = true :=
  okAnd_elim (p := Example.headIs Example.succ 1) (by decide +kernel)

/-- `x + 1` is stuck: no rule of `+` matches -/
example : ∃ u s, whnf 30 Example.gc (STerm.ofL (Example.app Example.plus [.var 0, Example.one]))
    (St.init fun _ => true) = .ok (u, s) ∧
    Example.headIs Example.plus 2 u = true :=
  okAnd_elim (p := Example.headIs Example.plus 2) (by decide +kernel)

/-- being a weak-head normal form is not a matter of course: `1 + 1` is none -/
example : ¬ Whnf Example.gc.rules false Example.onePlusOne.den := by
  intro h
  have h : Whnf Example.gc.rules false (Tm.apps (.const Example.plus) [Example.one.den, Example.one.den]) := h
  refine (h.inv_const [Example.plusZero, Example.plusSucc] Example.plusSucc rfl (by simp)).not_match ?_ (by decide)
    [(1, .const Example.zero), (0, Example.one.den)] ?_
  · intro m
    have : Pattern.varsList Example.plusSucc.lhs.args = [1, 0] := rfl
    rw [this]
    show _ ↔ m < 2
    simp
    omega
  · exact .cons (.symb (ts := [.const Example.zero]) (.cons (.mvar 1 _) .nil)) (.cons (.mvar 0 _) .nil)

/-! ## C42 -/

/-- C42. If the conversion test answers no, then the terms reduce to weak-head normal forms that differ: at the head, in the
number of arguments, or in some component, for which the same holds. -/
theorem C42_not_convertible (gc : GCtx) (n : Nat) (rc : Nat → Bool) (t u : STerm) (s : St)
    (h : convertible n gc t u (St.init rc) = .ok (false, s)) : Apart gc.rules gc.eta t.den u.den :=
  (TriG.ok (Tri.convertible gc n t u) h).2 rfl

/-- `1 + 1` is not convertible with `1`: both reduce to an application of `S`, and the arguments are apart -/
example : ∃ b s, convertible 60 Example.gc (STerm.ofL Example.onePlusOne) (STerm.ofL Example.one)
    (St.init fun _ => true) = .ok (b, s) ∧ (!b) = true :=
  okAnd_elim (p := fun b => !b) (by decide +kernel)

/-- a context with a rule that is not left-linear: `[n : Nat] eq n n --> true`, `eq` being symbol 5 and `true` symbol 6 -/
def Example.eqGc : GCtx :=
  { Example.gc with
    rules := fun s => match s with
      | 5 => some [{ ctx := [(['n'], some (.const Example.nat))], lhs := { symbol := 5, args := [.mvar 0, .mvar 0] },
                     rhs := .const 6 }]
      | s => Example.gc.rules s }

/-- `eq (1 + 1) 2` evaluates to `true`, `eq (1 + 1) 1` is stuck -/
example : (∃ u s, whnf 60 Example.eqGc (STerm.ofL (Example.app 5 [Example.onePlusOne, Example.two]))
      (St.init fun _ => true) = .ok (u, s) ∧ STerm.beq u (.const 6) = true) ∧
    (∃ u s, whnf 60 Example.eqGc (STerm.ofL (Example.app 5 [Example.onePlusOne, Example.one]))
      (St.init fun _ => true) = .ok (u, s) ∧ Example.headIs 5 2 u = true) :=
  ⟨okAnd_elim (p := fun u => STerm.beq u (.const 6)) (by decide +kernel),
   okAnd_elim (p := Example.headIs 5 2) (by decide +kernel)⟩

#print axioms C03_whnf
#print axioms C03_shape
#print axioms C03_no_beta
#print axioms C03_no_rule
#print axioms C42_not_convertible

end Kontroli
