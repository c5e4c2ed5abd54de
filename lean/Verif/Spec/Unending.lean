import Verif.Spec.Arith
import Verif.Spec.Whnf

/-! # The example file whose check does not come to an end -/

namespace Kontroli

/-- the term has a weak-head normal form -/
def HasWhnf (R : RuleMap) (eta : Bool) (t : Tm) : Prop := ∃ w, Red R eta t w ∧ Whnf R eta w

/-- `/repo/examples/bench/inf.dk` -/
def infText : Str := lines [
  "(; depends on nat.ko ;)",
  "",
  "def inf : Nat.",
  "[] inf --> succ inf.",
  "",
  "def to_zero : Nat -> Nat.",
  "[X] to_zero (succ X) --> to_zero X.",
  "",
  "def does_not_terminate :",
  "  Dep (to_zero inf) :=",
  "  dep (to_zero (succ inf))."]

/-- `succ (... (succ inf))`, with `n` times `succ`, in the file -/
def infNum : Nat → LTerm
  | 0 => .const 19
  | n + 1 => .natSucc (infNum n)

/-- `inf --> succ inf` -/
def infRule : Rule := ⟨[], ⟨19, []⟩, .natSucc (.const 19)⟩

/-- `to_zero (succ X) --> to_zero X` -/
def toZeroRule : Rule := ⟨[(['X'], none)], ⟨20, [.symb 1 [.mvar 0]]⟩, .appl (.const 20) [.var 0]⟩

/-- The commands of `inf.dk` before its last one.  The symbols are those of `nat.dk` and `inf` (19) and `to_zero` (20). -/
def infCmds : List Cmd :=
  [.intro 19 (.definition (some (.const 0)) none), .rules [infRule],
   .intro 20 (.definition (some (.arrow (.const 0) (.const 0))) none), .rules [toZeroRule]]

/-- `to_zero (succ (... (succ inf)))` -/
def toZero (n : Nat) : LTerm := .appl (.const 20) [infNum n]

/-- `def does_not_terminate : Dep (to_zero inf) := dep (to_zero (succ inf)).`, and variations with other numbers of `succ` -/
def infThm (i j : Nat) : Intro LTerm := .definition (some (.appl (.const 17) [toZero i])) (some (.appl (.const 18) [toZero j]))

end Kontroli
