import Verif.Model.Kernel

/-!
# A concrete context: natural numbers with addition

Used to show that the hypotheses of the theorems are met by non-trivial runs.
-/

namespace Kontroli.Example

/-- `Nat`, `0`, `S`, `+`, and a static symbol -/
def nat : Sym := 0
def zero : Sym := 1
def succ : Sym := 2
def plus : Sym := 3
def opq : Sym := 4

/-- `Nat -> Nat` -/
def arrow (a b : LTerm) : LTerm := .comb (.prod [] a b)
/-- application -/
def app (f : Sym) (args : List LTerm) : LTerm := .comb (.appl (.const f) args)

/-- `[n : Nat] plus 0 n --> n` -/
def plusZero : Rule :=
  { ctx := [(['n'], some (.const nat))],
    lhs := { symbol := plus, args := [.symb zero [], .mvar 0] }, rhs := .var 0 }
/-- `[m : Nat, n : Nat] plus (S m) n --> S (plus m n)`; variable 0 is the last of the context. -/
def plusSucc : Rule :=
  { ctx := [(['m'], some (.const nat)), (['n'], some (.const nat))],
    lhs := { symbol := plus, args := [.symb succ [.mvar 1], .mvar 0] },
    rhs := app succ [app plus [.var 1, .var 0]] }

/-- the context -/
def gc : GCtx :=
  { types := fun s => match s with
      | 0 => some .type
      | 1 => some (.const nat)
      | 2 => some (arrow (.const nat) (.const nat))
      | 3 => some (arrow (.const nat) (arrow (.const nat) (.const nat)))
      | 4 => some (.const nat)
      | _ => none
    rules := fun s => match s with
      | 3 => some [plusZero, plusSucc]
      | _ => none
    eta := false }

/-- `1 + 1` -/
def one : LTerm := app succ [.const zero]
def two : LTerm := app succ [one]
def onePlusOne : LTerm := app plus [one, one]
/-- `x : Nat => x + x` applied to `1 + 1`: the argument is shared -/
def double : LTerm :=
  .comb (.appl (.comb (.abst ['x'] (some (.const nat)) (app plus [.var 0, .var 0]))) [onePlusOne])

/-- the outcome is a value that passes the test -/
def okAnd {α : Type} (r : Res (α × St)) (p : α → Bool) : Bool :=
  match r with
  | .ok (a, _) => p a
  | _ => false

theorem okAnd_elim {α : Type} {r : Res (α × St)} {p : α → Bool} (h : okAnd r p = true) :
    ∃ a s, r = .ok (a, s) ∧ p a = true := by
  unfold okAnd at h
  split at h
  · exact ⟨_, _, rfl, h⟩
  · simp at h

end Kontroli.Example
