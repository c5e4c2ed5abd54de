import Verif.Model.Base

/-!
# The state of the kernel's evaluator and its monad

The evaluator of `kontroli/src/kernel/reduce.rs` works on reference-counted mutable cells.  They are modelled by an explicit
heap.  Cells are never freed in the model (dropping a cell has no observable effect).
-/

namespace Kontroli

/-- `kontroli/src/kernel/mod.rs` L20-30 (`Error`). -/
inductive KError where
  | productExpected
  | sortExpected
  | bindNoType
  | unconvertible
  | kindNotTypable
  | unexpectedKind
  | domainFreeAbstraction
  | typeAndTermEmpty
  | typeNotFound
  deriving Repr, DecidableEq

/-- `kontroli/src/kernel/reduce.rs` L20-24 (`State`), with `Context` L41 and `Stack` L45.
`ctx` holds addresses of thunks (`RTTerm`, L49), `stack` addresses of shared states (`RState`, L68).
Both Rust vectors are kept in reverse: the head of the list is the last element of the vector (its top). -/
structure State where
  ctx : List Nat
  term : STerm
  stack : List Nat
  deriving Repr

/-- `kontroli/src/kernel/reduce.rs` L120-123 (`WState`) inside a `RefCell`; `borrowed` is the "mutably borrowed" flag. -/
structure WState where
  state : State
  whnfed : Bool
  borrowed : Bool
  deriving Repr

/-- `lazy_st::Thunk<RState, STerm>` (`kontroli/src/kernel/reduce.rs` L49): not yet evaluated, under evaluation, evaluated. -/
inductive Thunk where
  | todo (r : Nat)
  | busy
  | done (t : STerm)
  deriving Repr

/-- The heap: shared states, thunks, and the oracle that answers the tests whether an `Rc` is unique. -/
structure St where
  states : List WState
  thunks : List Thunk
  rc : Nat → Bool

/-- Outcome of a computation: a value, a kernel error, a panic, or running out of fuel (not yet terminated). -/
inductive Res (α : Type) where
  | ok (a : α)
  | err (e : KError)
  | panic
  | timeout
  deriving Repr

/-- Kernel computations. -/
def M (α : Type) := St → Res (α × St)

namespace M

/-- the computation that returns at once -/
def pure {α : Type} (a : α) : M α := fun s => .ok (a, s)

/-- sequencing; errors, panics and time-outs propagate -/
def bind {α β : Type} (m : M α) (f : α → M β) : M β := fun s =>
  match m s with
  | .ok (a, s') => f a s'
  | .err e => .err e
  | .panic => .panic
  | .timeout => .timeout

instance : Monad M where
  pure := M.pure
  bind := M.bind

/-- a Rust panic -/
def panic {α : Type} : M α := fun _ => .panic
/-- out of fuel -/
def timeout {α : Type} : M α := fun _ => .timeout
/-- return an error -/
def throw {α : Type} (e : KError) : M α := fun _ => .err e
/-- `Option::ok_or(e)?` -/
def okOr {α : Type} (e : KError) : Option α → M α
  | some a => M.pure a
  | none => throw e
/-- `Option::unwrap` -/
def unwrap {α : Type} : Option α → M α
  | some a => M.pure a
  | none => panic

end M

/-- Outcome of the next `Rc::get_mut`/uniqueness test. -/
def tick : M Bool := fun s => .ok (s.rc 0, { s with rc := fun n => s.rc (n + 1) })

/-- `kontroli/src/kernel/reduce.rs` L71-73 (`RState::new`), with `WState::new` L126-129. -/
def newState (st : State) : M Nat := fun s =>
  .ok (s.states.length, { s with states := s.states ++ [{ state := st, whnfed := false, borrowed := false }] })

/-- `kontroli/src/kernel/reduce.rs` L52-54 (`RTTerm::new`). -/
def newThunk (r : Nat) : M Nat := fun s =>
  .ok (s.thunks.length, { s with thunks := s.thunks ++ [.todo r] })

/-- `kontroli/src/kernel/reduce.rs` L147-149 (`RState::borrow_state`): panics if the cell is mutably borrowed.
A dangling address (impossible in Rust) is a panic, too, so that panic freedom implies there is none. -/
def borrowState (r : Nat) : M State := fun s =>
  match s.states[r]? with
  | none => .panic
  | some w => if w.borrowed then .panic else .ok (w.state, s)

/-- Read a cell for `borrow_mut` and mark it borrowed; panics if it is borrowed (`kontroli/src/kernel/reduce.rs` L143). -/
def lockState (r : Nat) : M WState := fun s =>
  match s.states[r]? with
  | none => .panic
  | some w =>
    if w.borrowed then .panic
    else .ok (w, { s with states := s.states.set r { w with borrowed := true } })

/-- Write back a cell at the end of the mutable borrow (`kontroli/src/kernel/reduce.rs` L143: the guard is dropped). -/
def unlockState (r : Nat) (w : WState) : M Unit := fun s =>
  .ok ((), { s with states := s.states.set r { w with borrowed := false } })

/-- Read a thunk. -/
def getThunk (a : Nat) : M Thunk := fun s =>
  match s.thunks[a]? with
  | none => .panic
  | some t => .ok (t, s)

/-- Write a thunk. -/
def setThunk (a : Nat) (t : Thunk) : M Unit := fun s =>
  .ok ((), { s with thunks := s.thunks.set a t })

end Kontroli
