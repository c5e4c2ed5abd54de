import Verif.Model.Base

/-!
# The global context (`kontroli/src/gctx.rs`)

The two immutable hash maps are modelled as partial functions.
-/

namespace Kontroli

/-- `kontroli/src/gctx.rs` L14-17 (`Error`). -/
inductive GError where
  | reintroduction
  | nonRewritable
  deriving Repr, DecidableEq

/-- `kontroli/src/typing.rs` L8-13 (`Typing`), at the instance `kernel::Typing` (`kontroli/src/kernel/mod.rs` L13). -/
structure Typing where
  lc : List LTerm
  ty : LTerm
  tm : Option LTerm
  deriving Repr

/-- `kontroli/src/gctx.rs` L22-27 (`GCtx`). -/
structure GCtx where
  types : Sym → Option LTerm
  rules : Sym → Option (List Rule)
  eta : Bool

/-- insertion into a map, overwriting (`HashMap::insert`). -/
def mapInsert {V : Type} (m : Sym → Option V) (s : Sym) (v : V) : Sym → Option V :=
  fun s' => if s' = s then some v else m s'

namespace GCtx

/-- `kontroli/src/gctx.rs` L29-37, L47-49 (`Default`, `new`). -/
def new : GCtx := ⟨fun _ => none, fun _ => none, false⟩

/-- `kontroli/src/gctx.rs` L52-54. -/
def getType (gc : GCtx) (s : Sym) : Option LTerm := gc.types s

/-- `kontroli/src/gctx.rs` L57-59. -/
def getRules (gc : GCtx) (s : Sym) : Option (List Rule) := gc.rules s

/-- `kontroli/src/gctx.rs` L61-66.  The map is overwritten also when the error is returned. -/
def introType (gc : GCtx) (s : Sym) (ty : LTerm) : GCtx × Except GError Unit :=
  ({ gc with types := mapInsert gc.types s ty },
    if (gc.types s).isSome then .error .reintroduction else .ok ())

/-- `kontroli/src/gctx.rs` L68-73.  The map is overwritten also when the error is returned. -/
def introRules (gc : GCtx) (s : Sym) (rs : List Rule) : GCtx × Except GError Unit :=
  ({ gc with rules := mapInsert gc.rules s rs },
    if (gc.rules s).isSome then .error .reintroduction else .ok ())

/-- `kontroli/src/gctx.rs` L76-83. -/
def addRule (gc : GCtx) (r : Rule) : GCtx × Except GError Unit :=
  match gc.rules r.lhs.symbol with
  | none => (gc, .error .nonRewritable)
  | some rs => ({ gc with rules := mapInsert gc.rules r.lhs.symbol (rs ++ [r]) }, .ok ())

/-- The rule list created for a rewritable symbol, `kontroli/src/gctx.rs` L89-96. -/
def initRules (s : Sym) : Option LTerm → List Rule
  | none => []
  | some tm => [{ ctx := [], lhs := { symbol := s, args := [] }, rhs := tm }]

/-- `kontroli/src/gctx.rs` L86-100. -/
def insert (gc : GCtx) (s : Sym) (t : Typing) (rewritable : Bool) : GCtx × Except GError Unit :=
  match gc.introType s t.ty with
  | (gc, .error e) => (gc, .error e)
  | (gc, .ok ()) =>
    if rewritable then
      match gc.introRules s (initRules s t.tm) with
      | (gc, .error e) => (gc, .error e)
      | (gc, .ok ()) => (gc, .ok ())
    else (gc, .ok ())

/-- `GCtx::new()` with the flag for eta (`kocheck/src/process.rs` L59-61). -/
def start (eta : Bool) : GCtx := { new with eta := eta }

end GCtx

end Kontroli
