import Verif.Model.Kernel

/-!
# The checking driver (`kocheck/src/infer_checks.rs`)

The kernel functions are called through a record `Kern`: the driver is the same for every behaviour of them.
`Kern.std` is the kernel of the model.  `&mut GCtx` becomes a context that is returned also when an error is returned,
because the driver with several threads goes on using it.
-/

namespace Kontroli

/-- `kontroli/src/symbols.rs` L9-12 (`Error`). -/
inductive SymError where
  | reinsertion
  deriving Repr, DecidableEq

/-- `kontroli/src/share.rs` L35-39 (`Error`). -/
inductive ShareError where
  | undeclaredSymbol (s : Str)
  | noPrepattern
  | noTopPattern
  deriving Repr, DecidableEq

/-- `kontroli/src/error.rs` L10-15 (`Error`). -/
inductive KoError where
  | share (e : ShareError)
  | gctx (e : GError)
  | symbols (e : SymError)
  | typing (e : KError)
  deriving Repr, DecidableEq

/-- `kocheck/src/error.rs` L6-11 (`Error`); the contents of parse and I/O errors are not distinguished. -/
inductive CError where
  | module
  | parse
  | io
  | ko (e : KoError)
  deriving Repr, DecidableEq

/-- Outcome of a driver function. -/
inductive Out (α : Type) where
  | ok (a : α)
  | err (e : CError)
  | panic
  | timeout
  deriving Repr

/-- sequencing; errors, panics and time-outs propagate (`?`) -/
def Out.bind {α β : Type} (m : Out α) (f : α → Out β) : Out β :=
  match m with
  | .ok a => f a
  | .err e => .err e
  | .panic => .panic
  | .timeout => .timeout

/-- `Out` without its value -/
def Out.isOk {α : Type} : Out α → Bool
  | .ok _ => true
  | _ => false

/-- `From<TypingError> for Error` (`kontroli/src/error.rs` L35-39) and `map_err(Error::Ko)`. -/
def Res.out {α : Type} : Res α → Out α
  | .ok a => .ok a
  | .err e => .err (.ko (.typing e))
  | .panic => .panic
  | .timeout => .timeout

/-- `From<GCtxError> for Error` (`kontroli/src/error.rs` L23-27). -/
def gctxOut : Except GError Unit → Out Unit
  | .ok _ => .ok ()
  | .error e => .err (.ko (.gctx e))

/-- `kocheck/src/lib.rs` L18 (`Command`), `kontroli/src/command.rs` L5-11. -/
inductive Cmd where
  | intro (s : Sym) (i : Intro LTerm)
  | rules (rs : List Rule)
  deriving Repr

/-- The kernel as seen by the driver. -/
structure Kern where
  /-- `kernel::intro` -/
  intro : GCtx → Intro LTerm → Res (Typing × Option Check)
  /-- `kernel::rewrite` -/
  rewrite : GCtx → TRule → Res Check
  /-- `Check::check` -/
  check : GCtx → Check → Res Unit

/-- forget the final heap -/
def Res.value {α : Type} : Res (α × St) → Res α
  | .ok (a, _) => .ok a
  | .err e => .err e
  | .panic => .panic
  | .timeout => .timeout

/-- The kernel of the model, run with fuel `n` on an empty heap with the oracle `rc`. -/
def Kern.std (n : Nat) (rc : Nat → Bool) : Kern where
  intro gc i := (Kontroli.intro n gc i ⟨[], [], rc⟩).value
  rewrite gc r := (Kontroli.rewrite n gc r ⟨[], [], rc⟩).value
  check gc c := (Check.check n gc c ⟨[], [], rc⟩).value

/-- `rules.into_iter().try_for_each(|r| gc.add_rule(r))` (`kocheck/src/infer_checks.rs` L32): not atomic. -/
def addRules : GCtx → List Rule → GCtx × Except GError Unit
  | gc, [] => (gc, .ok ())
  | gc, r :: rs =>
    match gc.addRule r with
    | (gc, .ok ()) => addRules gc rs
    | (gc, .error e) => (gc, .error e)

/-- The loop over the rules (`kocheck/src/infer_checks.rs` L24-31): rules that have no annotated form are skipped. -/
def rewriteAll (k : Kern) {τ : Type} (f : τ → Check → GCtx → Out τ) (gc : GCtx) : List Rule → τ → Out τ
  | [], t => .ok t
  | r :: rs, t =>
    match r.toT with
    | some tr => (k.rewrite gc tr).out.bind fun c => (f t c gc).bind fun t => rewriteAll k f gc rs t
    | none => rewriteAll k f gc rs t

/-- `infer_with` (`kocheck/src/infer_checks.rs` L8-36). The state captured by the closure `f` is threaded. -/
def inferWith (k : Kern) {τ : Type} (f : τ → Check → GCtx → Out τ) (gc : GCtx) (t : τ) : Cmd → GCtx × Out τ
  | .intro sym it =>
    match (k.intro gc it).out.bind fun r => match r.2 with
      | some c => (f t c gc).bind fun t => .ok (r.1, t)
      | none => .ok (r.1, t) with
    | .ok (typing, t) =>
      match gc.insert sym typing it.rewritable with
      | (gc, res) => (gc, (gctxOut res).bind fun _ => .ok t)
    | .err e => (gc, .err e)
    | .panic => (gc, .panic)
    | .timeout => (gc, .timeout)
  | .rules rs =>
    match rewriteAll k f gc rs t with
    | .ok t =>
      match addRules gc rs with
      | (gc, res) => (gc, (gctxOut res).bind fun _ => .ok t)
    | .err e => (gc, .err e)
    | .panic => (gc, .panic)
    | .timeout => (gc, .timeout)

/-- `kocheck/src/stage.rs` L9-16 (`Stage`). -/
inductive Stage where
  | share
  | infer
  | check
  deriving Repr, DecidableEq

/-- `kocheck/src/opt.rs` L8-50 (`Opt`), the options that matter for the verdict. -/
structure Opt where
  eta : Bool
  omitted : Option Stage
  jobs : Bool
  deriving Repr

/-- `Opt::omits` (`kocheck/src/opt.rs` L53-55). -/
def Opt.omits (o : Opt) (s : Stage) : Bool := o.omitted == some s

/-- `infer_check` (`kocheck/src/infer_checks.rs` L38-45). -/
def inferCheck (k : Kern) (opt : Opt) (gc : GCtx) (cmd : Cmd) : GCtx × Out Unit :=
  inferWith k (fun _ c gc => if opt.omits .check then .ok () else (k.check gc c).out) gc () cmd

/-- `Checks` (`kocheck/src/infer_checks.rs` L6). -/
abbrev Checks := List Check × GCtx

/-- `infer` (`kocheck/src/infer_checks.rs` L47-54). -/
def inferOnly (k : Kern) (gc : GCtx) (cmd : Cmd) : GCtx × Out Checks :=
  match inferWith k (fun cs c _ => .ok (cs ++ [c])) gc ([] : List Check) cmd with
  | (gc', res) => (gc', res.bind fun cs => .ok (cs, gc))

/-- `check` (`kocheck/src/infer_checks.rs` L56-58). -/
def checkAll (k : Kern) : List Check → GCtx → Out Unit
  | [], _ => .ok ()
  | c :: cs, gc => (k.check gc c).out.bind fun _ => checkAll k cs gc

/-- `iter.filter(|cmd| !opt.omits(Stage::Infer) || cmd.is_err())` (`kocheck/src/infer_checks.rs` L65). -/
def keepInfer (opt : Opt) (cmd : Out Cmd) : Bool := !opt.omits .infer || !cmd.isOk

/-- `iter.try_for_each(|cmd| infer_check(cmd?, opt, gc))` (`kocheck/src/infer_checks.rs` L72). -/
def seqLoop (k : Kern) (opt : Opt) : GCtx → List (Out Cmd) → GCtx × Out Unit
  | gc, [] => (gc, .ok ())
  | gc, .ok cmd :: cmds =>
    match inferCheck k opt gc cmd with
    | (gc, .ok ()) => seqLoop k opt gc cmds
    | (gc, e) => (gc, e)
  | gc, .err e :: _ => (gc, .err e)
  | gc, .panic :: _ => (gc, .panic)
  | gc, .timeout :: _ => (gc, .timeout)

/-- `infer_checks` without `jobs` (`kocheck/src/infer_checks.rs` L61-74).  The stream of commands is a list of outcomes. -/
def inferChecksSeq (k : Kern) (opt : Opt) (gc : GCtx) (cmds : List (Out Cmd)) : GCtx × Out Unit :=
  seqLoop k opt gc (cmds.filter (keepInfer opt))

/-! ## Several threads (`kocheck/src/infer_checks.rs` L66-70)

`par_bridge` lets every thread pull the next element from the iterator (pulling runs `infer`, under a lock), and process
it concurrently with the others; `try_for_each` makes the threads stop eventually after a failure, and returns one of the
failures.  This is a transition system whose schedules are arbitrary. -/

/-- State of the thread pool. -/
structure Pool where
  /-- the commands not yet pulled -/
  todo : List (Out Cmd)
  gc : GCtx
  /-- pulled elements whose processing is not finished -/
  running : List (Out Checks)
  /-- failures so far -/
  failed : List (Out Unit)

/-- pull the next command: `iter.map(|cmd| infer(cmd?, gc))` (`kocheck/src/infer_checks.rs` L67) -/
def pull (k : Kern) (gc : GCtx) : Out Cmd → GCtx × Out Checks
  | .ok cmd => inferOnly k gc cmd
  | .err e => (gc, .err e)
  | .panic => (gc, .panic)
  | .timeout => (gc, .timeout)

/-- process an element: `check(ts?)` (`kocheck/src/infer_checks.rs` L70) -/
def processChecks (k : Kern) (ts : Out Checks) : Out Unit := ts.bind fun ts => checkAll k ts.1 ts.2

/-- `.filter(|cmd| !opt.omits(Stage::Check) || cmd.is_err())` (`kocheck/src/infer_checks.rs` L68) -/
def keepCheck (opt : Opt) (ts : Out Checks) : Bool := !opt.omits .check || !ts.isOk

/-- One step of the thread pool. -/
inductive PoolStep (k : Kern) (opt : Opt) : Pool → Pool → Prop
  | pull {cmd : Out Cmd} {todo : List (Out Cmd)} {gc : GCtx} {running : List (Out Checks)} {failed : List (Out Unit)} :
      PoolStep k opt ⟨cmd :: todo, gc, running, failed⟩
        ⟨todo, (pull k gc cmd).1,
          if keepCheck opt (pull k gc cmd).2 then running ++ [(pull k gc cmd).2] else running, failed⟩
  | done {todo : List (Out Cmd)} {gc : GCtx} {pre post : List (Out Checks)} {ts : Out Checks} {failed : List (Out Unit)} :
      PoolStep k opt ⟨todo, gc, pre ++ ts :: post, failed⟩
        ⟨todo, gc, pre ++ post, if (processChecks k ts).isOk then failed else failed ++ [processChecks k ts]⟩

/-- Schedules. -/
inductive PoolSteps (k : Kern) (opt : Opt) : Pool → Pool → Prop
  | refl {p : Pool} : PoolSteps k opt p p
  | step {p q r : Pool} : PoolStep k opt p q → PoolSteps k opt q r → PoolSteps k opt p r

/-- `infer_checks` with `jobs`: some schedule leads to the verdict `res` and the context `gc'`.  All is well if everything has
been pulled and processed without failure; if there is a failure the threads may stop at any time, with that failure. -/
def InferChecksPar (k : Kern) (opt : Opt) (gc : GCtx) (cmds : List (Out Cmd)) (gc' : GCtx) (res : Out Unit) : Prop :=
  ∃ p, PoolSteps k opt ⟨cmds.filter (keepInfer opt), gc, [], []⟩ p ∧ p.gc = gc' ∧
    ((p.todo = [] ∧ p.running = [] ∧ p.failed = [] ∧ res = .ok ()) ∨ res ∈ p.failed)

end Kontroli
