import Verif.Model.Share

/-!
# Processing of files and events (`kocheck/src/process.rs`, `event.rs`, `main.rs`)

A file is what `PathRead::try_from` and `parse` make of it: an error, or its module path and the stream of parse results.
Streams are finite lists.  Commands are shared when they are pulled by `infer_checks`; as sharing does not look at the global
context, the commands of a file are shared here all at once.
-/

namespace Kontroli

/-- The symbol table and the arena of symbols (`kocheck/src/process.rs` L57-58), of which only the number of allocated
cells matters: `alloc` returns a reference to a new cell. -/
structure ShState where
  syms : Symbols
  next : Nat

/-- `Symbols::new()`, `Arena::new()` -/
def ShState.new : ShState := ⟨Symbols.new, 0⟩

/-- `share` (`kocheck/src/process.rs` L21-34). -/
def shareCmd (st : ShState) (c : Scoped) : ShState × Out Cmd :=
  match c.share st.syms with
  | .error e => (st, .err (.ko (.share e)))
  | .ok (.intro id it) =>
    match st.syms.insert id st.next with
    | (syms, .ok sym) => (⟨syms, st.next + 1⟩, .ok (.intro sym it))
    | (syms, .error e) => (⟨syms, st.next + 1⟩, .err (.ko (.symbols e)))
  | .ok (.rules rs) => (st, .ok (.rules rs))

/-- `.filter(|cmd| !opt.omits(Stage::Share) || cmd.is_err())` (`kocheck/src/process.rs` L68, L109) -/
def keepShare {α : Type} (opt : Opt) (c : Out α) : Bool := !opt.omits .share || !c.isOk

/-- `share(cmd?, &mut syms, &arena).map_err(Error::Ko)` (`kocheck/src/process.rs` L69) -/
def shareStep (st : ShState) : Out Scoped → ShState × Out Cmd
  | .ok c => shareCmd st c
  | .err e => (st, .err e)
  | .panic => (st, .panic)
  | .timeout => (st, .timeout)

/-- `.map(|cmd| share(cmd?, ..))` (`kocheck/src/process.rs` L69) over a stream -/
def shareAll : ShState → List (Out Scoped) → ShState × List (Out Cmd)
  | st, [] => (st, [])
  | st, c :: cs => ((shareAll (shareStep st c).1 cs).1, (shareStep st c).2 :: (shareAll (shareStep st c).1 cs).2)

/-- `PathRead` with the parsed content (`kocheck/src/path_read.rs` L6-11, `process.rs` L44-50) -/
structure ParsedFile where
  path : List Str
  cmds : List (Out Scoped)

/-- `infer_checks` (`kocheck/src/infer_checks.rs` L61-74), with or without several threads. -/
def InferChecks (k : Kern) (opt : Opt) (gc : GCtx) (cmds : List (Out Cmd)) (gc' : GCtx) (res : Out Unit) : Prop :=
  if opt.jobs then InferChecksPar k opt gc cmds gc' res else inferChecksSeq k opt gc cmds = (gc', res)

/-- The commands of one file, and the state after it (`kocheck/src/process.rs` L65-69). -/
def fileCmds (opt : Opt) (st : ShState) (f : ParsedFile) : ShState × List (Out Cmd) :=
  shareAll { st with syms := st.syms.setPath f.path } (f.cmds.filter (keepShare opt))

/-- The loop of `run` (`kocheck/src/process.rs` L63-72). -/
inductive RunFiles (k : Kern) (opt : Opt) : ShState → GCtx → List (Out ParsedFile) → GCtx → Out Unit → Prop
  | nil {st : ShState} {gc : GCtx} : RunFiles k opt st gc [] gc (.ok ())
  | next {st : ShState} {gc gc1 gc2 : GCtx} {f : ParsedFile} {fs : List (Out ParsedFile)} {res : Out Unit} :
      InferChecks k opt gc (fileCmds opt st f).2 gc1 (.ok ()) → RunFiles k opt (fileCmds opt st f).1 gc1 fs gc2 res →
      RunFiles k opt st gc (.ok f :: fs) gc2 res
  | fail {st : ShState} {gc gc1 : GCtx} {f : ParsedFile} {fs : List (Out ParsedFile)} {res : Out Unit} :
      InferChecks k opt gc (fileCmds opt st f).2 gc1 res → res.isOk = false → RunFiles k opt st gc (.ok f :: fs) gc1 res
  | openErr {st : ShState} {gc : GCtx} {e : CError} {fs : List (Out ParsedFile)} : RunFiles k opt st gc (.err e :: fs) gc (.err e)
  | openPanic {st : ShState} {gc : GCtx} {fs : List (Out ParsedFile)} : RunFiles k opt st gc (.panic :: fs) gc .panic
  | openTimeout {st : ShState} {gc : GCtx} {fs : List (Out ParsedFile)} : RunFiles k opt st gc (.timeout :: fs) gc .timeout

/-- `run` (`kocheck/src/process.rs` L56-74). -/
def Run (k : Kern) (opt : Opt) (files : List (Out ParsedFile)) (gc : GCtx) (res : Out Unit) : Prop :=
  RunFiles k opt ShState.new (GCtx.start opt.eta) files gc res

/-- `Event` (`kocheck/src/event.rs` L8-13). -/
inductive Event where
  | module (path : List Str)
  | command (c : Scoped)

/-- `cmd.map(Event::Command)` (`kocheck/src/process.rs` L85) -/
def eventOf : Out Scoped → Out Event
  | .ok c => .ok (.command c)
  | .err e => .err e
  | .panic => .panic
  | .timeout => .timeout

/-- `produce` (`kocheck/src/process.rs` L77-94): the events that are sent if no sending fails, and the result. -/
def produce : List (Out ParsedFile) → List (Out Event) × Out Unit
  | [] => ([], .ok ())
  | .ok f :: fs => (.ok (.module f.path) :: f.cmds.map eventOf ++ (produce fs).1, (produce fs).2)
  | .err e :: _ => ([], .err e)
  | .panic :: _ => ([], .panic)
  | .timeout :: _ => ([], .timeout)

/-- `from_event` and `flat_map(|ro| ro.transpose())` (`kocheck/src/process.rs` L10-19, L110-111): the command of an event, if
there is one. -/
def eventStep (st : ShState) : Out Event → ShState × Option (Out Cmd)
  | .ok (.module path) => ({ st with syms := st.syms.setPath path }, none)
  | .ok (.command c) => ((shareCmd st c).1, some (shareCmd st c).2)
  | .err e => (st, some (.err e))
  | .panic => (st, some .panic)
  | .timeout => (st, some .timeout)

/-- the stream of commands of a stream of events (`kocheck/src/process.rs` L108-111) -/
def eventCmds : ShState → List (Out Event) → List (Out Cmd)
  | _, [] => []
  | st, e :: es => (eventStep st e).2.toList ++ eventCmds (eventStep st e).1 es

/-- `consume` (`kocheck/src/process.rs` L97-114). -/
def Consume (k : Kern) (opt : Opt) (evs : List (Out Event)) (gc : GCtx) (res : Out Unit) : Prop :=
  InferChecks k opt (GCtx.start opt.eta) (eventCmds ShState.new (evs.filter (keepShare opt))) gc res

/-- The verdicts of `main` with a channel (`kocheck/src/main.rs` L27-45); `evs` are the events and `out` is the result of `produce`.
The consumer receives the events in order.

* If no sending fails then `produce` yields its result; if that is an error, `main` returns it at once.
* Otherwise the verdict is that of the consumer on all events.
* The consumer may have stopped early, with a failure, when it had received only `n` events; then sending one of the others may fail, in
  which case `produce` returns `Ok`.

The channel itself is modelled in `Model/Channel.lean`; `C53_refines` and `C53_exact` justify this description. -/
def PipedOf (k : Kern) (opt : Opt) (evs : List (Out Event)) (out res : Out Unit) : Prop :=
  (out.isOk = false ∧ res = out) ∨
  (out.isOk = true ∧ ∃ gc, Consume k opt evs gc res) ∨
  (res.isOk = false ∧ ∃ n gc, n < evs.length ∧ Consume k opt (evs.take n) gc res)

/-- `main` with a channel (`kocheck/src/main.rs` L27-45). -/
def Piped (k : Kern) (opt : Opt) (files : List (Out ParsedFile)) (res : Out Unit) : Prop :=
  PipedOf k opt (produce files).1 (produce files).2 res

end Kontroli
