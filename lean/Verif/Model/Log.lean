import Verif.Model.Process
import Verif.Model.Bench

/-!
# What is logged (`kocheck/src/process.rs` L36-50, `infer_checks.rs` L29)

The lines that `kocheck` logs while it runs on files without a channel and without threads (`process.rs` L56-74): those of the level `info`, about the commands
that are read, and those of the level `warn`, about rules.  As the stream of commands is lazy, the lines about a command are written
when it is pulled; therefore the loops are written once more, as they are in the code: a command is parsed, logged, shared and checked before the next one is
parsed.  `C67_run` says that the verdict is that of `Run`, where the commands of a file are shared all at once.

The time, the target and the level that `env_logger` writes before a line are left out, and so is the error that `main` writes at the end.
-/

namespace Kontroli

/-- a line of the log -/
inductive LogLine where
  /-- `log::info!("Introduce symbol {}", id)` (`kocheck/src/process.rs` L38) -/
  | introduce (id : Str)
  /-- `log::info!("Add {} rules", rules.len())` (`kocheck/src/process.rs` L39) -/
  | add (n : Nat)
  /-- `log::warn!("Rewrite rule contains unannotated variable")` (`kocheck/src/infer_checks.rs` L29) -/
  | unannotated
  deriving Repr, DecidableEq

/-- the text of a line (`kocheck/src/process.rs` L38-39, `infer_checks.rs` L29) -/
def LogLine.text : LogLine → Str
  | .introduce id => str "Introduce symbol " ++ id
  | .add n => str "Add " ++ decimal n ++ str " rules"
  | .unannotated => str "Rewrite rule contains unannotated variable"

/-- the line is a warning, which is shown by default (`kocheck/src/main.rs` L12-16) -/
def LogLine.isWarn : LogLine → Bool
  | .unannotated => true
  | _ => false

/-- `log_cmd` (`kocheck/src/process.rs` L36-41) -/
def logCmd : Scoped → LogLine
  | .intro id _ _ => .introduce id
  | .rules rs => .add rs.length

/-- a value and the lines that were logged -/
structure Logged (α : Type) where
  log : List LogLine
  val : α

/-- some lines before -/
def Logged.after {α : Type} (l : List LogLine) (m : Logged α) : Logged α := ⟨l ++ m.log, m.val⟩

/-- `rewriteAll` with its warnings (`kocheck/src/infer_checks.rs` L24-31) -/
def rewriteAllLog (k : Kern) {τ : Type} (f : τ → Check → GCtx → Out τ) (gc : GCtx) : List Rule → τ → Logged (Out τ)
  | [], t => ⟨[], .ok t⟩
  | r :: rs, t =>
    match r.toT with
    | some tr =>
      match (k.rewrite gc tr).out.bind fun c => f t c gc with
      | .ok t => rewriteAllLog k f gc rs t
      | .err e => ⟨[], .err e⟩
      | .panic => ⟨[], .panic⟩
      | .timeout => ⟨[], .timeout⟩
    | none => (rewriteAllLog k f gc rs t).after [.unannotated]

/-- `inferWith` with its warnings (`kocheck/src/infer_checks.rs` L8-36) -/
def inferWithLog (k : Kern) {τ : Type} (f : τ → Check → GCtx → Out τ) (gc : GCtx) (t : τ) : Cmd → Logged (GCtx × Out τ)
  | .intro sym it => ⟨[], inferWith k f gc t (.intro sym it)⟩
  | .rules rs =>
    match rewriteAllLog k f gc rs t with
    | ⟨l, .ok t⟩ =>
      match addRules gc rs with
      | (gc, res) => ⟨l, gc, (gctxOut res).bind fun _ => .ok t⟩
    | ⟨l, .err e⟩ => ⟨l, gc, .err e⟩
    | ⟨l, .panic⟩ => ⟨l, gc, .panic⟩
    | ⟨l, .timeout⟩ => ⟨l, gc, .timeout⟩

/-- `infer_check` with its warnings (`kocheck/src/infer_checks.rs` L38-45) -/
def inferCheckLog (k : Kern) (opt : Opt) (gc : GCtx) (cmd : Cmd) : Logged (GCtx × Out Unit) :=
  inferWithLog k (fun _ c gc => if opt.omits .check then .ok () else (k.check gc c).out) gc () cmd

/-- The loop over the commands of a file (`kocheck/src/process.rs` L44-50, L67-71, `infer_checks.rs` L65, L72): every command is logged when it is pulled. -/
def fileLog (k : Kern) (opt : Opt) : ShState → GCtx → List (Out Scoped) → Logged (ShState × GCtx × Out Unit)
  | st, gc, [] => ⟨[], st, gc, .ok ()⟩
  | st, gc, .ok c :: cs =>
    if opt.omits .share then (fileLog k opt st gc cs).after [logCmd c]
    else
      match shareCmd st c with
      | (st, .ok cmd) =>
        if opt.omits .infer then (fileLog k opt st gc cs).after [logCmd c]
        else
          match inferCheckLog k opt gc cmd with
          | ⟨l, gc, .ok ()⟩ => (fileLog k opt st gc cs).after (logCmd c :: l)
          | ⟨l, gc, .err e⟩ => ⟨logCmd c :: l, st, gc, .err e⟩
          | ⟨l, gc, .panic⟩ => ⟨logCmd c :: l, st, gc, .panic⟩
          | ⟨l, gc, .timeout⟩ => ⟨logCmd c :: l, st, gc, .timeout⟩
      | (st, .err e) => ⟨[logCmd c], st, gc, .err e⟩
      | (st, .panic) => ⟨[logCmd c], st, gc, .panic⟩
      | (st, .timeout) => ⟨[logCmd c], st, gc, .timeout⟩
  | st, gc, .err e :: _ => ⟨[], st, gc, .err e⟩
  | st, gc, .panic :: _ => ⟨[], st, gc, .panic⟩
  | st, gc, .timeout :: _ => ⟨[], st, gc, .timeout⟩

/-- The loop of `run` (`kocheck/src/process.rs` L63-72). -/
def runFilesLog (k : Kern) (opt : Opt) : ShState → GCtx → List (Out ParsedFile) → Logged (GCtx × Out Unit)
  | _, gc, [] => ⟨[], gc, .ok ()⟩
  | st, gc, .ok f :: fs =>
    match fileLog k opt { st with syms := st.syms.setPath f.path } gc f.cmds with
    | ⟨l, st, gc, .ok ()⟩ => (runFilesLog k opt st gc fs).after l
    | ⟨l, _, gc, .err e⟩ => ⟨l, gc, .err e⟩
    | ⟨l, _, gc, .panic⟩ => ⟨l, gc, .panic⟩
    | ⟨l, _, gc, .timeout⟩ => ⟨l, gc, .timeout⟩
  | _, gc, .err e :: _ => ⟨[], gc, .err e⟩
  | _, gc, .panic :: _ => ⟨[], gc, .panic⟩
  | _, gc, .timeout :: _ => ⟨[], gc, .timeout⟩

/-- `run` (`kocheck/src/process.rs` L56-74) with its log, without threads. -/
def runLog (k : Kern) (opt : Opt) (files : List (Out ParsedFile)) : Logged (GCtx × Out Unit) :=
  runFilesLog k opt ShState.new (GCtx.start opt.eta) files

end Kontroli
