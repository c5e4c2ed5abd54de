import Verif.Model.Process

/-!
# The channel between producer and consumer (`kocheck/src/main.rs`)

With the option `channel_capacity`, `main` starts a thread that consumes events from a channel (crate `flume`), and produces the events
itself.  This is a transition system whose schedules are arbitrary; `Piped` (`Model/Process.lean`) says which verdicts it has.

* The channel is a queue.  Sending blocks while the queue is full; with capacity 0 an event is handed over when the consumer is ready to
  receive it.  Sending fails once the receiver is dropped, which happens when `consume` returns.
* Receiving blocks while the queue is empty; the iterator over the receiver ends when the queue is empty and the sender is dropped.
* The thread pool of the consumer is that of `Model/Driver.lean`: after a failure the threads may stop at any time.
* The events and the result of `produce` are given by the function `produce`; the parser runs when the next event is asked for, so a
  panic of the parser ends `main` when its event would be sent.
-/

namespace Kontroli

/-- The state of `consume` (`kocheck/src/process.rs` L97-114): symbols and arena, global context, and the thread pool. -/
structure Consumer where
  st : ShState
  gc : GCtx
  /-- elements whose checks are not finished (only with several threads) -/
  running : List (Out Checks)
  /-- failures so far -/
  failed : List (Out Unit)

/-- `Arena::new()`, `Symbols::new()`, `GCtx::new()`, `gc.eta = opt.eta` (`kocheck/src/process.rs` L101-105) -/
def Consumer.new (opt : Opt) : Consumer := ⟨ShState.new, GCtx.start opt.eta, [], []⟩

/-- The command that an event gives, if any, and the state after it (`kocheck/src/process.rs` L108-111, `infer_checks.rs` L65). -/
def Consumer.cmd (opt : Opt) (st : ShState) (e : Out Event) : ShState × Option (Out Cmd) :=
  if keepShare opt e then ((eventStep st e).1, (eventStep st e).2.filter (keepInfer opt)) else (st, none)

/-- Processing of one command by the thread that pulls it (`kocheck/src/infer_checks.rs` L66-73). -/
def Consumer.process (k : Kern) (opt : Opt) (c : Consumer) (cmd : Out Cmd) : Consumer :=
  if opt.jobs then
    { c with
      gc := (pull k c.gc cmd).1
      running := if keepCheck opt (pull k c.gc cmd).2 then c.running ++ [(pull k c.gc cmd).2] else c.running }
  else
    match seqLoop k opt c.gc [cmd] with
    | (gc, .ok ()) => { c with gc := gc }
    | (gc, e) => { c with gc := gc, failed := c.failed ++ [e] }

/-- An event is received. -/
def Consumer.take (k : Kern) (opt : Opt) (c : Consumer) (e : Out Event) : Consumer :=
  match Consumer.cmd opt c.st e with
  | (st, none) => { c with st := st }
  | (st, some cmd) => Consumer.process k opt { c with st := st } cmd

/-- The consumer asks for further events: without threads, the loop ends with the first failure. -/
def Consumer.ready (opt : Opt) (c : Consumer) : Prop := opt.jobs = true ∨ c.failed = []

/-- What an event is: something that can be sent, or a panic (or endless loop) of the parser. -/
def Out.sendable {α : Type} : Out α → Bool
  | .ok _ => true
  | .err _ => true
  | .panic => false
  | .timeout => false

/-- an outcome without its value -/
def Out.void {α : Type} (m : Out α) : Out Unit := m.bind fun _ => .ok ()

/-- The state of `main` (`kocheck/src/main.rs` L27-45) and of the thread that it starts. -/
structure Net where
  /-- the events that `produce` has still to send -/
  todo : List (Out Event)
  /-- the result of `produce` after the last event -/
  out : Out Unit
  /-- the sender is not dropped yet -/
  sender : Bool
  queue : List (Out Event)
  /-- the consumer, or the result of `consume`, which has dropped the receiver -/
  consumer : Sum Consumer (Out Unit)
  /-- the result of `main` -/
  verdict : Option (Out Unit)

/-- `flume::bounded(capacity)`, `flume::unbounded()` (`kocheck/src/main.rs` L29-32): there is room in the queue -/
def hasRoom (capacity : Option Nat) (queue : List (Out Event)) : Prop := ∀ n, capacity = some n → queue.length < n

/-- The start of `main` with a channel (`kocheck/src/main.rs` L29-35). -/
def Net.start (opt : Opt) (files : List (Out ParsedFile)) : Net :=
  ⟨(produce files).1, (produce files).2, true, [], .inl (Consumer.new opt), none⟩

/-- One step. -/
inductive NetStep (k : Kern) (opt : Opt) (capacity : Option Nat) : Net → Net → Prop
  /-- `sender.send(event)` (`kocheck/src/main.rs` L37) -/
  | send {e : Out Event} {todo queue : List (Out Event)} {out : Out Unit} {c : Consumer} :
      e.sendable = true → hasRoom capacity queue →
      NetStep k opt capacity ⟨e :: todo, out, true, queue, .inl c, none⟩ ⟨todo, out, true, queue ++ [e], .inl c, none⟩
  /-- `sender.send(event)` when the capacity is 0 -/
  | handover {e : Out Event} {todo : List (Out Event)} {out : Out Unit} {c : Consumer} :
      e.sendable = true → capacity = some 0 → c.ready opt →
      NetStep k opt capacity ⟨e :: todo, out, true, [], .inl c, none⟩ ⟨todo, out, true, [], .inl (c.take k opt e), none⟩
  /-- `sender.send(event)` fails; `produce` returns `Ok(())` (`kocheck/src/process.rs` L89-91) -/
  | refused {e : Out Event} {todo queue : List (Out Event)} {out r : Out Unit} :
      e.sendable = true →
      NetStep k opt capacity ⟨e :: todo, out, true, queue, .inr r, none⟩ ⟨[], .ok (), true, queue, .inr r, none⟩
  /-- the parser panics -/
  | crash {e : Out Event} {todo queue : List (Out Event)} {out : Out Unit} {c : Sum Consumer (Out Unit)} :
      e.sendable = false →
      NetStep k opt capacity ⟨e :: todo, out, true, queue, c, none⟩ ⟨e :: todo, out, true, queue, c, some e.void⟩
  /-- `process::produce(..)?` (`kocheck/src/main.rs` L37) returns an error: `main` ends without waiting for the consumer -/
  | error {queue : List (Out Event)} {out : Out Unit} {c : Sum Consumer (Out Unit)} :
      out.isOk = false → NetStep k opt capacity ⟨[], out, true, queue, c, none⟩ ⟨[], out, true, queue, c, some out⟩
  /-- `drop(sender)` (`kocheck/src/main.rs` L41) -/
  | close {queue : List (Out Event)} {out : Out Unit} {c : Sum Consumer (Out Unit)} :
      out.isOk = true → NetStep k opt capacity ⟨[], out, true, queue, c, none⟩ ⟨[], out, false, queue, c, none⟩
  /-- the consumer receives an event from the queue -/
  | receive {e : Out Event} {todo queue : List (Out Event)} {out : Out Unit} {s : Bool} {c : Consumer} :
      c.ready opt →
      NetStep k opt capacity ⟨todo, out, s, e :: queue, .inl c, none⟩ ⟨todo, out, s, queue, .inl (c.take k opt e), none⟩
  /-- a thread of the consumer finishes its checks (`kocheck/src/infer_checks.rs` L70) -/
  | check {todo queue : List (Out Event)} {out : Out Unit} {s : Bool} {st : ShState} {gc : GCtx} {pre post : List (Out Checks)}
      {ts : Out Checks} {failed : List (Out Unit)} :
      NetStep k opt capacity ⟨todo, out, s, queue, .inl ⟨st, gc, pre ++ ts :: post, failed⟩, none⟩
        ⟨todo, out, s, queue,
          .inl ⟨st, gc, pre ++ post, if (processChecks k ts).isOk then failed else failed ++ [processChecks k ts]⟩, none⟩
  /-- `consume` returns a failure -/
  | stop {todo queue : List (Out Event)} {out r : Out Unit} {s : Bool} {c : Consumer} :
      r ∈ c.failed → NetStep k opt capacity ⟨todo, out, s, queue, .inl c, none⟩ ⟨todo, out, s, queue, .inr r, none⟩
  /-- `consume` returns `Ok(())`: there are no more events, and all is checked -/
  | finish {out : Out Unit} {st : ShState} {gc : GCtx} :
      NetStep k opt capacity ⟨[], out, false, [], .inl ⟨st, gc, [], []⟩, none⟩ ⟨[], out, false, [], .inr (.ok ()), none⟩
  /-- `consume.join().unwrap()` (`kocheck/src/main.rs` L44) -/
  | join {queue : List (Out Event)} {out r : Out Unit} :
      NetStep k opt capacity ⟨[], out, false, queue, .inr r, none⟩ ⟨[], out, false, queue, .inr r, some r⟩

/-- Schedules. -/
inductive NetSteps (k : Kern) (opt : Opt) (capacity : Option Nat) : Net → Net → Prop
  | refl {a : Net} : NetSteps k opt capacity a a
  | step {a b c : Net} : NetStep k opt capacity a b → NetSteps k opt capacity b c → NetSteps k opt capacity a c

/-- `main` with a channel (`kocheck/src/main.rs` L27-45): some schedule gives the verdict `res`. -/
def Channel (k : Kern) (opt : Opt) (capacity : Option Nat) (files : List (Out ParsedFile)) (res : Out Unit) : Prop :=
  ∃ a, NetSteps k opt capacity (Net.start opt files) a ∧ a.verdict = some res

end Kontroli
