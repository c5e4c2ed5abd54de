import Verif.Model.Channel
import Verif.Props.Process

/-! # Lemmas on the channel -/

namespace Kontroli

variable {k : Kern} {opt : Opt} {cap : Option Nat}

/-! ## The commands of some events -/

/-- the commands that `infer_checks` gets from some events -/
def cmdsOf (opt : Opt) (st : ShState) (evs : List (Out Event)) : List (Out Cmd) :=
  (eventCmds st (evs.filter (keepShare opt))).filter (keepInfer opt)

/-- the state after some events -/
def stOf (opt : Opt) (st : ShState) (evs : List (Out Event)) : ShState := eventsState st (evs.filter (keepShare opt))

theorem eventsState_append (st : ShState) (as bs : List (Out Event)) :
    eventsState st (as ++ bs) = eventsState (eventsState st as) bs := by
  induction as generalizing st with
  | nil => rfl
  | cons a as ih => exact ih _

theorem cmdsOf_append (st : ShState) (as bs : List (Out Event)) :
    cmdsOf opt st (as ++ bs) = cmdsOf opt st as ++ cmdsOf opt (stOf opt st as) bs := by
  simp only [cmdsOf, stOf, List.filter_append, eventCmds_append]

theorem stOf_append (st : ShState) (as bs : List (Out Event)) : stOf opt st (as ++ bs) = stOf opt (stOf opt st as) bs := by
  simp only [stOf, List.filter_append, eventsState_append]

theorem cmdsOf_one (st : ShState) (e : Out Event) : cmdsOf opt st [e] = (Consumer.cmd opt st e).2.toList := by
  unfold cmdsOf Consumer.cmd
  by_cases h : keepShare opt e = true
  · simp only [h, List.filter_cons_of_pos, List.filter_nil, eventCmds, List.append_nil, if_true]
    cases (eventStep st e).2 with
    | none => rfl
    | some c => cases h' : keepInfer opt c <;> simp [h', Option.filter]
  · simp [h, eventCmds]

theorem stOf_one (st : ShState) (e : Out Event) : stOf opt st [e] = (Consumer.cmd opt st e).1 := by
  unfold stOf Consumer.cmd
  by_cases h : keepShare opt e = true
  · simp [h, eventsState]
  · simp [h, eventsState]

theorem cmdsOf_cons (st : ShState) (e : Out Event) (es : List (Out Event)) :
    cmdsOf opt st (e :: es) = (Consumer.cmd opt st e).2.toList ++ cmdsOf opt (Consumer.cmd opt st e).1 es := by
  rw [← cmdsOf_one, ← stOf_one, ← cmdsOf_append]; rfl

theorem stOf_cons (st : ShState) (e : Out Event) (es : List (Out Event)) :
    stOf opt st (e :: es) = stOf opt (Consumer.cmd opt st e).1 es := by
  rw [← stOf_one, ← stOf_append]; rfl

/-! ## What the consumer has done -/

theorem PoolStep.extend {p q : Pool} (h : PoolStep k opt p q) (more : List (Out Cmd)) :
    PoolStep k opt { p with todo := p.todo ++ more } { q with todo := q.todo ++ more } := by
  cases h with
  | pull => exact .pull
  | done => exact .done

theorem PoolSteps.extend {p q : Pool} (h : PoolSteps k opt p q) (more : List (Out Cmd)) :
    PoolSteps k opt { p with todo := p.todo ++ more } { q with todo := q.todo ++ more } := by
  induction h with
  | refl => exact .refl
  | step hs _ ih => exact .step (hs.extend more) ih

theorem PoolSteps.single {p q : Pool} (h : PoolStep k opt p q) : PoolSteps k opt p q := .step h .refl

/-- The consumer has processed some commands. -/
def Processed (k : Kern) (opt : Opt) (cmds : List (Out Cmd)) (c : Consumer) : Prop :=
  if opt.jobs then PoolSteps k opt ⟨cmds, GCtx.start opt.eta, [], []⟩ ⟨[], c.gc, c.running, c.failed⟩
  else c.running = [] ∧ ∃ r, seqLoop k opt (GCtx.start opt.eta) cmds = (c.gc, r) ∧ c.failed = if r.isOk then [] else [r]

/-- The consumer has received some events. -/
structure Received (k : Kern) (opt : Opt) (taken : List (Out Event)) (c : Consumer) : Prop where
  state : c.st = stOf opt ShState.new taken
  processed : Processed k opt (cmdsOf opt ShState.new taken) c

theorem Received.new (k : Kern) (opt : Opt) : Received k opt [] (Consumer.new opt) where
  state := rfl
  processed := by
    unfold Processed
    split
    · exact .refl
    · exact ⟨rfl, .ok (), rfl, rfl⟩

theorem Processed.process {cmds : List (Out Cmd)} {cmd : Out Cmd} {c : Consumer} (h : Processed k opt cmds c) (hr : c.ready opt) :
    Processed k opt (cmds ++ [cmd]) (c.process k opt cmd) := by
  unfold Processed Consumer.process at *
  by_cases hj : opt.jobs = true
  · simp only [hj, if_true] at h ⊢
    have h1 := h.extend [cmd]
    exact h1.trans (.single .pull)
  · simp only [hj, Bool.false_eq_true, if_false] at h ⊢
    obtain ⟨h1, r, h2, h3⟩ := h
    have hf : c.failed = [] := hr.resolve_left hj
    rw [hf] at h3
    cases r with
    | ok u =>
      rw [seqLoop_append, h2]
      simp only
      rcases h4 : seqLoop k opt c.gc [cmd] with ⟨gc, r⟩
      cases r <;> simp [Out.isOk, h1, hf]
    | _ => simp [Out.isOk] at h3

theorem process_st (k : Kern) (opt : Opt) (c : Consumer) (cmd : Out Cmd) : (c.process k opt cmd).st = c.st := by
  unfold Consumer.process
  split
  · rfl
  · split <;> rfl

theorem Received.take {taken : List (Out Event)} {c : Consumer} {e : Out Event} (h : Received k opt taken c) (hr : c.ready opt) :
    Received k opt (taken ++ [e]) (c.take k opt e) := by
  obtain ⟨h1, h2⟩ := h
  have hc : cmdsOf opt ShState.new (taken ++ [e]) = cmdsOf opt ShState.new taken ++ (Consumer.cmd opt c.st e).2.toList := by
    rw [cmdsOf_append, cmdsOf_one, h1]
  have hs : stOf opt ShState.new (taken ++ [e]) = (Consumer.cmd opt c.st e).1 := by
    rw [stOf_append, stOf_one, h1]
  unfold Consumer.take
  rcases hx : Consumer.cmd opt c.st e with ⟨st, _ | cmd⟩
  · rw [hx] at hc hs
    refine ⟨hs.symm, ?_⟩
    rw [hc, Option.toList_none, List.append_nil]
    exact h2
  · rw [hx] at hc hs
    have h3 : Processed k opt (cmdsOf opt ShState.new taken) { c with st := st } := h2
    have h4 := h3.process (cmd := cmd) hr
    refine ⟨?_, by rw [hc]; exact h4⟩
    rw [hs]
    exact process_st k opt _ cmd

theorem Received.check {taken : List (Out Event)} {st : ShState} {gc : GCtx} {pre post : List (Out Checks)} {ts : Out Checks}
    {failed : List (Out Unit)} (h : Received k opt taken ⟨st, gc, pre ++ ts :: post, failed⟩) :
    Received k opt taken ⟨st, gc, pre ++ post, if (processChecks k ts).isOk then failed else failed ++ [processChecks k ts]⟩ := by
  obtain ⟨h1, h2⟩ := h
  refine ⟨h1, ?_⟩
  unfold Processed at *
  by_cases hj : opt.jobs = true
  · simp only [hj, if_true] at h2 ⊢
    exact h2.trans (.single .done)
  · simp only [hj, Bool.false_eq_true, if_false] at h2
    simp at h2

theorem Received.consume {taken : List (Out Event)} {c : Consumer} {r : Out Unit} (h : Received k opt taken c)
    (hr : r ∈ c.failed) : ∃ gc, Consume k opt taken gc r := by
  refine ⟨c.gc, ?_⟩
  have h2 := h.processed
  unfold Consume InferChecks
  unfold Processed at h2
  by_cases hj : opt.jobs = true
  · simp only [hj, if_true] at h2 ⊢
    exact ⟨_, h2, rfl, .inr hr⟩
  · simp only [hj, Bool.false_eq_true, if_false] at h2 ⊢
    obtain ⟨-, r', h3, h4⟩ := h2
    rw [h4] at hr
    split at hr
    · simp at hr
    · rw [List.mem_singleton.1 hr]; exact h3

theorem Received.failed_not_ok {taken : List (Out Event)} {c : Consumer} {r : Out Unit} (h : Received k opt taken c)
    (hr : r ∈ c.failed) : r.isOk = false := by
  have h2 := h.processed
  unfold Processed at h2
  by_cases hj : opt.jobs = true
  · simp only [hj, if_true] at h2
    suffices hs : ∀ p q, PoolSteps k opt p q → (∀ r ∈ p.failed, r.isOk = false) → ∀ r ∈ q.failed, r.isOk = false from
      hs _ _ h2 (by simp) r hr
    intro p q h
    induction h with
    | refl => exact id
    | step hs _ ih =>
      intro h
      refine ih ?_
      cases hs with
      | pull => exact h
      | done =>
        intro r hr
        simp only at hr
        split at hr
        · exact h r hr
        · rename_i hn
          rcases List.mem_append.1 hr with hr | hr
          · exact h r hr
          · rw [List.mem_singleton.1 hr]; simpa using hn
  · simp only [hj, Bool.false_eq_true, if_false] at h2
    obtain ⟨-, r', -, h4⟩ := h2
    rw [h4] at hr
    split at hr
    · simp at hr
    · rename_i hn
      rw [List.mem_singleton.1 hr]; simpa using hn

theorem Received.finish {taken : List (Out Event)} {st : ShState} {gc : GCtx} (h : Received k opt taken ⟨st, gc, [], []⟩) :
    ∃ gc, Consume k opt taken gc (.ok ()) := by
  refine ⟨gc, ?_⟩
  have h2 := h.processed
  unfold Consume InferChecks
  unfold Processed at h2
  by_cases hj : opt.jobs = true
  · simp only [hj, if_true] at h2 ⊢
    exact ⟨_, h2, rfl, .inl ⟨rfl, rfl, rfl, rfl⟩⟩
  · simp only [hj, Bool.false_eq_true, if_false] at h2 ⊢
    obtain ⟨-, r', h3, h4⟩ := h2
    cases r' with
    | ok u => exact h3
    | _ => simp [Out.isOk] at h4

/-! ## The invariant of the channel -/

/-- What is known of every state that can be reached, without panics of the parser. -/
def NetInv (k : Kern) (opt : Opt) (evs : List (Out Event)) (out : Out Unit) (a : Net) : Prop :=
  match a.verdict with
  | some res => PipedOf k opt evs out res
  | none =>
    (a.sender = false → a.todo = [] ∧ a.out.isOk = true) ∧
    match a.consumer with
    | .inl c => ∃ taken, taken ++ a.queue ++ a.todo = evs ∧ a.out = out ∧ Received k opt taken c
    | .inr r => ∃ taken gc, Consume k opt taken gc r ∧
        ((taken ++ a.queue ++ a.todo = evs ∧ a.out = out ∧ (r.isOk = true → a.sender = false ∧ a.queue = [])) ∨
         (r.isOk = false ∧ a.todo = [] ∧ a.out.isOk = true ∧ ∃ rest, rest ≠ [] ∧ taken ++ rest = evs))

theorem NetInv.start (k : Kern) (opt : Opt) (files : List (Out ParsedFile)) :
    NetInv k opt (produce files).1 (produce files).2 (Net.start opt files) :=
  ⟨by simp [Net.start], [], by simp [Net.start], rfl, .new k opt⟩

theorem NetInv.step {evs : List (Out Event)} {out : Out Unit} {a b : Net} (he : ∀ e ∈ evs, e.sendable = true)
    (h : NetInv k opt evs out a) (hs : NetStep k opt cap a b) : NetInv k opt evs out b := by
  cases hs with
  | send h1 h2 =>
    obtain ⟨-, taken, h3, h4, h5⟩ := h
    exact ⟨by simp, taken, by simpa using h3, h4, h5⟩
  | handover h1 h2 h3 =>
    obtain ⟨-, taken, h4, h5, h6⟩ := h
    exact ⟨by simp, _, by simpa using h4, h5, h6.take h3⟩
  | @refused e todo queue out' r h1 =>
    obtain ⟨-, taken, gc, h2, h3⟩ := h
    rcases h3 with ⟨h3, h4, h5⟩ | ⟨-, h3, -⟩
    · have hn : r.isOk = false := by
        cases hx : r.isOk with
        | false => rfl
        | true => exact absurd (h5 hx).1 (by simp)
      refine ⟨by simp, taken, gc, h2, .inr ⟨hn, rfl, rfl, queue ++ e :: todo, by simp, by simpa using h3⟩⟩
    · simp at h3
  | @crash e todo queue out' c h1 =>
    exfalso
    have hm : e ∈ evs := by
      cases c with
      | inl c =>
        obtain ⟨-, taken, h3, -⟩ := h
        rw [← h3]; simp
      | inr r =>
        obtain ⟨-, taken, gc, -, h3⟩ := h
        rcases h3 with ⟨h3, -⟩ | ⟨-, h3, -⟩
        · rw [← h3]; simp
        · simp at h3
    rw [he e hm] at h1
    simp at h1
  | @error queue out' c h1 =>
    refine .inl ?_
    cases c with
    | inl c =>
      obtain ⟨-, taken, -, h3, -⟩ := h
      simp only at h3
      rw [← h3]; exact ⟨h1, rfl⟩
    | inr r =>
      obtain ⟨-, taken, gc, -, h3⟩ := h
      rcases h3 with ⟨-, h3, -⟩ | ⟨-, -, h3, -⟩
      · simp only at h3
        rw [← h3]; exact ⟨h1, rfl⟩
      · simp only at h3
        rw [h3] at h1; simp at h1
  | @close queue out' c h1 =>
    obtain ⟨-, h⟩ := h
    refine ⟨fun _ => ⟨rfl, h1⟩, ?_⟩
    cases c with
    | inl c => exact h
    | inr r =>
      obtain ⟨taken, gc, h2, h3⟩ := h
      refine ⟨taken, gc, h2, ?_⟩
      rcases h3 with ⟨h3, h4, h5⟩ | h3
      · exact .inl ⟨h3, h4, fun hx => ⟨rfl, (h5 hx).2⟩⟩
      · exact .inr h3
  | receive h1 =>
    obtain ⟨h0, taken, h3, h4, h5⟩ := h
    exact ⟨h0, _, by simpa using h3, h4, h5.take h1⟩
  | check =>
    obtain ⟨h0, taken, h3, h4, h5⟩ := h
    exact ⟨h0, _, h3, h4, h5.check⟩
  | stop h1 =>
    obtain ⟨h0, taken, h3, h4, h5⟩ := h
    obtain ⟨gc, h6⟩ := h5.consume h1
    refine ⟨h0, taken, gc, h6, .inl ⟨h3, h4, fun hx => ?_⟩⟩
    rw [h5.failed_not_ok h1] at hx
    simp at hx
  | finish =>
    obtain ⟨h0, taken, h3, h4, h5⟩ := h
    obtain ⟨gc, h6⟩ := h5.finish
    exact ⟨h0, taken, gc, h6, .inl ⟨h3, h4, fun _ => ⟨rfl, rfl⟩⟩⟩
  | @join queue out' r =>
    obtain ⟨h0, taken, gc, h2, h3⟩ := h
    have ho : out'.isOk = true := (h0 rfl).2
    rcases h3 with ⟨h3, h4, h5⟩ | ⟨h3, -, -, rest, h4, h5⟩
    · simp only at h3 h4 h5
      subst h4
      cases hx : r.isOk with
      | true =>
        rw [(h5 hx).2] at h3
        simp only [List.append_nil] at h3
        exact .inr (.inl ⟨ho, gc, h3 ▸ h2⟩)
      | false =>
        cases queue with
        | nil =>
          simp only [List.append_nil] at h3
          exact .inr (.inl ⟨ho, gc, h3 ▸ h2⟩)
        | cons e queue =>
          refine .inr (.inr ⟨hx, taken.length, gc, ?_, ?_⟩)
          · rw [← h3]; simp
          · rw [← h3]; simpa using h2
    · refine .inr (.inr ⟨h3, taken.length, gc, ?_, ?_⟩)
      · rw [← h5]
        have := List.length_pos_iff.2 h4
        simp; omega
      · rw [← h5]; simpa using h2

theorem NetInv.steps {evs : List (Out Event)} {out : Out Unit} {a b : Net} (he : ∀ e ∈ evs, e.sendable = true)
    (h : NetInv k opt evs out a) (hs : NetSteps k opt cap a b) : NetInv k opt evs out b := by
  induction hs with
  | refl => exact h
  | step h1 _ ih => exact ih (h.step he h1)

/-! ## Progress and termination -/

/-- The sender is dropped only after the last event. -/
def Closed (a : Net) : Prop := a.verdict = none → a.sender = false → a.todo = []

theorem Closed.step {a b : Net} (h : Closed a) (hs : NetStep k opt cap a b) : Closed b := by
  cases hs <;> simp_all [Closed]

theorem Closed.steps {a b : Net} (h : Closed a) (hs : NetSteps k opt cap a b) : Closed b := by
  induction hs with
  | refl => exact h
  | step h1 _ ih => exact ih (h.step h1)

theorem ready_or (opt : Opt) (c : Consumer) : c.ready opt ∨ ∃ r, r ∈ c.failed := by
  cases h : c.failed with
  | nil => exact .inl (.inr h)
  | cons r rs => exact .inr ⟨r, by simp⟩

theorem progress {a : Net} (h : Closed a) (hv : a.verdict = none) : ∃ b, NetStep k opt cap a b := by
  obtain ⟨todo, out, s, queue, c, v⟩ := a
  simp only at hv
  subst hv
  have hc : s = false → todo = [] := h rfl
  cases s with
  | false =>
    obtain rfl := hc rfl
    cases c with
    | inr r => exact ⟨_, .join⟩
    | inl c =>
      cases queue with
      | cons e queue =>
        rcases ready_or opt c with hr | ⟨r, hr⟩
        · exact ⟨_, .receive hr⟩
        · exact ⟨_, .stop hr⟩
      | nil =>
        obtain ⟨st, gc, running, failed⟩ := c
        cases running with
        | cons ts running => exact ⟨_, NetStep.check (pre := [])⟩
        | nil =>
          cases failed with
          | nil => exact ⟨_, .finish⟩
          | cons r rs => exact ⟨_, .stop (r := r) (by simp)⟩
  | true =>
    cases todo with
    | nil =>
      cases ho : out.isOk with
      | true => exact ⟨_, .close ho⟩
      | false => exact ⟨_, .error ho⟩
    | cons e todo =>
      cases hs : e.sendable with
      | false => exact ⟨_, .crash hs⟩
      | true =>
        cases c with
        | inr r => exact ⟨_, .refused hs⟩
        | inl c =>
          by_cases hroom : hasRoom cap queue
          · exact ⟨_, .send hs hroom⟩
          · rcases ready_or opt c with hr | ⟨r, hr⟩
            · cases queue with
              | cons e' queue => exact ⟨_, .receive hr⟩
              | nil =>
                have h0 : cap = some 0 := by
                  unfold hasRoom at hroom
                  push Not at hroom
                  obtain ⟨n, h1, h2⟩ := hroom
                  rw [h1]; simpa using h2
                exact ⟨_, .handover hs h0 hr⟩
            · exact ⟨_, .stop hr⟩

/-- a bound for the number of steps to come -/
def Net.measure (a : Net) : Nat :=
  match a.verdict with
  | some _ => 0
  | none => 1 + (if a.sender then 1 else 0) + (match a.consumer with
    | .inl c => 1 + c.running.length
    | .inr _ => 0) + 2 * a.queue.length + 3 * a.todo.length

theorem take_running (k : Kern) (opt : Opt) (c : Consumer) (e : Out Event) : (c.take k opt e).running.length ≤ c.running.length + 1 := by
  unfold Consumer.take
  split
  · simp
  · unfold Consumer.process
    split
    · simp only
      split <;> simp
    · split <;> simp

theorem NetStep.measure {a b : Net} (hs : NetStep k opt cap a b) : b.measure < a.measure := by
  cases hs <;> simp [Net.measure]
  case handover c _ _ _ => have := take_running k opt c ‹_›; omega
  case receive e _ _ _ _ c _ => have := take_running k opt c e; omega
  all_goals omega

theorem ends_of_measure {f : Nat → Net} (h : ∀ i, NetStep k opt cap (f i) (f (i + 1))) : False := by
  have : ∀ i, (f i).measure + i ≤ (f 0).measure := by
    intro i
    induction i with
    | zero => simp
    | succ i ih => have := (h i).measure; omega
  have := this ((f 0).measure + 1)
  omega

theorem NetSteps.trans {a b c : Net} (h : NetSteps k opt cap a b) (h' : NetSteps k opt cap b c) : NetSteps k opt cap a c := by
  induction h with
  | refl => exact h'
  | step hs _ ih => exact .step hs (ih h')

theorem NetSteps.single {a b : Net} (h : NetStep k opt cap a b) : NetSteps k opt cap a b := .step h .refl

theorem has_verdict {a : Net} (h : Closed a) : ∃ b res, NetSteps k opt cap a b ∧ b.verdict = some res := by
  generalize hn : a.measure = n
  induction n using Nat.strongRecOn generalizing a with
  | ind n ih =>
    cases hv : a.verdict with
    | some res => exact ⟨a, res, .refl, hv⟩
    | none =>
      obtain ⟨b, hb⟩ := progress (k := k) (opt := opt) (cap := cap) h hv
      obtain ⟨c, res, h1, h2⟩ := ih _ (hn ▸ hb.measure) (h.step hb) rfl
      exact ⟨c, res, .step hb h1, h2⟩

theorem Closed.start (opt : Opt) (files : List (Out ParsedFile)) : Closed (Net.start opt files) := by
  intro _ h; simp [Net.start] at h

/-! ## Every verdict of the description comes from a schedule, if the capacity is not bounded -/

theorem send_some (pre todo queue : List (Out Event)) (out : Out Unit) (c : Consumer) (h : ∀ e ∈ pre, e.sendable = true) :
    NetSteps k opt none ⟨pre ++ todo, out, true, queue, .inl c, none⟩ ⟨todo, out, true, queue ++ pre, .inl c, none⟩ := by
  induction pre generalizing queue with
  | nil => simpa using NetSteps.refl
  | cons e pre ih =>
    refine .step (.send (h e (by simp)) (by simp [hasRoom])) ?_
    have := ih (queue ++ [e]) (fun e he => h e (by simp [he]))
    simpa using this

section
variable {todo : List (Out Event)} {out : Out Unit} {s : Bool}

/-- events without commands are received -/
theorem receive_silent {queue : List (Out Event)} {st : ShState} {gc : GCtx} {running : List (Out Checks)} {failed : List (Out Unit)}
    (hr : Consumer.ready opt ⟨st, gc, running, failed⟩) (hq : cmdsOf opt st queue = []) :
    NetSteps k opt cap ⟨todo, out, s, queue, .inl ⟨st, gc, running, failed⟩, none⟩
      ⟨todo, out, s, [], .inl ⟨stOf opt st queue, gc, running, failed⟩, none⟩ := by
  induction queue generalizing st with
  | nil => exact .refl
  | cons e queue ih =>
    rw [cmdsOf_cons] at hq
    obtain ⟨h1, h2⟩ := List.append_eq_nil_iff.1 hq
    rcases hx : Consumer.cmd opt st e with ⟨st', _ | cmd⟩
    · rw [hx] at h2
      refine .step (.receive hr) ?_
      have hk : Consumer.take k opt ⟨st, gc, running, failed⟩ e = ⟨st', gc, running, failed⟩ := by
        unfold Consumer.take
        simp only [hx]
      rw [hk, stOf_cons, hx]
      exact ih hr h2
    · rw [hx] at h1
      simp at h1

/-- the next command is received -/
theorem receive_cmd {queue : List (Out Event)} {st : ShState} {gc : GCtx} {running : List (Out Checks)} {failed : List (Out Unit)}
    {cmd : Out Cmd} {cmds : List (Out Cmd)} (hr : Consumer.ready opt ⟨st, gc, running, failed⟩)
    (hq : cmdsOf opt st queue = cmd :: cmds) :
    ∃ st' queue', cmdsOf opt st' queue' = cmds ∧
      NetSteps k opt cap ⟨todo, out, s, queue, .inl ⟨st, gc, running, failed⟩, none⟩
        ⟨todo, out, s, queue', .inl (Consumer.process k opt ⟨st', gc, running, failed⟩ cmd), none⟩ := by
  induction queue generalizing st with
  | nil => simp [cmdsOf, eventCmds] at hq
  | cons e queue ih =>
    rw [cmdsOf_cons] at hq
    rcases hx : Consumer.cmd opt st e with ⟨st', _ | cmd'⟩
    · rw [hx] at hq
      obtain ⟨st2, queue2, h1, h2⟩ := ih (st := st') hr (by simpa using hq)
      refine ⟨st2, queue2, h1, .step (.receive hr) ?_⟩
      have hk : Consumer.take k opt ⟨st, gc, running, failed⟩ e = ⟨st', gc, running, failed⟩ := by
        unfold Consumer.take
        simp only [hx]
      rw [hk]
      exact h2
    · rw [hx] at hq
      simp only [Option.toList_some, List.singleton_append, List.cons.injEq] at hq
      obtain ⟨rfl, hq⟩ := hq
      refine ⟨st', queue, hq, .single ?_⟩
      have hk : Consumer.take k opt ⟨st, gc, running, failed⟩ e = Consumer.process k opt ⟨st', gc, running, failed⟩ cmd' := by
        unfold Consumer.take
        simp only [hx]
      rw [← hk]
      exact .receive hr

theorem simulate_pool (hj : opt.jobs = true) {p q : Pool} (h : PoolSteps k opt p q) {queue : List (Out Event)} {st : ShState}
    (hq : cmdsOf opt st queue = p.todo) :
    ∃ st' queue', cmdsOf opt st' queue' = q.todo ∧
      NetSteps k opt cap ⟨todo, out, s, queue, .inl ⟨st, p.gc, p.running, p.failed⟩, none⟩
        ⟨todo, out, s, queue', .inl ⟨st', q.gc, q.running, q.failed⟩, none⟩ := by
  induction h generalizing st queue with
  | refl => exact ⟨st, queue, hq, .refl⟩
  | step hs _ ih =>
    cases hs with
    | pull =>
      obtain ⟨st1, queue1, h1, h2⟩ := receive_cmd (k := k) (cap := cap) (todo := todo) (out := out) (s := s) (.inl hj) hq
      obtain ⟨st2, queue2, h3, h4⟩ := ih (st := st1) (queue := queue1) h1
      refine ⟨st2, queue2, h3, h2.trans ?_⟩
      simpa [Consumer.process, hj] using h4
    | done =>
      obtain ⟨st2, queue2, h3, h4⟩ := ih (st := st) (queue := queue) hq
      exact ⟨st2, queue2, h3, .step .check h4⟩

theorem simulate_seq (hj : opt.jobs = false) {cmds : List (Out Cmd)} {gc gc' : GCtx} {r : Out Unit} {queue : List (Out Event)}
    {st : ShState} (hq : cmdsOf opt st queue = cmds) (h : seqLoop k opt gc cmds = (gc', r)) :
    ∃ st' queue', (r.isOk = true → cmdsOf opt st' queue' = []) ∧
      NetSteps k opt cap ⟨todo, out, s, queue, .inl ⟨st, gc, [], []⟩, none⟩
        ⟨todo, out, s, queue', .inl ⟨st', gc', [], if r.isOk then [] else [r]⟩, none⟩ := by
  induction cmds generalizing st queue gc with
  | nil =>
    simp only [seqLoop, Prod.mk.injEq] at h
    obtain ⟨rfl, rfl⟩ := h
    exact ⟨st, queue, fun _ => hq, .refl⟩
  | cons cmd cmds ih =>
    obtain ⟨st1, queue1, h1, h2⟩ := receive_cmd (k := k) (cap := cap) (todo := todo) (out := out) (s := s)
      (gc := gc) (running := []) (failed := []) (.inr rfl) hq
    have happ := seqLoop_append (k := k) (opt := opt) gc [cmd] cmds
    rw [List.singleton_append, h] at happ
    simp only [Consumer.process, hj, Bool.false_eq_true, if_false] at h2
    rcases h3 : seqLoop k opt gc [cmd] with ⟨gc1, r1⟩
    rw [h3] at happ h2
    cases r1 with
    | ok u =>
      simp only at happ h2
      obtain ⟨st2, queue2, h4, h5⟩ := ih (gc := gc1) h1 happ.symm
      exact ⟨st2, queue2, h4, h2.trans h5⟩
    | err e =>
      simp only [Prod.mk.injEq] at happ
      obtain ⟨rfl, rfl⟩ := happ
      exact ⟨st1, queue1, by simp [Out.isOk], by simpa [Out.isOk] using h2⟩
    | panic =>
      simp only [Prod.mk.injEq] at happ
      obtain ⟨rfl, rfl⟩ := happ
      exact ⟨st1, queue1, by simp [Out.isOk], by simpa [Out.isOk] using h2⟩
    | timeout =>
      simp only [Prod.mk.injEq] at happ
      obtain ⟨rfl, rfl⟩ := happ
      exact ⟨st1, queue1, by simp [Out.isOk], by simpa [Out.isOk] using h2⟩

/-- The consumer fails. -/
theorem simulate_failure {queue : List (Out Event)} {gc : GCtx} {r : Out Unit} (h : Consume k opt queue gc r) (hr : r.isOk = false) :
    ∃ queue', NetSteps k opt cap ⟨todo, out, s, queue, .inl (Consumer.new opt), none⟩ ⟨todo, out, s, queue', .inr r, none⟩ := by
  unfold Consume InferChecks at h
  by_cases hj : opt.jobs = true
  · simp only [hj, if_true] at h
    obtain ⟨p, h1, h2, h3⟩ := h
    rcases h3 with ⟨-, -, -, rfl⟩ | h3
    · simp [Out.isOk] at hr
    · obtain ⟨st', queue', -, h4⟩ := simulate_pool (cap := cap) (todo := todo) (out := out) (s := s) hj h1
        (queue := queue) (st := ShState.new) rfl
      exact ⟨queue', h4.trans (.single (.stop h3))⟩
  · simp only [hj, Bool.false_eq_true, if_false] at h
    obtain ⟨st', queue', -, h4⟩ := simulate_seq (cap := cap) (todo := todo) (out := out) (s := s) (by simpa using hj)
      (queue := queue) (st := ShState.new) rfl h
    exact ⟨queue', h4.trans (.single (.stop (r := r) (by simp [hr])))⟩

/-- The consumer is content. -/
theorem simulate_success {queue : List (Out Event)} {gc : GCtx} (h : Consume k opt queue gc (.ok ())) :
    NetSteps k opt cap ⟨[], out, false, queue, .inl (Consumer.new opt), none⟩ ⟨[], out, false, [], .inr (.ok ()), none⟩ := by
  unfold Consume InferChecks at h
  by_cases hj : opt.jobs = true
  · simp only [hj, if_true] at h
    obtain ⟨⟨todo', gc', running, failed⟩, h1, h2, h3⟩ := h
    simp only at h2 h3
    rcases h3 with ⟨rfl, rfl, rfl, -⟩ | h3
    · obtain ⟨st', queue', h5, h4⟩ := simulate_pool (cap := cap) (todo := []) (out := out) (s := false) hj h1
        (queue := queue) (st := ShState.new) rfl
      exact h4.trans ((receive_silent (.inl hj) h5).trans (.single .finish))
    · exfalso
      suffices hs : ∀ p q, PoolSteps k opt p q → (∀ r ∈ p.failed, r.isOk = false) → ∀ r ∈ q.failed, r.isOk = false by
        simpa [Out.isOk] using hs _ _ h1 (by simp) _ h3
      intro p q h
      induction h with
      | refl => exact id
      | step hs _ ih =>
        intro h
        refine ih ?_
        cases hs with
        | pull => exact h
        | done =>
          intro r hr
          simp only at hr
          split at hr
          · exact h r hr
          · rename_i hn
            rcases List.mem_append.1 hr with hr | hr
            · exact h r hr
            · rw [List.mem_singleton.1 hr]; simpa using hn
  · simp only [hj, Bool.false_eq_true, if_false] at h
    obtain ⟨st', queue', h5, h4⟩ := simulate_seq (cap := cap) (todo := []) (out := out) (s := false) (by simpa using hj)
      (queue := queue) (st := ShState.new) rfl h
    simp only [Out.isOk, if_true] at h4
    exact h4.trans ((receive_silent (.inr rfl) (h5 rfl)).trans (.single .finish))

end

theorem channel_complete {files : List (Out ParsedFile)} {res : Out Unit} (he : ∀ e ∈ (produce files).1, e.sendable = true)
    (h : Piped k opt files res) : Channel k opt none files res := by
  unfold Channel Net.start
  unfold Piped at h
  generalize (produce files).1 = evs at *
  generalize (produce files).2 = out at *
  rcases h with ⟨h1, rfl⟩ | ⟨h1, gc, h2⟩ | ⟨h1, n, gc, h2, h3⟩
  · have h3 := send_some (k := k) (opt := opt) evs [] [] res (Consumer.new opt) he
    rw [List.append_nil] at h3
    exact ⟨_, h3.trans (.single (.error h1)), rfl⟩
  · have h3 := send_some (k := k) (opt := opt) evs [] [] out (Consumer.new opt) he
    rw [List.append_nil, List.nil_append] at h3
    have h4 := h3.trans (.single (.close h1))
    cases hr : res.isOk with
    | true =>
      obtain ⟨u, rfl⟩ := Out.isOk_iff.1 hr
      exact ⟨_, h4.trans ((simulate_success h2).trans (.single .join)), rfl⟩
    | false =>
      obtain ⟨queue', h5⟩ := simulate_failure (cap := none) (todo := []) (out := out) (s := false) h2 hr
      exact ⟨_, h4.trans (h5.trans (.single .join)), rfl⟩
  · have h4 := send_some (k := k) (opt := opt) (evs.take n) (evs.drop n) [] out (Consumer.new opt)
      (fun e h => he e (List.mem_of_mem_take h))
    rw [List.take_append_drop, List.nil_append] at h4
    obtain ⟨queue', h5⟩ := simulate_failure (cap := none) (todo := evs.drop n) (out := out) (s := true) h3 h1
    have h6 := h4.trans h5
    cases hd : evs.drop n with
    | nil =>
      have := List.drop_eq_nil_iff.1 hd
      omega
    | cons e rest =>
      rw [hd] at h6
      have hse : e.sendable = true := he e (List.mem_of_mem_drop (i := n) (by rw [hd]; simp))
      exact ⟨_, h6.trans (.step (.refused hse) (.step (.close rfl) (.single .join))), rfl⟩

/-! ## Bounded capacity without threads -/

/-- A consumer without threads that fails fails in the same way whatever comes later. -/
theorem consume_later (hj : opt.jobs = false) {evs more : List (Out Event)} {gc : GCtx} {r : Out Unit}
    (h : Consume k opt evs gc r) (hr : r.isOk = false) : Consume k opt (evs ++ more) gc r := by
  unfold Consume InferChecks inferChecksSeq at *
  simp only [hj, Bool.false_eq_true, if_false] at *
  rw [List.filter_append, eventCmds_append, List.filter_append, seqLoop_append, h]
  cases r with
  | ok u => simp [Out.isOk] at hr
  | _ => rfl

theorem consume_unique (hj : opt.jobs = false) {evs : List (Out Event)} {gc gc' : GCtx} {r r' : Out Unit}
    (h : Consume k opt evs gc r) (h' : Consume k opt evs gc' r') : r = r' := by
  unfold Consume InferChecks inferChecksSeq at *
  simp only [hj, Bool.false_eq_true, if_false] at *
  rw [h] at h'
  exact (Prod.ext_iff.1 h').2

/-- The invariant of executions in which the consumer fails after at most `m` of the events. -/
def LagInv (k : Kern) (opt : Opt) (n m : Nat) (evs : List (Out Event)) (r : Out Unit) (a : Net) : Prop :=
  match a.verdict with
  | some res => res = r
  | none => a.queue.length ≤ n ∧
    match a.consumer with
    | .inl c => ∃ taken, taken ++ a.queue ++ a.todo = evs ∧ Received k opt taken c ∧ taken.length ≤ m
    | .inr r' => r' = r ∧ (a.todo = [] → a.out.isOk = true) ∧ ∀ e ∈ a.todo, e.sendable = true

theorem LagInv.step {n m : Nat} {evs : List (Out Event)} {r : Out Unit} {gc : GCtx} {a b : Net} (hj : opt.jobs = false)
    (he : ∀ e ∈ evs, e.sendable = true) (hm : m + n < evs.length) (hc : Consume k opt (evs.take m) gc r) (hr : r.isOk = false)
    (h : LagInv k opt n m evs r a) (hs : NetStep k opt (some n) a b) : LagInv k opt n m evs r b := by
  have hmore : ∀ taken rest c e, taken ++ e :: rest = evs → Received k opt taken c → taken.length ≤ m → c.ready opt →
      (taken ++ [e]).length ≤ m := by
    intro taken rest c e h1 h2 h3 h4
    by_contra hn
    have hl : taken.length = m := by simp at hn; omega
    have ht : taken = evs.take m := by rw [← h1, ← hl]; simp
    have hp := h2.processed
    unfold Processed at hp
    simp only [hj, Bool.false_eq_true, if_false] at hp
    obtain ⟨-, r', h5, h6⟩ := hp
    have h7 : Consume k opt taken c.gc r' := by
      unfold Consume InferChecks inferChecksSeq
      simp only [hj, Bool.false_eq_true, if_false]
      exact h5
    rw [ht] at h7
    obtain rfl := consume_unique hj hc h7
    rw [h4.resolve_left (by simp [hj]), hr] at h6
    simp at h6
  cases hs with
  | send h1 h2 =>
    obtain ⟨h0, taken, h3, h4, h5⟩ := h
    exact ⟨by have := h2 n rfl; simp; omega, taken, by simpa using h3, h4, h5⟩
  | handover h1 h2 h3 =>
    obtain ⟨h0, taken, h4, h5, h6⟩ := h
    simp only [List.append_nil] at h4
    exact ⟨h0, _, by simpa using h4, h5.take h3, hmore _ _ _ _ h4 h5 h6 h3⟩
  | refused h1 =>
    obtain ⟨h0, h2, -⟩ := h
    exact ⟨h0, h2, fun _ => rfl, by simp⟩
  | @crash e todo queue out' c h1 =>
    exfalso
    have hm : e.sendable = true := by
      cases c with
      | inl c =>
        obtain ⟨-, taken, h3, -⟩ := h
        exact he e (by rw [← h3]; simp)
      | inr r =>
        obtain ⟨-, -, -, h3⟩ := h
        exact h3 e (by simp)
    rw [hm] at h1
    simp at h1
  | @error queue out' c h1 =>
    exfalso
    cases c with
    | inl c =>
      obtain ⟨h0, taken, h3, -, h4⟩ := h
      have := congrArg List.length h3
      simp at this h0
      omega
    | inr r =>
      obtain ⟨-, -, h3, -⟩ := h
      rw [h3 rfl] at h1
      simp at h1
  | @close queue out' c h1 => exact h
  | receive h1 =>
    obtain ⟨h0, taken, h3, h4, h5⟩ := h
    simp only [List.append_assoc, List.cons_append] at h3
    exact ⟨by simp at h0 ⊢; omega, _, by simpa using h3, h4.take h1, hmore _ _ _ _ h3 h4 h5 h1⟩
  | check =>
    obtain ⟨h0, taken, h3, h4, h5⟩ := h
    exact ⟨h0, _, h3, h4.check, h5⟩
  | @stop todo queue out' r' s c h1 =>
    obtain ⟨h0, taken, h3, h4, h5⟩ := h
    obtain ⟨gc', h6⟩ := h4.consume h1
    simp only at h0 h3
    refine ⟨h0, ?_, ?_, ?_⟩
    · have h7 := consume_later hj (more := (evs.take m).drop taken.length) h6 (h4.failed_not_ok h1)
      have h8 : taken ++ (evs.take m).drop taken.length = evs.take m := by
        conv_rhs => rw [← List.take_append_drop taken.length (evs.take m)]
        congr 1
        rw [List.take_take, Nat.min_eq_left h5, ← h3]
        simp
      rw [h8] at h7
      exact consume_unique hj h7 hc
    · rintro rfl
      have := congrArg List.length h3
      simp at this
      omega
    · intro e hx
      exact he e (by rw [← h3]; simp; exact .inr (.inr hx))
  | finish =>
    exfalso
    obtain ⟨h0, taken, h3, -, h4⟩ := h
    have := congrArg List.length h3
    simp at this
    omega
  | join => exact h.2.1

theorem LagInv.steps {n m : Nat} {evs : List (Out Event)} {r : Out Unit} {gc : GCtx} {a b : Net} (hj : opt.jobs = false)
    (he : ∀ e ∈ evs, e.sendable = true) (hm : m + n < evs.length) (hc : Consume k opt (evs.take m) gc r) (hr : r.isOk = false)
    (h : LagInv k opt n m evs r a) (hs : NetSteps k opt (some n) a b) : LagInv k opt n m evs r b := by
  induction hs with
  | refl => exact h
  | step h1 _ ih => exact ih (h.step hj he hm hc hr h1)

end Kontroli
