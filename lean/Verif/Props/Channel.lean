import Verif.Proofs.Channel
import Verif.Model.Main
import Verif.Props.Parse
import Verif.Props.Terminate

/-!
# C53: the channel between parser and checker

`Model/Channel.lean` is a transition system for the two threads and the channel.  No execution gets stuck or goes on for ever, whatever
the capacity; the verdicts are those that `Piped` describes, and acceptance does not depend on the channel.
-/

namespace Kontroli

/-- the events of files can be sent: the parser does not panic -/
theorem sendable_openFiles (fs : FileSystem) (stdin : Str) (paths : List Str) :
    ∀ e ∈ (produce (openFiles fs stdin paths)).1, e.sendable = true := by
  have ht : ∀ text, ∀ c ∈ parseText text, (eventOf c).sendable = true := by
    intro text c hc
    obtain ⟨i, hi, rfl⟩ := List.mem_map.1 hc
    cases i with
    | ok c => rfl
    | err e => rfl
    | panic => exact absurd hi (C21_lazy_no_panic _ _ _)
  induction paths generalizing stdin with
  | nil => simp [openFiles, produce]
  | cons p ps ih =>
    have hf : ∀ path text fs', (∀ e ∈ (produce fs').1, e.sendable = true) →
        ∀ e ∈ (produce (.ok ⟨path, parseText text⟩ :: fs')).1, e.sendable = true := by
      intro path text fs' hfs e he
      simp only [produce, List.cons_append, List.mem_cons, List.mem_append, List.mem_map] at he
      rcases he with rfl | ⟨c, hc, rfl⟩ | he
      · rfl
      · exact ht _ _ hc
      · exact hfs _ he
    unfold openFiles
    split
    · simp [produce]
    · split
      · exact hf _ _ _ (ih _)
      · split
        · simp [produce]
        · exact hf _ _ _ (ih _)

/-- C53. For every capacity, every verdict is one of the described verdicts. -/
theorem C53_refines (k : Kern) (opt : Opt) (capacity : Option Nat) (files : List (Out ParsedFile))
    (he : ∀ e ∈ (produce files).1, e.sendable = true) (res : Out Unit) (h : Channel k opt capacity files res) : Piped k opt files res := by
  obtain ⟨a, h1, h2⟩ := h
  have h3 := (NetInv.start k opt files).steps he h1
  unfold NetInv at h3
  rw [h2] at h3
  exact h3

/-- C53. Without bound for the channel, the verdicts are exactly the described ones. -/
theorem C53_exact (k : Kern) (opt : Opt) (files : List (Out ParsedFile)) (he : ∀ e ∈ (produce files).1, e.sendable = true)
    (res : Out Unit) : Channel k opt none files res ↔ Piped k opt files res :=
  ⟨C53_refines k opt none files he res, channel_complete he⟩

/-- C53. No execution gets stuck: as long as there is no verdict, some thread can make a step, whatever the capacity. -/
theorem C53_progress (k : Kern) (opt : Opt) (capacity : Option Nat) (files : List (Out ParsedFile)) (a : Net)
    (h : NetSteps k opt capacity (Net.start opt files) a) : (∃ res, a.verdict = some res) ∨ ∃ b, NetStep k opt capacity a b := by
  cases hv : a.verdict with
  | some res => exact .inl ⟨res, rfl⟩
  | none => exact .inr (progress ((Closed.start opt files).steps h) hv)

/-- C53. No execution goes on for ever, whatever the capacity. -/
theorem C53_ends (k : Kern) (opt : Opt) (capacity : Option Nat) (f : Nat → Net) : ¬ ∀ i, NetStep k opt capacity (f i) (f (i + 1)) :=
  fun h => ends_of_measure h

/-- C53. A verdict is final: nothing happens after it. -/
theorem C53_final (k : Kern) (opt : Opt) (capacity : Option Nat) (a b : Net) (res : Out Unit) (h : a.verdict = some res) :
    ¬ NetStep k opt capacity a b := by
  intro hs
  cases hs <;> simp at h

/-- C53. Acceptance does not depend on the channel: for every capacity, some execution accepts iff a direct run accepts, and then every
execution accepts. -/
theorem C53_accepts (k : Kern) (opt : Opt) (capacity : Option Nat) (files : List (Out ParsedFile))
    (he : ∀ e ∈ (produce files).1, e.sendable = true) :
    (Channel k opt capacity files (.ok ()) ↔ ∃ gc, Run k opt files gc (.ok ())) ∧
    ((∃ gc, Run k opt files gc (.ok ())) → ∀ res, Channel k opt capacity files res → res = .ok ()) := by
  have h2 : (∃ gc, Run k opt files gc (.ok ())) → ∀ res, Channel k opt capacity files res → res = .ok () := by
    rintro ⟨gc, h⟩ res hc
    exact C29_pipe_never_refuses k opt files gc res h (C53_refines k opt capacity files he res hc)
  refine ⟨⟨fun h => (C29_accepts_iff k opt files).2 (C53_refines k opt capacity files he _ h), fun h => ?_⟩, h2⟩
  obtain ⟨b, res, h3, h4⟩ := has_verdict (k := k) (opt := opt) (cap := capacity) (Closed.start opt files)
  have h5 : Channel k opt capacity files res := ⟨b, h3, h4⟩
  rwa [h2 h res h5] at h5

/-- C53. Not more events than the capacity are parsed and sent in advance. -/
theorem C53_advance (k : Kern) (opt : Opt) (n : Nat) (files : List (Out ParsedFile)) (a : Net)
    (h : NetSteps k opt (some n) (Net.start opt files) a) : a.queue.length ≤ n := by
  suffices hs : ∀ a b, NetSteps k opt (some n) a b → a.queue.length ≤ n → b.queue.length ≤ n from hs _ _ h (by simp [Net.start])
  intro a b h
  induction h with
  | refl => exact id
  | step hs _ ih =>
    intro h
    refine ih ?_
    cases hs with
    | send h1 h2 => have := h2 n rfl; simp; omega
    | receive h1 => simp at h ⊢; omega
    | _ => simpa using h

/-- C53. Without threads, with capacity `n`: if the consumer fails after the first `m` events, and there are more than `m + n` events,
then the verdict is that failure, also if the producer would have failed later. -/
theorem C53_bounded (k : Kern) (opt : Opt) (hj : opt.jobs = false) (n m : Nat) (files : List (Out ParsedFile))
    (he : ∀ e ∈ (produce files).1, e.sendable = true) (gc : GCtx) (r : Out Unit) (hm : m + n < (produce files).1.length)
    (hc : Consume k opt ((produce files).1.take m) gc r) (hr : r.isOk = false) (res : Out Unit) :
    Channel k opt (some n) files res ↔ res = r := by
  have h1 : ∀ res, Channel k opt (some n) files res → res = r := by
    rintro res ⟨a, h1, h2⟩
    have h0 : LagInv k opt n m (produce files).1 r (Net.start opt files) :=
      ⟨by simp [Net.start], [], by simp [Net.start], .new k opt, by simp⟩
    have h3 := h0.steps hj he hm hc hr h1
    unfold LagInv at h3
    rw [h2] at h3
    exact h3
  refine ⟨h1 res, ?_⟩
  rintro rfl
  obtain ⟨b, res', h3, h4⟩ := has_verdict (k := k) (opt := opt) (cap := some n) (Closed.start opt files)
  have h5 : Channel k opt (some n) files res' := ⟨b, h3, h4⟩
  rwa [h1 res' h5] at h5

/-- C53. The program as a whole: with any channel and any threads, it exits with status 0 iff the paths denote texts of a correct and
directed program (conditions as in C49). -/
theorem C53_main (k : Kern) (hk : k.Exact) (opt : Opt) (ho : opt.omitted = none) (channel : Option (Option Nat))
    (fs : FileSystem) (stdin : Str) (paths : List Str) (hR : ∀ srcs es, Sources fs stdin paths srcs → ProgramOf srcs es → RegularIn opt.eta es)
    (gc' : GCtx) (res' : Out Unit) (h' : RunPaths k { opt with jobs := false } fs stdin paths gc' res') (hd : res' ≠ .timeout)
    (res : Out Unit) (h : Main k opt channel fs stdin paths res) :
    exitStatus res = some 0 ↔ ∃ srcs es T, Sources fs stdin paths srcs ∧ ProgramOf srcs es ∧ CorrectIn opt.eta es T ∧ Directed es := by
  have h1 : exitStatus res = some 0 ↔ res = .ok () := by
    cases res <;> simp [exitStatus]
  rw [h1]
  refine C66_any k hk opt ho fs stdin paths hR gc' res' h' hd res ?_
  cases channel with
  | none => exact .inl h
  | some capacity => exact .inr (C53_refines k opt capacity _ (sendable_openFiles fs stdin paths) res h)

/-- C53. The program always has a verdict. -/
theorem C53_verdict (k : Kern) (opt : Opt) (channel : Option (Option Nat)) (fs : FileSystem) (stdin : Str) (paths : List Str) :
    ∃ res, Main k opt channel fs stdin paths res := by
  cases channel with
  | none =>
    obtain ⟨gc, res, h⟩ := run_has_verdict k opt (openFiles fs stdin paths)
    exact ⟨res, gc, h⟩
  | some capacity =>
    obtain ⟨b, res, h3, h4⟩ := has_verdict (k := k) (opt := opt) (cap := capacity) (Closed.start opt (openFiles fs stdin paths))
    exact ⟨res, b, h3, h4⟩

/-! ## Examples -/

/-- the two files of C29 are accepted through a channel of capacity 0 (and no execution refuses them) -/
example : Channel (Kern.std 30 fun _ => true) ⟨false, none, true⟩ (some 0) Example.files (.ok ()) ∧
    ∀ res, Channel (Kern.std 30 fun _ => true) ⟨false, none, true⟩ (some 0) Example.files res → res = .ok () := by
  have h := C53_accepts (Kern.std 30 fun _ => true) ⟨false, none, true⟩ (some 0) Example.files (by
    intro e he; simp [Example.files, produce, eventOf] at he; rcases he with rfl | rfl | rfl | rfl <;> rfl)
  have h1 : ∃ gc, Run (Kern.std 30 fun _ => true) ⟨false, none, true⟩ Example.files gc (.ok ()) := by
    rw [C29_accepts_iff]
    refine .inr (.inl ⟨rfl, ?_⟩)
    unfold Consume
    simp only [inferChecks_ok_iff]
    have h : (inferChecksSeq (Kern.std 30 fun _ => true) ⟨false, none, true⟩ (GCtx.start false)
      (eventCmds ShState.new ((produce Example.files).1.filter (keepShare ⟨false, none, true⟩)))).2.isOk = true := by decide +kernel
    obtain ⟨u, hu⟩ := Out.isOk_iff.1 h
    exact ⟨_, Prod.ext rfl hu⟩
  exact ⟨h.1.2 h1, h.2 h1⟩

/-- a file with a wrong command (a parse error) and more commands, and a file that cannot be opened -/
def Example.badFiles : List (Out ParsedFile) :=
  [.ok ⟨[str "a"], [.err .parse, .ok (.intro (str "nat") [] (.declaration false (.new (.atom .type)))),
    .ok (.intro (str "nat") [] (.declaration false (.new (.atom .type))))]⟩, .err .io]

theorem Example.badFiles_sendable : ∀ e ∈ (produce Example.badFiles).1, e.sendable = true := by
  intro e he; simp [Example.badFiles, produce, eventOf] at he; rcases he with rfl | rfl | rfl | rfl <;> rfl

/-- C53. The capacity may decide which of several errors is reported: with capacity 1 it is always the parse error of the first file,
without bound it may also be that the second file cannot be opened. -/
theorem C53_which_error (k : Kern) :
    (∀ res, Channel k ⟨false, none, false⟩ (some 1) Example.badFiles res ↔ res = .err .parse) ∧
    Channel k ⟨false, none, false⟩ none Example.badFiles (.err .io) ∧
    Channel k ⟨false, none, false⟩ none Example.badFiles (.err .parse) := by
  have hc : Consume k ⟨false, none, false⟩ ((produce Example.badFiles).1.take 2) (GCtx.start false) (.err .parse) := rfl
  refine ⟨fun res => ?_, ?_, ?_⟩
  · exact C53_bounded k _ rfl 1 2 Example.badFiles Example.badFiles_sendable _ _ (by decide) hc rfl res
  · exact channel_complete Example.badFiles_sendable (.inl ⟨rfl, rfl⟩)
  · exact channel_complete Example.badFiles_sendable (.inr (.inr ⟨rfl, 2, _, by decide, hc⟩))

#print axioms C53_refines
#print axioms C53_exact
#print axioms C53_progress
#print axioms C53_ends
#print axioms C53_final
#print axioms C53_accepts
#print axioms C53_advance
#print axioms C53_bounded
#print axioms C53_main
#print axioms C53_verdict
#print axioms C53_which_error

end Kontroli
