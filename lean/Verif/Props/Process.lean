import Verif.Proofs.Process
import Verif.Props.Symbols

/-!
# C29, C31: the pipeline, and omission of stages for whole runs
-/

namespace Kontroli

/-! ## C29 -/

/-- C29. A direct run accepts iff the pipeline accepts. -/
theorem C29_accepts_iff (k : Kern) (opt : Opt) (files : List (Out ParsedFile)) :
    (∃ gc, Run k opt files gc (.ok ())) ↔ Piped k opt files (.ok ()) := by
  constructor
  · rintro ⟨gc, h⟩
    obtain ⟨fs, rfl⟩ := runFiles_ok_files h
    refine .inr (.inl ⟨produce_ok_iff.2 ⟨fs, rfl⟩, gc, ?_⟩)
    unfold Consume
    rw [inferChecks_ok_iff, eventCmds_produce]
    exact runFiles_ok_iff.1 h
  · rintro (⟨h, h'⟩ | ⟨h, gc, h'⟩ | ⟨h, -⟩)
    · rw [← h'] at h; simp [Out.isOk] at h
    · obtain ⟨fs, rfl⟩ := produce_ok_iff.1 h
      refine ⟨gc, runFiles_ok_iff.2 ?_⟩
      unfold Consume at h'
      rwa [inferChecks_ok_iff, eventCmds_produce] at h'
    · simp [Out.isOk] at h

/-- C29. The accepted pipeline reaches the same context as the direct run. -/
theorem C29_same_context (k : Kern) (opt : Opt) (files : List (Out ParsedFile)) (gc : GCtx)
    (h : (produce files).2.isOk = true) : Run k opt files gc (.ok ()) ↔ Consume k opt (produce files).1 gc (.ok ()) := by
  obtain ⟨fs, rfl⟩ := produce_ok_iff.1 h
  unfold Consume Run
  rw [inferChecks_ok_iff, eventCmds_produce]
  exact runFiles_ok_iff

/-- C29. If a direct run accepts, no execution of the pipeline refuses. -/
theorem C29_pipe_never_refuses (k : Kern) (opt : Opt) (files : List (Out ParsedFile)) (gc : GCtx) (res : Out Unit)
    (h : Run k opt files gc (.ok ())) (hp : Piped k opt files res) : res = .ok () := by
  obtain ⟨fs, rfl⟩ := runFiles_ok_files h
  have h1 := runFiles_ok_iff.1 h
  have hok : (produce (fs.map Out.ok)).2.isOk = true := produce_ok_iff.2 ⟨fs, rfl⟩
  rcases hp with ⟨h2, -⟩ | ⟨-, gc', h2⟩ | ⟨-, n, gc', -, h2⟩
  · rw [hok] at h2; simp at h2
  · unfold Consume at h2
    rw [eventCmds_produce] at h2
    exact (inferChecks_never_refuses h1 h2).1
  · unfold Consume at h2
    rw [← eventCmds_produce, ← List.take_append_drop n (produce (fs.map Out.ok)).1, List.filter_append, eventCmds_append,
      inferChecksSeq_append_ok] at h1
    obtain ⟨gc1, h1, -⟩ := h1
    exact (inferChecks_never_refuses h1 h2).1

/-- C29. If some execution of the pipeline accepts, no direct run refuses. -/
theorem C29_run_never_refuses (k : Kern) (opt : Opt) (files : List (Out ParsedFile)) (gc : GCtx) (res : Out Unit)
    (hp : Piped k opt files (.ok ())) (h : Run k opt files gc res) : res = .ok () := by
  obtain ⟨gc', h'⟩ := (C29_accepts_iff k opt files).2 hp
  obtain ⟨fs, rfl⟩ := runFiles_ok_files h'
  have h1 := runFiles_ok_iff.1 h'
  clear h' hp
  unfold Run at h
  generalize ShState.new = st at h h1
  generalize GCtx.start opt.eta = gc0 at h h1
  induction fs generalizing st gc0 with
  | nil => cases h; rfl
  | cons f fs ih =>
    rw [allCmds, inferChecksSeq_append_ok] at h1
    obtain ⟨gc1, h1, h2⟩ := h1
    cases h with
    | next h3 h4 =>
      obtain ⟨-, rfl⟩ := inferChecks_never_refuses h1 h3
      exact ih _ _ h4 h2
    | fail h3 h4 =>
      obtain ⟨rfl, -⟩ := inferChecks_never_refuses h1 h3
      rfl

/-- C29. Without threads, if all files can be opened, the consumer of all events has exactly the verdict (with the same error) and
the context of the direct run. -/
theorem C29_same_verdict (k : Kern) (opt : Opt) (hj : opt.jobs = false) (files : List (Out ParsedFile))
    (h : (produce files).2.isOk = true) (gc : GCtx) (res : Out Unit) :
    Run k opt files gc res ↔ Consume k opt (produce files).1 gc res := by
  obtain ⟨fs, rfl⟩ := produce_ok_iff.1 h
  clear h
  unfold Consume Run InferChecks
  rw [eventCmds_produce]
  simp only [hj, Bool.false_eq_true, if_false]
  generalize ShState.new = st
  generalize GCtx.start opt.eta = gc0
  induction fs generalizing st gc0 with
  | nil =>
    constructor
    · intro h; cases h; rfl
    · intro h; cases h; exact .nil
  | cons f fs ih =>
    rw [allCmds, inferChecksSeq_append]
    constructor
    · intro h
      cases h with
      | next h1 h2 =>
        simp only [InferChecks, hj, Bool.false_eq_true, if_false] at h1
        rw [h1]
        exact (ih _ _).1 h2
      | fail h1 h2 =>
        simp only [InferChecks, hj, Bool.false_eq_true, if_false] at h1
        rw [h1]
        cases res with
        | ok u => simp [Out.isOk] at h2
        | _ => rfl
    · intro h
      rcases h1 : inferChecksSeq k opt gc0 (fileCmds opt st f).2 with ⟨gc1, r⟩
      rw [h1] at h
      have h1' : InferChecks k opt gc0 (fileCmds opt st f).2 gc1 r := by
        simp only [InferChecks, hj, Bool.false_eq_true, if_false]; exact h1
      cases r with
      | ok u => exact .next h1' ((ih _ _).2 h)
      | err e => cases h; exact .fail h1' rfl
      | panic => cases h; exact .fail h1' rfl
      | timeout => cases h; exact .fail h1' rfl

/-- two files; the second uses `a.nat`: `nat : Type.` and `z : a.nat.` -/
def Example.files : List (Out ParsedFile) :=
  [.ok ⟨[str "a"], [.ok (.intro (str "nat") [] (.declaration false (.new (.atom .type))))]⟩,
   .ok ⟨[str "b"], [.ok (.intro (str "z") [] (.declaration false (.new (.atom (.const ⟨[str "a"], str "nat"⟩)))))]⟩]

/-- the two files are accepted in both ways, with threads -/
example : Piped (Kern.std 30 fun _ => true) ⟨false, none, true⟩ Example.files (.ok ()) ∧
    ∃ gc, Run (Kern.std 30 fun _ => true) ⟨false, none, true⟩ Example.files gc (.ok ()) := by
  rw [C29_accepts_iff, and_self]
  refine .inr (.inl ⟨rfl, ?_⟩)
  unfold Consume
  simp only [inferChecks_ok_iff]
  have h : (inferChecksSeq (Kern.std 30 fun _ => true) ⟨false, none, true⟩ (GCtx.start false)
    (eventCmds ShState.new ((produce Example.files).1.filter (keepShare ⟨false, none, true⟩)))).2.isOk = true := by decide +kernel
  obtain ⟨u, hu⟩ := Out.isOk_iff.1 h
  exact ⟨_, Prod.ext rfl hu⟩

/-! ## C31 -/

/-- every direct run has a verdict -/
theorem run_has_verdict (k : Kern) (opt : Opt) (files : List (Out ParsedFile)) : ∃ gc res, Run k opt files gc res := by
  unfold Run
  generalize ShState.new = st
  generalize GCtx.start opt.eta = gc
  induction files generalizing st gc with
  | nil => exact ⟨_, _, .nil⟩
  | cons f fs ih =>
    cases f with
    | ok f =>
      obtain ⟨gc1, res, h⟩ := inferChecks_has_verdict k opt gc (fileCmds opt st f).2
      by_cases hr : res.isOk = true
      · obtain ⟨u, rfl⟩ := Out.isOk_iff.1 hr
        obtain ⟨gc2, res, h'⟩ := ih (fileCmds opt st f).1 gc1
        exact ⟨gc2, res, .next h h'⟩
      · exact ⟨gc1, res, .fail h (by simpa using hr)⟩
    | err e => exact ⟨_, _, .openErr⟩
    | panic => exact ⟨_, _, .openPanic⟩
    | timeout => exact ⟨_, _, .openTimeout⟩

/-- C31. If a direct run with all stages accepts, then no run that omits some stage refuses. -/
theorem C31_run (k : Kern) (opt opt' : Opt) (ho : opt.omitted = none) (ho' : opt'.omitted ≠ none) (he : opt'.eta = opt.eta)
    (files : List (Out ParsedFile)) (gc gc' : GCtx) (res : Out Unit)
    (h : Run k opt files gc (.ok ())) (h' : Run k opt' files gc' res) : res = .ok () := by
  obtain ⟨fs, rfl⟩ := runFiles_ok_files h
  have h1 := runFiles_ok_iff.1 h
  clear h
  suffices hs : ∃ gc', inferChecksSeq k opt' (GCtx.start opt'.eta) (allCmds opt' ShState.new fs) = (gc', .ok ()) by
    obtain ⟨gc2, hs⟩ := hs
    have hp := (C29_accepts_iff k opt' (fs.map .ok)).1 ⟨gc2, runFiles_ok_iff.2 hs⟩
    exact C29_run_never_refuses k opt' _ gc' res hp h'
  rw [he]
  have hsame : opt'.omitted ≠ some .share → allCmds opt' ShState.new fs = allCmds opt ShState.new fs := by
    intro hs
    have : keepShare (α := Scoped) opt' = keepShare opt := by
      funext c
      simp only [keepShare, Opt.omits, ho]
      cases hx : opt'.omitted with
      | none => rfl
      | some st => rw [hx] at hs; cases st <;> simp at hs ⊢ <;> rfl
    have hf : ∀ st f, fileCmds opt' st f = fileCmds opt st f := by intro st f; rw [fileCmds, fileCmds, this]
    have : ∀ st, allCmds opt' st fs = allCmds opt st fs := by
      clear h1 h'
      induction fs with
      | nil => intro _; rfl
      | cons f fs ih => intro st; rw [allCmds, allCmds, hf, ih]
    exact this _
  cases hx : opt'.omitted with
  | none => exact absurd hx ho'
  | some st =>
    cases st with
    | check => rw [hsame (by simp [hx])]; exact ⟨gc, C31_omit_check k opt opt' ho hx _ _ _ h1⟩
    | infer => rw [hsame (by simp [hx])]; exact ⟨_, C31_omit_infer k opt opt' ho hx _ _ _ h1⟩
    | share =>
      -- all commands are shared without error, so they are parsed without error
      have := allCmds_omit (opt := opt') (by simp [Opt.omits, hx]) ShState.new fs
        (allCmds_ok ShState.new fs (inferChecksSeq_ok_mem h1))
      rw [this]
      exact ⟨_, rfl⟩

/-- C31. The same with a pipeline. -/
theorem C31_piped (k : Kern) (opt opt' : Opt) (ho : opt.omitted = none) (ho' : opt'.omitted ≠ none) (he : opt'.eta = opt.eta)
    (files : List (Out ParsedFile)) (res : Out Unit)
    (h : Piped k opt files (.ok ())) (h' : Piped k opt' files res) : res = .ok () := by
  obtain ⟨gc, h⟩ := (C29_accepts_iff k opt files).2 h
  obtain ⟨gc', res', hr⟩ := run_has_verdict k opt' files
  have := C31_run k opt opt' ho ho' he files gc gc' res' h hr
  subst this
  exact C29_pipe_never_refuses k opt' files gc' res hr h'

/-- sharing matters: an unknown constant is noticed iff sharing is not omitted -/
example : (¬ ∃ gc, Run (Kern.std 30 fun _ => true) ⟨false, none, false⟩
      [.ok ⟨[str "a"], [.ok (.intro (str "z") [] (.declaration false (.new (.atom (.const ⟨[], str "nat"⟩)))))]⟩] gc (.ok ())) ∧
    ∃ gc, Run (Kern.std 30 fun _ => true) ⟨false, some .share, false⟩
      [.ok ⟨[str "a"], [.ok (.intro (str "z") [] (.declaration false (.new (.atom (.const ⟨[], str "nat"⟩)))))]⟩] gc (.ok ()) := by
  refine ⟨?_, _, runFiles_ok_iff (files := [_]) |>.2 rfl⟩
  rintro ⟨gc, h⟩
  have := runFiles_ok_iff (files := [_]) |>.1 h
  cases this

#print axioms C29_accepts_iff
#print axioms C29_same_context
#print axioms C29_pipe_never_refuses
#print axioms C29_run_never_refuses
#print axioms C29_same_verdict
#print axioms C31_run
#print axioms C31_piped

end Kontroli
