import Verif.Props.Parallel
import Verif.Model.Process

/-!
# Lemmas on the processing of files
-/

namespace Kontroli

variable {k : Kern} {opt : Opt}

theorem inferChecks_ok_iff {gc gc' : GCtx} {cmds : List (Out Cmd)} :
    InferChecks k opt gc cmds gc' (.ok ()) ↔ inferChecksSeq k opt gc cmds = (gc', .ok ()) := by
  unfold InferChecks
  split
  · exact C30_accepts_iff ..
  · rfl

theorem inferChecks_never_refuses {gc gc' gc'' : GCtx} {cmds : List (Out Cmd)} {res : Out Unit}
    (h : inferChecksSeq k opt gc cmds = (gc', .ok ())) (h' : InferChecks k opt gc cmds gc'' res) : res = .ok () ∧ gc'' = gc' := by
  unfold InferChecks at h'
  split at h'
  · exact C30_never_refuses k opt gc gc' gc'' cmds res h h'
  · rw [h] at h'
    cases h'
    exact ⟨rfl, rfl⟩

theorem inferChecks_has_verdict (k : Kern) (opt : Opt) (gc : GCtx) (cmds : List (Out Cmd)) :
    ∃ gc' res, InferChecks k opt gc cmds gc' res := by
  unfold InferChecks
  split
  · exact C30_has_verdict ..
  · exact ⟨_, _, rfl⟩

/-- the loop over a concatenation -/
theorem seqLoop_append (gc : GCtx) (as bs : List (Out Cmd)) :
    seqLoop k opt gc (as ++ bs) =
      match seqLoop k opt gc as with
      | (gc1, .ok ()) => seqLoop k opt gc1 bs
      | r => r := by
  induction as generalizing gc with
  | nil => rfl
  | cons a as ih =>
    cases a with
    | ok cmd =>
      simp only [List.cons_append, seqLoop]
      rcases h : inferCheck k opt gc cmd with ⟨gc1, r⟩
      cases r with
      | ok u => exact ih gc1
      | _ => rfl
    | _ => rfl

theorem inferChecksSeq_append (gc : GCtx) (as bs : List (Out Cmd)) :
    inferChecksSeq k opt gc (as ++ bs) =
      match inferChecksSeq k opt gc as with
      | (gc1, .ok ()) => inferChecksSeq k opt gc1 bs
      | r => r := by
  unfold inferChecksSeq
  rw [List.filter_append, seqLoop_append]

theorem inferChecksSeq_append_ok {gc gc' : GCtx} {as bs : List (Out Cmd)} :
    inferChecksSeq k opt gc (as ++ bs) = (gc', .ok ()) ↔
      ∃ gc1, inferChecksSeq k opt gc as = (gc1, .ok ()) ∧ inferChecksSeq k opt gc1 bs = (gc', .ok ()) := by
  rw [inferChecksSeq_append]
  rcases h : inferChecksSeq k opt gc as with ⟨gc1, r⟩
  cases r <;> simp

/-- the stages are not omitted -/
theorem Opt.omits_none {opt : Opt} (ho : opt.omitted = none) (s : Stage) : opt.omits s = false := by
  simp [Opt.omits, ho]

/-- the files that can be opened -/
def opened : List (Out ParsedFile) → List ParsedFile
  | .ok f :: fs => f :: opened fs
  | _ => []

/-- all commands of some files -/
def allCmds (opt : Opt) : ShState → List ParsedFile → List (Out Cmd)
  | _, [] => []
  | st, f :: fs => (fileCmds opt st f).2 ++ allCmds opt (fileCmds opt st f).1 fs

theorem runFiles_ok_iff {st : ShState} {gc gc' : GCtx} {files : List ParsedFile} :
    RunFiles k opt st gc (files.map .ok) gc' (.ok ()) ↔ inferChecksSeq k opt gc (allCmds opt st files) = (gc', .ok ()) := by
  induction files generalizing st gc with
  | nil =>
    constructor
    · intro h; cases h; rfl
    · intro h; cases h; exact .nil
  | cons f fs ih =>
    rw [allCmds, inferChecksSeq_append_ok]
    constructor
    · intro h
      cases h with
      | next h1 h2 => exact ⟨_, inferChecks_ok_iff.1 h1, ih.1 h2⟩
      | fail _ h => simp [Out.isOk] at h
    · rintro ⟨gc1, h1, h2⟩
      exact .next (inferChecks_ok_iff.2 h1) (ih.2 h2)

theorem produce_ok_iff {files : List (Out ParsedFile)} : (produce files).2.isOk = true ↔ ∃ fs : List ParsedFile, files = fs.map .ok := by
  induction files with
  | nil => exact ⟨fun _ => ⟨[], rfl⟩, fun _ => rfl⟩
  | cons f fs ih =>
    cases f with
    | ok f =>
      rw [produce]
      simp only
      rw [ih]
      constructor
      · rintro ⟨l, rfl⟩; exact ⟨f :: l, rfl⟩
      · rintro ⟨l, h⟩
        cases l with
        | nil => simp at h
        | cons a l => exact ⟨l, by simpa using (List.cons.inj h).2⟩
    | err e => simp only [produce, Out.isOk]; simp; intro l h; cases l <;> simp at h
    | panic => simp only [produce, Out.isOk]; simp; intro l h; cases l <;> simp at h
    | timeout => simp only [produce, Out.isOk]; simp; intro l h; cases l <;> simp at h

theorem runFiles_ok_files {st : ShState} {gc gc' : GCtx} {files : List (Out ParsedFile)}
    (h : RunFiles k opt st gc files gc' (.ok ())) : ∃ fs : List ParsedFile, files = fs.map .ok := by
  generalize hr : Out.ok () = r at h
  induction h with
  | nil => exact ⟨[], rfl⟩
  | @next st gc gc1 gc2 f fs res h1 h2 ih => obtain ⟨l, rfl⟩ := ih hr; exact ⟨f :: l, rfl⟩
  | fail _ h => subst hr; simp [Out.isOk] at h
  | _ => simp at hr

/-! ## Events -/

/-- the state after some events -/
def eventsState : ShState → List (Out Event) → ShState
  | st, [] => st
  | st, e :: es => eventsState (eventStep st e).1 es

theorem eventCmds_append (st : ShState) (as bs : List (Out Event)) :
    eventCmds st (as ++ bs) = eventCmds st as ++ eventCmds (eventsState st as) bs := by
  induction as generalizing st with
  | nil => rfl
  | cons a as ih => simp only [List.cons_append, eventCmds, eventsState, ih, List.append_assoc]

theorem eventStep_eventOf (st : ShState) (c : Out Scoped) :
    eventStep st (eventOf c) = ((shareStep st c).1, some (shareStep st c).2) := by
  cases c <;> rfl

theorem eventCmds_map (st : ShState) (cs : List (Out Scoped)) :
    eventCmds st (cs.map eventOf) = (shareAll st cs).2 ∧ eventsState st (cs.map eventOf) = (shareAll st cs).1 := by
  induction cs generalizing st with
  | nil => exact ⟨rfl, rfl⟩
  | cons c cs ih =>
    simp only [List.map_cons, eventCmds, eventsState, shareAll, eventStep_eventOf]
    exact ⟨by rw [(ih _).1]; rfl, (ih _).2⟩

theorem keepShare_eventOf (opt : Opt) (c : Out Scoped) : keepShare opt (eventOf c) = keepShare opt c := by
  cases c <;> rfl

theorem filter_eventOf (opt : Opt) (cs : List (Out Scoped)) :
    (cs.map eventOf).filter (keepShare opt) = (cs.filter (keepShare opt)).map eventOf := by
  rw [List.filter_map]
  congr 1
  apply List.filter_congr
  intro c _
  exact keepShare_eventOf opt c

/-- errors only -/
theorem shareAll_errs (st st' : ShState) (cs : List (Out Scoped)) (h : ∀ c ∈ cs, c.isOk = false) :
    (shareAll st cs).2 = (shareAll st' cs).2 := by
  induction cs generalizing st st' with
  | nil => rfl
  | cons c cs ih =>
    simp only [shareAll]
    rw [ih _ (shareStep st' c).1 fun x hx => h x (by simp [hx])]
    congr 1
    have := h c (by simp)
    cases c <;> simp [Out.isOk] at this <;> rfl

theorem shareAll_ok (st : ShState) (cs : List (Out Scoped)) (h : ∀ c ∈ (shareAll st cs).2, c.isOk = true) :
    ∀ c ∈ cs, c.isOk = true := by
  induction cs generalizing st with
  | nil => simp
  | cons c cs ih =>
    simp only [shareAll, List.mem_cons, forall_eq_or_imp] at h ⊢
    refine ⟨?_, ih _ h.2⟩
    have := h.1
    cases c <;> simp [shareStep, Out.isOk] at this ⊢

theorem seqLoop_ok_mem {gc gc' : GCtx} {l : List (Out Cmd)} (h : seqLoop k opt gc l = (gc', .ok ())) :
    ∀ c ∈ l, c.isOk = true := by
  induction l generalizing gc with
  | nil => simp
  | cons c cs ih =>
    obtain ⟨cmd, gc1, rfl, -, h2⟩ := seqLoop_cons_ok h
    simp only [List.mem_cons, forall_eq_or_imp]
    exact ⟨rfl, ih h2⟩

theorem inferChecksSeq_ok_mem {gc gc' : GCtx} {l : List (Out Cmd)} (h : inferChecksSeq k opt gc l = (gc', .ok ())) :
    ∀ c ∈ l, c.isOk = true := by
  intro c hc
  by_cases hk : keepInfer opt c = true
  · exact seqLoop_ok_mem h c (List.mem_filter.2 ⟨hc, hk⟩)
  · simp only [keepInfer, Bool.or_eq_true, Bool.not_eq_true', not_or] at hk
    simpa using hk.2

/-- if all commands are shared without error then all were parsed without error -/
theorem allCmds_ok (st : ShState) (files : List ParsedFile) (h : ∀ c ∈ allCmds opt st files, c.isOk = true) :
    ∀ f ∈ files, ∀ c ∈ f.cmds, c.isOk = true := by
  induction files generalizing st with
  | nil => simp
  | cons f fs ih =>
    simp only [allCmds, List.mem_append] at h
    simp only [List.mem_cons, forall_eq_or_imp]
    refine ⟨?_, ih _ fun c hc => h c (.inr hc)⟩
    intro c hc
    by_cases hk : keepShare opt c = true
    · exact shareAll_ok _ _ (fun x hx => h x (.inl hx)) c (List.mem_filter.2 ⟨hc, hk⟩)
    · simp only [keepShare, Bool.or_eq_true, Bool.not_eq_true', not_or] at hk
      simpa using hk.2

/-- without sharing there are no commands -/
theorem allCmds_omit (ho : opt.omits .share = true) (st : ShState) (files : List ParsedFile)
    (h : ∀ f ∈ files, ∀ c ∈ f.cmds, c.isOk = true) : allCmds opt st files = [] := by
  induction files generalizing st with
  | nil => rfl
  | cons f fs ih =>
    simp only [List.mem_cons, forall_eq_or_imp] at h
    rw [allCmds, ih _ h.2, fileCmds]
    have : f.cmds.filter (keepShare opt) = [] := by
      rw [List.filter_eq_nil_iff]
      intro c hc
      simp [keepShare, ho, h.1 c hc]
    rw [this]
    rfl

theorem eventCmds_produce (st : ShState) (files : List ParsedFile) :
    eventCmds st ((produce (files.map .ok)).1.filter (keepShare opt)) = allCmds opt st files := by
  suffices h : ∀ st', (opt.omits .share = false → st = st') →
      eventCmds st ((produce (files.map .ok)).1.filter (keepShare opt)) = allCmds opt st' files from h st fun _ => rfl
  induction files generalizing st with
  | nil => intros; rfl
  | cons f fs ih =>
    intro st' hst
    rw [List.map_cons, produce, allCmds, fileCmds]
    simp only [List.cons_append]
    cases ho : opt.omits .share with
    | false =>
      obtain rfl := hst ho
      have hk : keepShare opt (Out.ok (Event.module f.path)) = true := by simp [keepShare, ho]
      rw [List.filter_cons_of_pos hk, eventCmds, List.filter_append, filter_eventOf, eventCmds_append]
      have hm := eventCmds_map { st with syms := st.syms.setPath f.path } (f.cmds.filter (keepShare opt))
      simp only [eventStep, Option.toList_none, List.nil_append]
      rw [hm.1, hm.2]
      congr 1
      exact ih _ _ fun _ => rfl
    | true =>
      have hk : ¬ keepShare opt (Out.ok (Event.module f.path)) = true := by simp [keepShare, ho, Out.isOk]
      rw [List.filter_cons_of_neg hk, List.filter_append, filter_eventOf, eventCmds_append, (eventCmds_map ..).1]
      congr 1
      · apply shareAll_errs
        intro c hc
        have := (List.mem_filter.1 hc).2
        simpa [keepShare, ho] using this
      · exact ih _ _ fun h => by rw [ho] at h; simp at h

end Kontroli
