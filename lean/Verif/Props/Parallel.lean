import Verif.Proofs.Parallel
import Verif.Props.Session

/-!
# C30, C31: concurrent checking and omitted stages
-/

namespace Kontroli

/-- C30. A history is accepted by the concurrent driver, by some schedule and with final context `gc'`, iff the sequential driver
accepts it with the same final context. -/
theorem C30_accepts_iff (k : Kern) (opt : Opt) (gc gc' : GCtx) (cmds : List (Out Cmd)) :
    InferChecksPar k opt gc cmds gc' (.ok ()) ↔ inferChecksSeq k opt gc cmds = (gc', .ok ()) := by
  unfold inferChecksSeq
  rw [seqLoop_iff]
  constructor
  · rintro ⟨p, hs, rfl, h⟩
    obtain ⟨pulled, h1, h2, h3, h4, h5⟩ := ((PoolInv.init k opt gc _).steps hs).split
    rcases h with ⟨h6, h7, h8, -⟩ | h
    · rw [h6] at h1
      simp only [List.append_nil] at h1
      rw [h1]
      refine ⟨h2, fun ts hts => ?_⟩
      rcases h3 ts hts with h | h | h
      · rw [h7] at h; simp at h
      · exact h
      · exact absurd h8 h
    · have := (h5 _ h).1
      simp [Out.isOk] at this
  · rintro ⟨rfl, h⟩
    exact ⟨_, pool_schedule h, rfl, .inl ⟨rfl, rfl, rfl, rfl⟩⟩

/-- C30. No schedule of the concurrent driver refuses a history that the sequential driver accepts. -/
theorem C30_never_refuses (k : Kern) (opt : Opt) (gc gc' gc'' : GCtx) (cmds : List (Out Cmd)) (res : Out Unit)
    (h : inferChecksSeq k opt gc cmds = (gc', .ok ())) (hp : InferChecksPar k opt gc cmds gc'' res) :
    res = .ok () ∧ gc'' = gc' := by
  obtain ⟨p, hs, rfl, hv⟩ := hp
  unfold inferChecksSeq at h
  have hinv := (PoolInv.init k opt gc _).steps hs
  obtain ⟨hg, hgood⟩ := seqLoop_iff.1 h
  obtain ⟨pulled, h1, h2, h3, h4, h5⟩ := hinv.split
  rcases hv with ⟨h6, h7, h8, rfl⟩ | hmem
  · rw [h6] at h1
    simp only [List.append_nil] at h1
    rw [← h1] at h2
    exact ⟨rfl, h2 ▸ hg⟩
  · exfalso
    obtain ⟨-, ts, h6, h7⟩ := h5 res hmem
    refine h7 (hgood ts ?_)
    rw [h1]
    clear h h1 h2 h3 h4 h5 hg hgood hinv hs hmem h7
    induction pulled generalizing gc with
    | nil => simp [pullAll] at h6
    | cons c cs ih =>
      simp only [pullAll, List.cons_append, List.mem_cons] at h6 ⊢
      exact h6.imp_right (ih _)

/-- every list of commands has a complete schedule: the verdict is never missing -/
theorem C30_has_verdict (k : Kern) (opt : Opt) (gc : GCtx) (cmds : List (Out Cmd)) :
    ∃ gc' res, InferChecksPar k opt gc cmds gc' res := by
  suffices h : ∀ (todo : List (Out Cmd)) (gc : GCtx), ∃ p, PoolSteps k opt ⟨todo, gc, [], []⟩ p ∧
      ((p.todo = [] ∧ p.running = [] ∧ p.failed = []) ∨ p.failed ≠ []) by
    obtain ⟨p, hs, h⟩ := h (cmds.filter (keepInfer opt)) gc
    rcases h with ⟨h1, h2, h3⟩ | h
    · exact ⟨p.gc, .ok (), p, hs, rfl, .inl ⟨h1, h2, h3, rfl⟩⟩
    · obtain ⟨e, he⟩ := List.exists_mem_of_ne_nil _ h
      exact ⟨p.gc, e, p, hs, rfl, .inr he⟩
  intro todo
  induction todo with
  | nil => intro gc; exact ⟨_, .refl, .inl ⟨rfl, rfl, rfl⟩⟩
  | cons c cs ih =>
    intro gc
    by_cases hk : keepCheck opt (pull k gc c).2 = true
    · by_cases hok : (processChecks k (pull k gc c).2).isOk = true
      · obtain ⟨p, hs, h⟩ := ih (pull k gc c).1
        refine ⟨p, .step .pull (.step (q := ⟨cs, (pull k gc c).1, [], []⟩) ?_ hs), h⟩
        simp only [hk, if_true, List.nil_append]
        have := PoolStep.done (k := k) (opt := opt) (todo := cs) (gc := (pull k gc c).1) (pre := []) (post := [])
          (ts := (pull k gc c).2) (failed := [])
        simpa [hok] using this
      · refine ⟨_, .step .pull (.step (q := ⟨cs, (pull k gc c).1, [], [processChecks k (pull k gc c).2]⟩) ?_ .refl),
          .inr (by simp)⟩
        simp only [hk, if_true, List.nil_append]
        have := PoolStep.done (k := k) (opt := opt) (todo := cs) (gc := (pull k gc c).1) (pre := []) (post := [])
          (ts := (pull k gc c).2) (failed := [])
        simpa [hok] using this
    · obtain ⟨p, hs, h⟩ := ih (pull k gc c).1
      refine ⟨p, .step .pull ?_, h⟩
      simp only [hk]
      exact hs

/-- the example session (three declarations, a definition with rules, a theorem) is accepted by the concurrent driver -/
example : InferChecksPar (Kern.std 60 fun _ => false) ⟨false, none, true⟩ (GCtx.start false) Example.session
    (inferChecksSeq (Kern.std 60 fun _ => false) ⟨false, none, true⟩ (GCtx.start false) Example.session).1 (.ok ()) := by
  rw [C30_accepts_iff]
  have h : (inferChecksSeq (Kern.std 60 fun _ => false) ⟨false, none, true⟩ (GCtx.start false) Example.session).2.isOk = true := by
    decide +kernel
  obtain ⟨u, hu⟩ := Out.isOk_iff.1 h
  exact Prod.ext rfl hu

/-! ## C31 -/

/-- C31. Omitting the checks accepts all that is accepted with all stages, with the same final context. -/
theorem C31_omit_check (k : Kern) (opt opt' : Opt) (ho : opt.omitted = none) (ho' : opt'.omitted = some .check) (gc gc' : GCtx)
    (cmds : List (Out Cmd)) (h : inferChecksSeq k opt gc cmds = (gc', .ok ())) :
    inferChecksSeq k opt' gc cmds = (gc', .ok ()) := by
  have hf : ∀ (o : Opt), o.omits .infer = false → ∀ l : List (Out Cmd), l.filter (keepInfer o) = l := by
    intro o ho l; rw [List.filter_eq_self]; intro a _; simp [keepInfer, ho]
  unfold inferChecksSeq at *
  rw [hf opt (by simp [Opt.omits, ho])] at h
  rw [hf opt' (by simp [Opt.omits, ho'])]
  rw [seqLoop_iff] at *
  refine ⟨h.1, fun ts hts hk => ?_⟩
  have : keepCheck opt ts = true := by simp [keepCheck, Opt.omits, ho]
  exact h.2 ts hts this

/-- C31. Omitting inference accepts all that is accepted with all stages; the context is not touched. -/
theorem C31_omit_infer (k : Kern) (opt opt' : Opt) (ho : opt.omitted = none) (ho' : opt'.omitted = some .infer) (gc gc' : GCtx)
    (cmds : List (Out Cmd)) (h : inferChecksSeq k opt gc cmds = (gc', .ok ())) :
    inferChecksSeq k opt' gc cmds = (gc, .ok ()) := by
  unfold inferChecksSeq at *
  have hall : ∀ (gc : GCtx) (l : List (Out Cmd)), seqLoop k opt gc l = (gc', .ok ()) → ∀ c ∈ l, c.isOk = true := by
    intro gc l
    induction l generalizing gc with
    | nil => simp
    | cons c cs ih =>
      intro h
      obtain ⟨cmd, gc1, rfl, -, h2⟩ := seqLoop_cons_ok h
      simp only [List.mem_cons, forall_eq_or_imp]
      exact ⟨rfl, ih gc1 h2⟩
  have hf : cmds.filter (keepInfer opt) = cmds := by
    rw [List.filter_eq_self]; intro a _; simp [keepInfer, Opt.omits, ho]
  rw [hf] at h
  have : cmds.filter (keepInfer opt') = [] := by
    rw [List.filter_eq_nil_iff]
    intro c hc
    simp [keepInfer, Opt.omits, ho', hall gc cmds h c hc]
  rw [this]; rfl

/-- C31 with several threads. -/
theorem C31_parallel (k : Kern) (opt opt' : Opt) (ho : opt.omitted = none)
    (ho' : opt'.omitted = some .check ∨ opt'.omitted = some .infer) (gc gc' gc'' : GCtx) (cmds : List (Out Cmd)) (res : Out Unit)
    (h : InferChecksPar k opt gc cmds gc' (.ok ())) (h' : InferChecksPar k opt' gc cmds gc'' res) : res = .ok () := by
  rw [C30_accepts_iff] at h
  rcases ho' with ho' | ho'
  · exact (C30_never_refuses k opt' gc _ gc'' cmds res (C31_omit_check k opt opt' ho ho' gc gc' cmds h) h').1
  · exact (C30_never_refuses k opt' gc _ gc'' cmds res (C31_omit_infer k opt opt' ho ho' gc gc' cmds h) h').1

/-- omitting the checks really matters: a wrong theorem is accepted without them only -/
example : (inferChecksSeq (Kern.std 40 fun _ => true) ⟨false, some .check, false⟩ Example.gc
      [.ok (.intro 7 (.theorem_ (.const Example.nat) .type))]).2.isOk = true ∧
    (inferChecksSeq (Kern.std 40 fun _ => true) ⟨false, none, false⟩ Example.gc
      [.ok (.intro 7 (.theorem_ (.const Example.nat) .type))]).2.isOk = false := by
  constructor <;> decide +kernel

#print axioms C30_accepts_iff
#print axioms C30_never_refuses
#print axioms C30_has_verdict
#print axioms C31_omit_check
#print axioms C31_omit_infer
#print axioms C31_parallel

end Kontroli
