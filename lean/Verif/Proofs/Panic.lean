import Verif.Model.Main
import Verif.Spec.Proper
import Verif.Props.Eval
import Verif.Props.Parse

/-!
# No part of the driver panics if the kernel does not
-/

namespace Kontroli

/-- the kernel never panics -/
structure Kern.Safe (k : Kern) : Prop where
  intro : ∀ gc i, k.intro gc i ≠ .panic
  rewrite : ∀ gc t, k.rewrite gc t ≠ .panic
  check : ∀ gc c, k.check gc c ≠ .panic

theorem Res.value_panic {α : Type} {r : Res (α × St)} (h : r ≠ .panic) : r.value ≠ .panic := by
  cases r <;> simp_all [Res.value]

theorem Kern.Exact.safe {k : Kern} (hk : k.Exact) : k.Safe where
  intro gc i := by
    obtain ⟨n, rc, e⟩ := hk.intro gc i
    rw [e]
    exact Res.value_panic ((C08_no_panic gc n rc).2.2.2.2.1 i)
  rewrite gc t := by
    obtain ⟨n, rc, e⟩ := hk.rewrite gc t
    rw [e]
    exact Res.value_panic ((C08_no_panic gc n rc).2.2.2.2.2.1 t)
  check gc c := by
    obtain ⟨n, rc, e⟩ := hk.check gc c
    rw [e]
    exact Res.value_panic ((C08_no_panic gc n rc).2.2.2.2.2.2 c)

theorem Res.out_panic {α : Type} {r : Res α} (h : r ≠ .panic) : r.out ≠ .panic := by
  cases r <;> simp_all [Res.out]

theorem gctxOut_panic (r : Except GError Unit) : gctxOut r ≠ .panic := by
  cases r <;> simp [gctxOut]

theorem Out.bind_panic {α β : Type} {m : Out α} {f : α → Out β} (hm : m ≠ .panic) (hf : ∀ a, f a ≠ .panic) : m.bind f ≠ .panic := by
  cases m with
  | ok a => exact hf a
  | err e => simp [Out.bind]
  | panic => exact absurd rfl hm
  | timeout => simp [Out.bind]

variable {k : Kern} {opt : Opt}

theorem rewriteAll_panic (hk : k.Safe) {τ : Type} {f : τ → Check → GCtx → Out τ} (hf : ∀ t c gc, f t c gc ≠ .panic) (gc : GCtx)
    (rs : List Rule) (t : τ) : rewriteAll k f gc rs t ≠ .panic := by
  induction rs generalizing t with
  | nil => simp [rewriteAll]
  | cons r rs ih =>
    rw [rewriteAll]
    split
    · exact Out.bind_panic (Res.out_panic (hk.rewrite _ _)) fun c => Out.bind_panic (hf _ _ _) fun t => ih t
    · exact ih t

theorem inferWith_panic (hk : k.Safe) {τ : Type} {f : τ → Check → GCtx → Out τ} (hf : ∀ t c gc, f t c gc ≠ .panic) (gc : GCtx) (t : τ)
    (cmd : Cmd) : (inferWith k f gc t cmd).2 ≠ .panic := by
  cases cmd with
  | intro sym it =>
    have h1 : ((k.intro gc it).out.bind fun r => match r.2 with
      | some c => (f t c gc).bind fun t => .ok (r.1, t)
      | none => .ok (r.1, t)) ≠ .panic := by
      refine Out.bind_panic (Res.out_panic (hk.intro _ _)) fun r => ?_
      split
      · exact Out.bind_panic (hf _ _ _) fun t => by simp
      · simp
    rw [inferWith]
    split
    · exact Out.bind_panic (gctxOut_panic _) fun _ => by simp
    · simp
    · next e => exact absurd e h1
    · simp
  | rules rs =>
    have h1 := rewriteAll_panic hk hf gc rs t
    rw [inferWith]
    split
    · exact Out.bind_panic (gctxOut_panic _) fun _ => by simp
    · simp
    · next e => exact absurd e h1
    · simp

theorem inferCheck_panic (hk : k.Safe) (gc : GCtx) (cmd : Cmd) : (inferCheck k opt gc cmd).2 ≠ .panic := by
  refine inferWith_panic hk (fun _ c gc => ?_) gc () cmd
  split
  · simp
  · exact Res.out_panic (hk.check _ _)

theorem inferOnly_panic (hk : k.Safe) (gc : GCtx) (cmd : Cmd) : (inferOnly k gc cmd).2 ≠ .panic :=
  Out.bind_panic (inferWith_panic (f := fun cs c _ => .ok (cs ++ [c])) hk (fun _ _ _ => by simp) gc [] cmd) fun _ => by simp

theorem checkAll_panic (hk : k.Safe) (cs : List Check) (gc : GCtx) : checkAll k cs gc ≠ .panic := by
  induction cs with
  | nil => simp [checkAll]
  | cons c cs ih => exact Out.bind_panic (Res.out_panic (hk.check _ _)) fun _ => ih

theorem seqLoop_panic (hk : k.Safe) {cmds : List (Out Cmd)} (hc : .panic ∉ cmds) (gc : GCtx) : (seqLoop k opt gc cmds).2 ≠ .panic := by
  induction cmds generalizing gc with
  | nil => simp [seqLoop]
  | cons c cmds ih =>
    have h1 : .panic ∉ cmds := fun h => hc (List.mem_cons_of_mem _ h)
    cases c with
    | ok cmd =>
      have h2 := inferCheck_panic (opt := opt) hk gc cmd
      rw [seqLoop]
      split
      · exact ih h1 _
      · next e => rw [e] at h2; exact h2
    | err e => simp [seqLoop]
    | panic => exact absurd List.mem_cons_self hc
    | timeout => simp [seqLoop]

/-- nothing in the pool has panicked -/
def Pool.Safe (p : Pool) : Prop := .panic ∉ p.todo ∧ .panic ∉ p.running ∧ .panic ∉ p.failed

theorem Pool.Safe.step (hk : k.Safe) {p q : Pool} (hp : p.Safe) (h : PoolStep k opt p q) : q.Safe := by
  obtain ⟨h1, h2, h3⟩ := hp
  cases h with
  | @pull cmd todo gc running failed =>
    refine ⟨fun h => h1 (List.mem_cons_of_mem _ h), ?_, h3⟩
    have h4 : (pull k gc cmd).2 ≠ .panic := by
      cases cmd with
      | ok cmd => exact inferOnly_panic hk gc cmd
      | err e => simp [pull]
      | panic => exact absurd List.mem_cons_self h1
      | timeout => simp [pull]
    show Out.panic ∉ ite _ _ _
    split
    · intro h
      rcases List.mem_append.1 h with h | h
      · exact h2 h
      · exact h4 (List.mem_singleton.1 h).symm
    · exact h2
  | @done todo gc pre post ts failed =>
    have h4 : ts ≠ .panic := by
      rintro rfl
      exact h2 (by simp)
    refine ⟨h1, fun h => h2 ?_, ?_⟩
    · rcases List.mem_append.1 h with h | h
      · exact List.mem_append_left _ h
      · exact List.mem_append_right _ (List.mem_cons_of_mem _ h)
    · show Out.panic ∉ ite _ _ _
      split
      · exact h3
      · intro h
        rcases List.mem_append.1 h with h | h
        · exact h3 h
        · exact Out.bind_panic h4 (fun ts => checkAll_panic hk ts.1 ts.2) (List.mem_singleton.1 h).symm

theorem Pool.Safe.steps (hk : k.Safe) {p q : Pool} (hp : p.Safe) (h : PoolSteps k opt p q) : q.Safe := by
  induction h with
  | refl => exact hp
  | step h _ ih => exact ih (hp.step hk h)

theorem InferChecks.noPanic (hk : k.Safe) {gc gc' : GCtx} {cmds : List (Out Cmd)} (hc : .panic ∉ cmds) {res : Out Unit}
    (h : InferChecks k opt gc cmds gc' res) : res ≠ .panic := by
  have h1 : .panic ∉ cmds.filter (keepInfer opt) := fun h => hc (List.mem_filter.1 h).1
  unfold InferChecks at h
  split at h
  · obtain ⟨p, h2, -, h3⟩ := h
    have h4 := Pool.Safe.steps hk ⟨h1, by simp, by simp⟩ h2
    rcases h3 with ⟨-, -, -, rfl⟩ | h3
    · simp
    · rintro rfl
      exact h4.2.2 h3
  · have h2 := seqLoop_panic (opt := opt) hk h1 gc
    unfold inferChecksSeq at h
    rw [h] at h2
    exact h2

theorem shareCmd_panic (st : ShState) (c : Scoped) : (shareCmd st c).2 ≠ .panic := by
  unfold shareCmd
  split
  · simp
  · split <;> simp
  · simp

theorem shareAll_panic {cs : List (Out Scoped)} (hc : .panic ∉ cs) (st : ShState) : .panic ∉ (shareAll st cs).2 := by
  induction cs generalizing st with
  | nil => simp [shareAll]
  | cons c cs ih =>
    rw [shareAll]
    intro h
    rcases List.mem_cons.1 h with h | h
    · cases c with
      | ok c => exact shareCmd_panic st c h.symm
      | err e => simp [shareStep] at h
      | panic => exact hc List.mem_cons_self
      | timeout => simp [shareStep] at h
    · exact ih (fun h => hc (List.mem_cons_of_mem _ h)) _ h

/-- a file whose stream does not panic, or an error -/
def SafeFile (f : Out ParsedFile) : Prop := f ≠ .panic ∧ ∀ p, f = .ok p → .panic ∉ p.cmds

theorem parseText_panic (text : Str) : .panic ∉ parseText text := by
  unfold parseText
  intro h
  obtain ⟨i, hi, e⟩ := List.mem_map.1 h
  cases i with
  | ok c => simp at e
  | err e' => simp at e
  | panic => exact C21_lazy_no_panic _ _ _ hi

theorem openFiles_safe (fs : FileSystem) (stdin : Str) (paths : List Str) : ∀ f ∈ openFiles fs stdin paths, SafeFile f := by
  induction paths generalizing stdin with
  | nil => simp [openFiles]
  | cons p ps ih =>
    intro f hf
    have hg : ∀ (path : List Str) (text : Str), SafeFile (.ok ⟨path, parseText text⟩) := by
      intro path text
      refine ⟨by simp, ?_⟩
      rintro p e
      cases e
      exact parseText_panic text
    have hb : ∀ e : CError, SafeFile (.err e) := fun e => ⟨by simp, fun p h => by cases h⟩
    rw [openFiles] at hf
    split at hf
    · rcases List.mem_cons.1 hf with rfl | hf
      · exact hb _
      · exact ih _ f hf
    · split at hf
      · rcases List.mem_cons.1 hf with rfl | hf
        · exact hg _ _
        · exact ih _ f hf
      · split at hf
        · rcases List.mem_cons.1 hf with rfl | hf
          · exact hb _
          · exact ih _ f hf
        · rcases List.mem_cons.1 hf with rfl | hf
          · exact hg _ _
          · exact ih _ f hf

theorem RunFiles.noPanic (hk : k.Safe) {st : ShState} {gc gc' : GCtx} {files : List (Out ParsedFile)} {res : Out Unit}
    (h : RunFiles k opt st gc files gc' res) (hf : ∀ f ∈ files, SafeFile f) : res ≠ .panic := by
  induction h with
  | nil => simp
  | next _ _ ih => exact ih fun f h => hf f (List.mem_cons_of_mem _ h)
  | @fail st gc gc1 f fs res h1 _ =>
    have h2 := (hf (.ok f) List.mem_cons_self).2 f rfl
    exact InferChecks.noPanic hk (shareAll_panic (fun h => h2 (List.mem_filter.1 h).1) _) h1
  | openErr => simp
  | openPanic => exact absurd rfl (hf _ List.mem_cons_self).1
  | openTimeout => simp

theorem produce_safe {files : List (Out ParsedFile)} (hf : ∀ f ∈ files, SafeFile f) :
    .panic ∉ (produce files).1 ∧ (produce files).2 ≠ .panic := by
  induction files with
  | nil => simp [produce]
  | cons f fs ih =>
    have h1 := ih fun f h => hf f (List.mem_cons_of_mem _ h)
    have h2 := hf f List.mem_cons_self
    cases f with
    | ok f =>
      refine ⟨?_, h1.2⟩
      rw [produce]
      intro h
      rcases List.mem_append.1 h with h | h
      · rcases List.mem_cons.1 h with h | h
        · simp at h
        · obtain ⟨c, hc, e⟩ := List.mem_map.1 h
          cases c with
          | panic => exact h2.2 f rfl hc
          | _ => simp [eventOf] at e
      · exact h1.1 h
    | err e => simp [produce]
    | panic => exact absurd rfl h2.1
    | timeout => simp [produce]

theorem eventCmds_panic {es : List (Out Event)} (he : .panic ∉ es) (st : ShState) : .panic ∉ eventCmds st es := by
  induction es generalizing st with
  | nil => simp [eventCmds]
  | cons e es ih =>
    rw [eventCmds]
    intro h
    rcases List.mem_append.1 h with h | h
    · cases e with
      | ok ev =>
        cases ev with
        | module p => simp [eventStep] at h
        | command c =>
          simp only [eventStep, Option.toList_some, List.mem_singleton] at h
          exact shareCmd_panic st c h.symm
      | err e => simp [eventStep] at h
      | panic => exact he List.mem_cons_self
      | timeout => simp [eventStep] at h
    · exact ih (fun h => he (List.mem_cons_of_mem _ h)) _ h

theorem Consume.noPanic (hk : k.Safe) {evs : List (Out Event)} (he : .panic ∉ evs) {gc : GCtx} {res : Out Unit}
    (h : Consume k opt evs gc res) : res ≠ .panic :=
  InferChecks.noPanic hk (eventCmds_panic (fun h => he (List.mem_filter.1 h).1) _) h

theorem Piped.noPanic (hk : k.Safe) {files : List (Out ParsedFile)} (hf : ∀ f ∈ files, SafeFile f) {res : Out Unit}
    (h : Piped k opt files res) : res ≠ .panic := by
  obtain ⟨h1, h2⟩ := produce_safe hf
  rcases h with ⟨-, rfl⟩ | ⟨-, gc, h⟩ | ⟨-, n, gc, -, h⟩
  · exact h2
  · exact Consume.noPanic hk h1 h
  · exact Consume.noPanic hk (fun h => h1 (List.mem_of_mem_take h)) h

end Kontroli
