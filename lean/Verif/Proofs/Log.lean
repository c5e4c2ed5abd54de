import Verif.Spec.Log
import Verif.Proofs.Delivered
import Verif.Proofs.Bench

/-!
# The log of a run
-/

namespace Kontroli

variable {k : Kern} {opt : Opt}

theorem rewriteAllLog_val {τ : Type} (f : τ → Check → GCtx → Out τ) (gc : GCtx) (rs : List Rule) (t : τ) :
    (rewriteAllLog k f gc rs t).val = rewriteAll k f gc rs t := by
  induction rs generalizing t with
  | nil => rfl
  | cons r rs ih =>
    unfold rewriteAllLog rewriteAll
    cases r.toT with
    | none => exact ih t
    | some tr =>
      simp only
      cases (k.rewrite gc tr).out with
      | ok c =>
        simp only [Out.bind]
        cases f t c gc with
        | ok t => exact ih t
        | err e => rfl
        | panic => rfl
        | timeout => rfl
      | err e => rfl
      | panic => rfl
      | timeout => rfl

theorem inferWithLog_val {τ : Type} (f : τ → Check → GCtx → Out τ) (gc : GCtx) (t : τ) (cmd : Cmd) :
    (inferWithLog k f gc t cmd).val = inferWith k f gc t cmd := by
  cases cmd with
  | intro s it => rfl
  | rules rs =>
    have h := rewriteAllLog_val (k := k) f gc rs t
    unfold inferWithLog inferWith
    simp only
    rw [← h]
    rcases rewriteAllLog k f gc rs t with ⟨l, o⟩
    cases o <;> rfl

theorem inferCheckLog_val (gc : GCtx) (cmd : Cmd) : (inferCheckLog k opt gc cmd).val = inferCheck k opt gc cmd := inferWithLog_val ..

/-- the warnings for some rules -/
def warnings : List Rule → List LogLine
  | [] => []
  | r :: rs => if r.toT.isSome then warnings rs else .unannotated :: warnings rs

theorem rewriteAllLog_ok {τ : Type} {f : τ → Check → GCtx → Out τ} {gc : GCtx} {rs : List Rule} {t t' : τ} {l : List LogLine}
    (h : rewriteAllLog k f gc rs t = ⟨l, .ok t'⟩) : l = warnings rs := by
  induction rs generalizing t l with
  | nil => cases h; rfl
  | cons r rs ih =>
    unfold rewriteAllLog at h
    unfold warnings
    cases hr : r.toT with
    | none =>
      rw [hr] at h
      simp only [Logged.after] at h
      have hv : (rewriteAllLog k f gc rs t).val = .ok t' := congrArg Logged.val h
      have hl : [LogLine.unannotated] ++ (rewriteAllLog k f gc rs t).log = l := congrArg Logged.log h
      have := @ih t (rewriteAllLog k f gc rs t).log (by rw [← hv])
      rw [this] at hl
      exact hl.symm
    | some tr =>
      rw [hr] at h
      simp only at h
      split at h
      · exact ih h
      all_goals simp at h

open Classical in
/-- how many rules of the kernel are not checked -/
noncomputable def unchecked (rs : List Rule) : Nat := rs.countP fun r => ¬ r.Full

/-- the warnings for some rules, up to the one that is wrong -/
theorem rewriteAllLog_log {τ : Type} (f : τ → Check → GCtx → Out τ) (gc : GCtx) (rs : List Rule) (t : τ) :
    ∃ rs1, rs1 <+: rs ∧ (rewriteAllLog k f gc rs t).log = List.replicate (unchecked rs1) .unannotated ∧ (rewriteAll k f gc rs1 t).isOk = true ∧
      (rs1 = rs ∨ ∃ r, rs1 ++ [r] <+: rs ∧ r.Full ∧ (rewriteAll k f gc (rs1 ++ [r]) t).isOk = false) := by
  induction rs generalizing t with
  | nil => exact ⟨[], List.prefix_rfl, rfl, rfl, .inl rfl⟩
  | cons r rs ih =>
    have hfull := Rule.full_iff (r := r)
    cases hr : r.toT with
    | none =>
      have hn : ¬ r.Full := by rw [hfull, hr]; simp
      have hstep : ∀ rs, rewriteAll k f gc (r :: rs) t = rewriteAll k f gc rs t := by
        intro rs
        rw [rewriteAll, hr]
      obtain ⟨rs1, h1, h2, h3, h4⟩ := ih t
      refine ⟨r :: rs1, List.cons_prefix_cons.2 ⟨rfl, h1⟩, ?_, ?_, ?_⟩
      · rw [rewriteAllLog, hr]
        simp only [Logged.after, h2]
        unfold unchecked
        rw [List.countP_cons]
        simp [hn, List.replicate_succ]
      · rw [hstep]; exact h3
      · rcases h4 with rfl | ⟨r', h4, h5, h6⟩
        · exact .inl rfl
        · exact .inr ⟨r', List.cons_prefix_cons.2 ⟨rfl, h4⟩, h5, by rw [List.cons_append, hstep]; exact h6⟩
    | some tr =>
      have hn : r.Full := by rw [hfull, hr]; rfl
      cases ho : (k.rewrite gc tr).out.bind fun c => f t c gc with
      | ok t' =>
        have hstep : ∀ rs, rewriteAll k f gc (r :: rs) t = rewriteAll k f gc rs t' := by
          intro rs
          rw [rewriteAll, hr]
          simp only
          cases hw : (k.rewrite gc tr).out with
          | ok c => rw [hw] at ho; simp only [Out.bind] at ho ⊢; rw [ho]
          | _ => rw [hw] at ho; cases ho
        obtain ⟨rs1, h1, h2, h3, h4⟩ := ih t'
        refine ⟨r :: rs1, List.cons_prefix_cons.2 ⟨rfl, h1⟩, ?_, ?_, ?_⟩
        · rw [rewriteAllLog, hr]
          simp only [ho, h2]
          unfold unchecked
          rw [List.countP_cons]
          simp [hn]
        · rw [hstep]; exact h3
        · rcases h4 with rfl | ⟨r', h4, h5, h6⟩
          · exact .inl rfl
          · exact .inr ⟨r', List.cons_prefix_cons.2 ⟨rfl, h4⟩, h5, by rw [List.cons_append, hstep]; exact h6⟩
      | _ =>
        refine ⟨[], List.nil_prefix, ?_, rfl, .inr ⟨r, ⟨rs, rfl⟩, hn, ?_⟩⟩
        · rw [rewriteAllLog, hr]
          simp only [ho]
          rfl
        · rw [List.nil_append, rewriteAll, hr]
          simp only
          cases hw : (k.rewrite gc tr).out with
          | ok c => rw [hw] at ho; simp only [Out.bind] at ho ⊢; rw [ho]; rfl
          | _ => rfl

theorem inferCheckLog_log (gc : GCtx) (rs : List Rule) :
    (inferCheckLog k opt gc (.rules rs)).log =
      (rewriteAllLog k (fun _ c gc => if opt.omits .check then .ok () else (k.check gc c).out) gc rs ()).log := by
  unfold inferCheckLog inferWithLog
  simp only
  split
  all_goals
    next he => rw [he]

/-- the warnings for a command -/
def Cmd.warnings : Cmd → List LogLine
  | .intro _ _ => []
  | .rules rs => Kontroli.warnings rs

theorem inferCheckLog_ok {gc gc' : GCtx} {cmd : Cmd} {l : List LogLine} (h : inferCheckLog k opt gc cmd = ⟨l, gc', .ok ()⟩) :
    l = cmd.warnings := by
  unfold inferCheckLog at h
  cases cmd with
  | intro s it => exact (congrArg Logged.log h).symm
  | rules rs =>
    unfold inferWithLog at h
    simp only at h
    split at h
    · next l' t' he =>
      have := rewriteAllLog_ok he
      have hl : l' = l := congrArg Logged.log h
      rw [← hl, this]
      rfl
    all_goals simp at h

theorem warnings_warn {rs : List Rule} : ∀ x ∈ warnings rs, x.isWarn = true := by
  induction rs with
  | nil => nofun
  | cons r rs ih =>
    unfold warnings
    split
    · exact ih
    · simpa [LogLine.isWarn] using ih

theorem logCmd_warn (c : Scoped) : (logCmd c).isWarn = false := by cases c <;> rfl

theorem rewriteAllLog_warn {τ : Type} (f : τ → Check → GCtx → Out τ) (gc : GCtx) (rs : List Rule) (t : τ) :
    ∀ x ∈ (rewriteAllLog k f gc rs t).log, x.isWarn = true := by
  induction rs generalizing t with
  | nil => nofun
  | cons r rs ih =>
    unfold rewriteAllLog
    split
    · split
      · exact ih _
      all_goals nofun
    · simpa [Logged.after, LogLine.isWarn] using ih t

theorem inferCheckLog_warn (gc : GCtx) (cmd : Cmd) : ∀ x ∈ (inferCheckLog k opt gc cmd).log, x.isWarn = true := by
  unfold inferCheckLog
  cases cmd with
  | intro s it => nofun
  | rules rs =>
    unfold inferWithLog
    simp only
    have := rewriteAllLog_warn (k := k) (fun _ c gc => if opt.omits .check then .ok () else (k.check gc c).out) gc rs ()
    split
    all_goals
      next he =>
        rw [he] at this
        exact this

/-! ## Files -/

/-- the loop over a file that is read at once -/
theorem fileLog_seq (st : ShState) (gc : GCtx) (cs : List (Out Scoped)) :
    (fileLog k opt st gc cs).val.2 = inferChecksSeq k opt gc (shareAll st (cs.filter (keepShare opt))).2 ∧
    ((fileLog k opt st gc cs).val.2.2 = .ok () → (fileLog k opt st gc cs).val.1 = (shareAll st (cs.filter (keepShare opt))).1) := by
  have hbad : ∀ (c : Out Scoped) cs, c.isOk = false → (c :: cs).filter (keepShare opt) = c :: cs.filter (keepShare opt) := by
    intro c cs h
    rw [List.filter_cons_of_pos]
    simp [keepShare, h]
  have hbad' : ∀ (c : Out Cmd) cs, c.isOk = false → inferChecksSeq k opt gc (c :: cs) = seqLoop k opt gc (c :: cs.filter (keepInfer opt)) := by
    intro c cs h
    unfold inferChecksSeq
    rw [List.filter_cons_of_pos]
    simp [keepInfer, h]
  induction cs generalizing st gc with
  | nil => exact ⟨rfl, fun _ => rfl⟩
  | cons c cs ih =>
    cases c with
    | err e => rw [hbad _ _ rfl, fileLog, shareAll]; simp only [shareStep]; rw [hbad' _ _ rfl, seqLoop]; exact ⟨rfl, nofun⟩
    | panic => rw [hbad _ _ rfl, fileLog, shareAll]; simp only [shareStep]; rw [hbad' _ _ rfl, seqLoop]; exact ⟨rfl, nofun⟩
    | timeout => rw [hbad _ _ rfl, fileLog, shareAll]; simp only [shareStep]; rw [hbad' _ _ rfl, seqLoop]; exact ⟨rfl, nofun⟩
    | ok c =>
      have hbad2 : ∀ (gc : GCtx) (c : Out Cmd) cs, c.isOk = false → inferChecksSeq k opt gc (c :: cs) = seqLoop k opt gc (c :: cs.filter (keepInfer opt)) := by
        intro gc c cs h
        unfold inferChecksSeq
        rw [List.filter_cons_of_pos]
        simp [keepInfer, h]
      rw [fileLog]
      cases ho : opt.omits .share with
      | true =>
        rw [List.filter_cons_of_neg (by simp [keepShare, ho, Out.isOk])]
        exact ih st gc (fun c cs h => hbad2 gc c cs h)
      | false =>
        rw [List.filter_cons_of_pos (by simp [keepShare, ho]), shareAll]
        simp only [Bool.false_eq_true, if_false, shareStep]
        rcases hs : shareCmd st c with ⟨st1, o⟩
        cases o with
        | err e => simp only; rw [hbad2 _ _ _ rfl, seqLoop]; exact ⟨rfl, nofun⟩
        | panic => simp only; rw [hbad2 _ _ _ rfl, seqLoop]; exact ⟨rfl, nofun⟩
        | timeout => simp only; rw [hbad2 _ _ _ rfl, seqLoop]; exact ⟨rfl, nofun⟩
        | ok cmd =>
          simp only
          cases hi : opt.omits .infer with
          | true =>
            have : ∀ l, inferChecksSeq k opt gc (.ok cmd :: l) = inferChecksSeq k opt gc l := by
              intro l
              unfold inferChecksSeq
              rw [List.filter_cons_of_neg (by simp [keepInfer, hi, Out.isOk])]
            rw [this]
            exact ih st1 gc (fun c cs h => hbad2 gc c cs h)
          | false =>
            simp only [Bool.false_eq_true, if_false]
            have hkeep : ∀ l, inferChecksSeq k opt gc (.ok cmd :: l) = seqLoop k opt gc (.ok cmd :: l.filter (keepInfer opt)) := by
              intro l
              unfold inferChecksSeq
              rw [List.filter_cons_of_pos (by simp [keepInfer, hi])]
            have hv := inferCheckLog_val (k := k) (opt := opt) gc cmd
            rw [hkeep, seqLoop, ← hv]
            rcases inferCheckLog k opt gc cmd with ⟨l, gc1, o⟩
            cases o with
            | ok u => exact ih st1 gc1 (fun c cs h => hbad2 gc1 c cs h)
            | err e => exact ⟨rfl, nofun⟩
            | panic => exact ⟨rfl, nofun⟩
            | timeout => exact ⟨rfl, nofun⟩

theorem runFilesLog_iff (hj : opt.jobs = false) {st : ShState} {gc gc' : GCtx} {files : List (Out ParsedFile)} {res : Out Unit} :
    RunFiles k opt st gc files gc' res ↔ (runFilesLog k opt st gc files).val = (gc', res) := by
  have hseq : ∀ {gc cmds gc' res}, InferChecks k opt gc cmds gc' res ↔ inferChecksSeq k opt gc cmds = (gc', res) := by
    intro gc cmds gc' res
    unfold InferChecks
    rw [hj]
    simp
  induction files generalizing st gc with
  | nil =>
    constructor
    · intro h; cases h; rfl
    · intro h; cases h; exact .nil
  | cons f fs ih =>
    cases f with
    | err e => constructor <;> (intro h; cases h); rfl; exact .openErr
    | panic => constructor <;> (intro h; cases h); rfl; exact .openPanic
    | timeout => constructor <;> (intro h; cases h); rfl; exact .openTimeout
    | ok f =>
      have h1 := fileLog_seq (k := k) (opt := opt) { st with syms := st.syms.setPath f.path } gc f.cmds
      change _ = inferChecksSeq k opt gc (fileCmds opt st f).2 ∧ (_ → _ = (fileCmds opt st f).1) at h1
      rw [runFilesLog]
      rcases hl : fileLog k opt { st with syms := st.syms.setPath f.path } gc f.cmds with ⟨l, st1, gc1, o⟩
      rw [hl] at h1
      obtain ⟨h1, h2⟩ := h1
      simp only at h1 h2
      cases o with
      | ok u =>
        have h2 := h2 rfl
        simp only [Logged.after]
        constructor
        · intro h
          cases h with
          | next h3 h4 =>
            rw [hseq, ← h1] at h3
            cases h3
            rw [h2]
            exact ih.1 h4
          | fail h3 h4 =>
            rw [hseq, ← h1] at h3
            cases h3
            simp [Out.isOk] at h4
        · intro h
          rw [h2] at h
          exact .next (hseq.2 h1.symm) (ih.2 h)
      | _ =>
        constructor
        · intro h
          cases h with
          | next h3 h4 =>
            rw [hseq, ← h1] at h3
            cases h3
          | fail h3 h4 =>
            rw [hseq, ← h1] at h3
            exact h3
        · intro h
          cases h
          exact .fail (hseq.2 h1.symm) rfl

/-! ## The log of an accepted run -/

/-- the lines about the commands -/
def infos (l : List LogLine) : List LogLine := l.filter fun x => !x.isWarn

theorem infos_append (l l' : List LogLine) : infos (l ++ l') = infos l ++ infos l' := List.filter_append ..

theorem infos_warn {l : List LogLine} (h : ∀ x ∈ l, x.isWarn = true) : infos l = [] := by
  rw [infos, List.filter_eq_nil_iff]
  intro x hx
  simp [h x hx]

theorem infos_cmd (c : Scoped) {l : List LogLine} (h : ∀ x ∈ l, x.isWarn = true) : infos (logCmd c :: l) = [logCmd c] := by
  have := infos_warn h
  unfold infos at this ⊢
  rw [List.filter_cons_of_pos (by simp [logCmd_warn]), this]

/-- what one item logs about itself -/
def itemInfo : Out Scoped → List LogLine
  | .ok c => [logCmd c]
  | _ => []

theorem fileLog_one (st : ShState) (gc : GCtx) (c : Out Scoped) (cs : List (Out Scoped)) :
    fileLog k opt st gc (c :: cs) =
      match fileLog k opt st gc [c] with
      | ⟨l, st, gc, .ok ()⟩ => (fileLog k opt st gc cs).after l
      | r => r := by
  cases c with
  | err e => rfl
  | panic => rfl
  | timeout => rfl
  | ok c =>
    rw [fileLog, fileLog]
    split
    · simp [fileLog, Logged.after]
    · rcases shareCmd st c with ⟨st1, o⟩
      cases o with
      | ok cmd =>
        simp only
        split
        · simp [fileLog, Logged.after]
        · rcases inferCheckLog k opt gc cmd with ⟨l, gc1, o⟩
          cases o <;> simp [fileLog, Logged.after]
      | err e => rfl
      | panic => rfl
      | timeout => rfl

theorem fileLog_append (st : ShState) (gc : GCtx) (as bs : List (Out Scoped)) :
    fileLog k opt st gc (as ++ bs) =
      match fileLog k opt st gc as with
      | ⟨l, st, gc, .ok ()⟩ => (fileLog k opt st gc bs).after l
      | r => r := by
  induction as generalizing st gc with
  | nil => simp [fileLog, Logged.after]
  | cons a as ih =>
    rw [List.cons_append, fileLog_one, fileLog_one (cs := as)]
    rcases fileLog k opt st gc [a] with ⟨l, st1, gc1, o⟩
    cases o with
    | ok u =>
      simp only
      rw [ih]
      rcases fileLog k opt st1 gc1 as with ⟨l', st2, gc2, o⟩
      cases o <;> simp [Logged.after]
    | err e => rfl
    | panic => rfl
    | timeout => rfl

theorem fileLog_item (st : ShState) (gc : GCtx) (c : Out Scoped) : infos (fileLog k opt st gc [c]).log = itemInfo c := by
  cases c with
  | err e => rfl
  | panic => rfl
  | timeout => rfl
  | ok c =>
    unfold fileLog itemInfo
    split
    · exact infos_cmd c nofun
    · rcases shareCmd st c with ⟨st1, o⟩
      cases o with
      | ok cmd =>
        simp only
        split
        · exact infos_cmd c nofun
        · have hw := inferCheckLog_warn (k := k) (opt := opt) gc cmd
          rcases hl : inferCheckLog k opt gc cmd with ⟨l, gc1, o⟩
          rw [hl] at hw
          cases o with
          | ok u => simpa [fileLog, Logged.after] using infos_cmd c hw
          | _ => exact infos_cmd c hw
      | _ => exact infos_cmd c nofun

theorem fileLog_infos {st st' : ShState} {gc gc' : GCtx} {cs : List (Out Scoped)} {l : List LogLine}
    (h : fileLog k opt st gc cs = ⟨l, st', gc', .ok ()⟩) : infos l = cs.flatMap itemInfo := by
  induction cs generalizing st gc l with
  | nil => cases h; rfl
  | cons c cs ih =>
    rw [fileLog_one] at h
    have hi := fileLog_item (k := k) (opt := opt) st gc c
    rcases h1 : fileLog k opt st gc [c] with ⟨l1, st1, gc1, o⟩
    rw [h1] at h hi
    cases o with
    | ok u =>
      simp only [Logged.after] at h hi
      have hv : (fileLog k opt st1 gc1 cs).val = (st', gc', .ok ()) := congrArg Logged.val h
      have hl : l1 ++ (fileLog k opt st1 gc1 cs).log = l := congrArg Logged.log h
      rw [← hl, infos_append, hi, List.flatMap_cons, ih (l := (fileLog k opt st1 gc1 cs).log) (by rw [← hv])]
    | err e => simp at h
    | panic => simp at h
    | timeout => simp at h

/-- where a file fails -/
theorem fileLog_fails {st : ShState} {gc : GCtx} {cs : List (Out Scoped)} (h : (fileLog k opt st gc cs).val.2.2.isOk = false) :
    ∃ cs1 c cs2 l st1 gc1, cs = cs1 ++ c :: cs2 ∧ fileLog k opt st gc cs1 = ⟨l, st1, gc1, .ok ()⟩ ∧
      (fileLog k opt st1 gc1 [c]).val.2.2.isOk = false ∧ fileLog k opt st gc cs = (fileLog k opt st1 gc1 [c]).after l := by
  induction cs generalizing st gc with
  | nil => simp [fileLog, Out.isOk] at h
  | cons c cs ih =>
    rw [fileLog_one] at h
    rcases h1 : fileLog k opt st gc [c] with ⟨l1, st1, gc1, o⟩
    by_cases ho : o.isOk = true
    · cases o with
      | ok u =>
        rw [h1] at h
        obtain ⟨cs1, c', cs2, l, st2, gc2, rfl, h2, h3, h4⟩ := ih (st := st1) (gc := gc1) h
        refine ⟨c :: cs1, c', cs2, l1 ++ l, st2, gc2, rfl, ?_, h3, ?_⟩
        · rw [fileLog_one, h1]
          simp only
          rw [h2]
          rfl
        · rw [fileLog_one, h1]
          simp only
          rw [h4]
          simp [Logged.after]
      | _ => simp [Out.isOk] at ho
    · refine ⟨[], c, cs, [], st, gc, rfl, rfl, ?_, ?_⟩
      · rw [h1]
        simpa using ho
      · rw [fileLog_one, h1]
        cases o with
        | ok u => simp [Out.isOk] at ho
        | _ => rfl

/-- the value of an outcome that is not right -/
def Out.unit {α : Type} : Out α → Out Unit
  | .ok _ => .ok ()
  | .err e => .err e
  | .panic => .panic
  | .timeout => .timeout

/-- where a run fails -/
theorem runFilesLog_fails {st : ShState} {gc : GCtx} {files : List (Out ParsedFile)} (h : (runFilesLog k opt st gc files).val.2.isOk = false) :
    (∃ pre x post, files = pre ++ x :: post ∧ x.isOk = false ∧ (runFilesLog k opt st gc pre).val.2 = .ok () ∧
      (runFilesLog k opt st gc files).log = (runFilesLog k opt st gc pre).log ∧ (runFilesLog k opt st gc files).val.2 = x.unit) ∨
    ∃ pre f post cs1 c cs2, files = pre ++ .ok f :: post ∧ f.cmds = cs1 ++ c :: cs2 ∧
      (runFilesLog k opt st gc (pre ++ [.ok ⟨f.path, cs1⟩])).val.2 = .ok () ∧
      runFilesLog k opt st gc (pre ++ [.ok ⟨f.path, cs1 ++ [c]⟩]) = runFilesLog k opt st gc files ∧
      infos (runFilesLog k opt st gc files).log = infos (runFilesLog k opt st gc (pre ++ [.ok ⟨f.path, cs1⟩])).log ++ itemInfo c := by
  induction files generalizing st gc with
  | nil => simp [runFilesLog, Out.isOk] at h
  | cons f fs ih =>
    cases f with
    | err e => exact .inl ⟨[], .err e, fs, rfl, rfl, rfl, rfl, rfl⟩
    | panic => exact .inl ⟨[], .panic, fs, rfl, rfl, rfl, rfl, rfl⟩
    | timeout => exact .inl ⟨[], .timeout, fs, rfl, rfl, rfl, rfl, rfl⟩
    | ok f =>
      by_cases ho : (fileLog k opt { st with syms := st.syms.setPath f.path } gc f.cmds).val.2.2.isOk = true
      · rw [runFilesLog] at h
        rcases hf : fileLog k opt { st with syms := st.syms.setPath f.path } gc f.cmds with ⟨l, st1, gc1, o⟩
        rw [hf] at h ho
        cases o with
        | ok u =>
          have key : ∀ gs, runFilesLog k opt st gc (.ok f :: gs) = (runFilesLog k opt st1 gc1 gs).after l := by
            intro gs
            rw [runFilesLog, hf]
          rcases ih (st := st1) (gc := gc1) h with ⟨pre, x, post, rfl, h1, h2, h3, h4⟩ | ⟨pre, g, post, cs1, c, cs2, rfl, h1, h2, h3, h4⟩
          · refine .inl ⟨.ok f :: pre, x, post, rfl, h1, ?_, ?_, ?_⟩
            · rw [key]; exact h2
            · rw [key, key]; exact congrArg (l ++ ·) h3
            · rw [key]; exact h4
          · refine .inr ⟨.ok f :: pre, g, post, cs1, c, cs2, rfl, h1, ?_, ?_, ?_⟩
            · rw [List.cons_append, key]; exact h2
            · rw [List.cons_append, key, key, h3]
            · rw [List.cons_append, key, key]
              simp only [Logged.after, infos_append, h4, List.append_assoc]
        | _ => simp [Out.isOk] at ho
      · have ho := Bool.eq_false_iff.2 ho
        obtain ⟨cs1, c, cs2, l, st1, gc1, hc, h1, h2, h3⟩ := fileLog_fails ho
        have hone : fileLog k opt { st with syms := st.syms.setPath f.path } gc (cs1 ++ [c]) = (fileLog k opt st1 gc1 [c]).after l := by
          rw [fileLog_append, h1]
        refine .inr ⟨[], f, fs, cs1, c, cs2, rfl, hc, ?_, ?_, ?_⟩
        · simp only [List.nil_append, runFilesLog, h1, Logged.after]
        · simp only [List.nil_append, runFilesLog, hone, h3]
          rcases hl : (fileLog k opt st1 gc1 [c]).after l with ⟨l', st2, gc2, o⟩
          have : o.isOk = false := by
            have := h3 ▸ ho
            rw [hl] at this
            exact this
          cases o with
          | ok u => simp [Out.isOk] at this
          | _ => rfl
        · have hi := fileLog_item (k := k) (opt := opt) st1 gc1 c
          simp only [List.nil_append, runFilesLog, h1, h3, Logged.after]
          rcases hl : fileLog k opt st1 gc1 [c] with ⟨l', st2, gc2, o⟩
          rw [hl] at h2 hi
          cases o with
          | ok u => simp [Out.isOk] at h2
          | _ => simp only [infos_append]; rw [hi]; simp [infos]

theorem runFilesLog_infos {st : ShState} {gc gc' : GCtx} {files : List ParsedFile} {l : List LogLine}
    (h : runFilesLog k opt st gc (files.map .ok) = ⟨l, gc', .ok ()⟩) : infos l = files.flatMap fun f => f.cmds.flatMap itemInfo := by
  induction files generalizing st gc l with
  | nil => cases h; rfl
  | cons f fs ih =>
    rw [List.map_cons, runFilesLog] at h
    rcases hf : fileLog k opt { st with syms := st.syms.setPath f.path } gc f.cmds with ⟨l1, st1, gc1, o⟩
    rw [hf] at h
    cases o with
    | ok u =>
      simp only [Logged.after] at h
      have hv : (runFilesLog k opt st1 gc1 (fs.map .ok)).val = (gc', .ok ()) := congrArg Logged.val h
      have hl : l1 ++ (runFilesLog k opt st1 gc1 (fs.map .ok)).log = l := congrArg Logged.log h
      rw [← hl, infos_append, List.flatMap_cons, fileLog_infos hf, ih (l := (runFilesLog k opt st1 gc1 (fs.map .ok)).log) (by rw [← hv])]
    | _ => simp at h

/-! ## Programs -/

/-- the lines about a command -/
def entryLines (c : Scoped) (cmd : Cmd) : List LogLine := logCmd c :: cmd.warnings

theorem fileLog_lines (ho : opt.omitted = none) {st st' : ShState} {gc gc' : GCtx} {cs : List Scoped} {cmds : List Cmd} {l : List LogLine}
    (h : fileLog k opt st gc (cs.map .ok) = ⟨l, st', gc', .ok ()⟩) (hs : (shareAll st (cs.map .ok)).2 = cmds.map .ok) :
    l = (List.zipWith entryLines cs cmds).flatten := by
  induction cs generalizing st gc l cmds with
  | nil => cases h; rfl
  | cons c cs ih =>
    rw [List.map_cons, fileLog, Opt.omits_none ho, Opt.omits_none ho] at h
    rw [List.map_cons, shareAll] at hs
    cases cmds with
    | nil => simp at hs
    | cons cmd cmds =>
      simp only [List.map_cons, List.cons.injEq, shareStep] at hs
      obtain ⟨h1, h2⟩ := hs
      rcases hc : shareCmd st c with ⟨st1, o⟩
      rw [hc] at h h1 h2
      simp only at h1
      subst h1
      simp only [Bool.false_eq_true, if_false] at h
      rcases hi : inferCheckLog k opt gc cmd with ⟨l1, gc1, o⟩
      rw [hi] at h
      cases o with
      | ok u =>
        simp only [Logged.after] at h
        have hv : (fileLog k opt st1 gc1 (cs.map .ok)).val = (st', gc', .ok ()) := congrArg Logged.val h
        have hl : logCmd c :: l1 ++ (fileLog k opt st1 gc1 (cs.map .ok)).log = l := congrArg Logged.log h
        rw [← hl, inferCheckLog_ok hi, List.zipWith_cons_cons, List.flatten_cons,
          ih (l := (fileLog k opt st1 gc1 (cs.map .ok)).log) (by rw [← hv]) h2]
        rfl
      | _ => simp at h

theorem PatTm.full {f : PSymb → Sym} {n : Nat} {t : PTerm Atom} {p : Pattern} {u : Tm} (hu : PatTm p u) (h : PatOf f n t p) : ¬ OccursIn n t := by
  induction h generalizing u with
  | var hi =>
    intro h
    cases h with
    | here => exact hi rfl
    | arg h _ => cases h
  | wild => cases hu
  | @symb c args ps hl _ ih =>
    intro h
    cases h with
    | arg ha ho =>
      obtain ⟨i, hi, rfl⟩ := List.getElem_of_mem ha
      cases hu with
      | @symb _ _ ts hlen hp =>
        have h1 : i < ps.length := hl ▸ hi
        have h2 : i < ts.length := hlen ▸ h1
        exact ih i hi h1 (hp i _ _ (List.getElem?_eq_getElem h1) (List.getElem?_eq_getElem h2)) ho

theorem RuleShared.full_iff {R : PSymb → Sym → Prop} {r : PRule (PTerm PSymb)} {r' : Rule} (h : RuleShared R r r') : r'.Full ↔ r.Full := by
  refine ⟨?_, h.full⟩
  obtain ⟨f, hm, hctx, -⟩ := h
  rintro ⟨Γ, l, u, tys, h1, -, h2, -⟩
  refine ⟨?_, h2.full hm.lhs⟩
  have hsome : ∀ (l : List (Str × Option (PTerm PSymb))) (env : List (Option Str)) (tys : List LTerm),
      ((scopeTele (fun env ty => ty.map (PTerm.scope env)) env l).map fun a => (a.1, PTerm.resolveOpt f a.2)).map Prod.snd = tys.map some →
      ∀ a ∈ l, a.2.isSome := by
    intro l
    induction l with
    | nil => exact fun _ _ _ => nofun
    | cons a l ih =>
      intro env tys h
      obtain ⟨x, o⟩ := a
      rw [scopeTele, List.map_cons, List.map_cons] at h
      cases tys with
      | nil => simp at h
      | cons ty tys =>
        rw [List.map_cons] at h
        obtain ⟨h3, h4⟩ := List.cons.inj h
        rw [List.forall_mem_cons]
        refine ⟨?_, ih _ tys h4⟩
        cases o with
        | none => simp [PTerm.resolveOpt] at h3
        | some ty => rfl
  rw [hctx] at h1
  exact hsome r.ctx [] tys h1

theorem warnings_shared {R : PSymb → Sym → Prop} {rs : List (PRule (PTerm PSymb))} {rs' : List Rule} (h : List.Forall₂ (RuleShared R) rs rs') :
    warnings rs' = List.replicate (incomplete rs) .unannotated := by
  induction h with
  | nil => rfl
  | @cons r r' rs rs' hr _ ih =>
    unfold warnings incomplete
    rw [List.countP_cons]
    have := hr.full_iff
    rw [Rule.full_iff] at this
    by_cases hf : r.Full
    · rw [if_pos (this.2 hf), ih]
      simp [hf, incomplete]
    · rw [if_neg (fun h => hf (this.1 h)), ih]
      simp [hf, incomplete, List.replicate_succ]

theorem Shared.log {ns : List (List Str × Str)} {es : List Entry} {cmds : List Cmd} (h : Shared ns es cmds) :
    LogOf es (List.zipWith entryLines (es.map fun e => e.cmd.scope) cmds).flatten := by
  induction h with
  | nil => exact .nil
  | intro _ _ _ ih => exact .intro ih
  | rules hr _ ih =>
    have := LogOf.rules (m := by assumption) (rs := by assumption) ih
    rw [← warnings_shared hr] at this
    simpa [entryLines, PCmd.scope, logCmd, Cmd.warnings] using this

theorem LogOf.unannotated {es : List Entry} {ls : List LogLine} (h : LogOf es ls) (hw : ∀ x ∈ ls, x.isWarn = false) :
    ∀ m rs, ⟨m, .rules rs⟩ ∈ es → ∀ r ∈ rs, r.Full := by
  induction h with
  | nil => simp
  | intro _ ih =>
    intro m rs hm
    rcases List.mem_cons.1 hm with hm | hm
    · cases hm
    · exact ih (fun x hx => hw x (List.mem_cons_of_mem _ hx)) m rs hm
  | @rules m' rs' es ls _ ih =>
    intro m rs hm r hr
    rcases List.mem_cons.1 hm with hm | hm
    · cases hm
      by_contra hf
      have hpos : 0 < incomplete rs' := by
        rw [incomplete, List.countP_pos_iff]
        exact ⟨r, hr, by simpa using hf⟩
      have := hw .unannotated (by
        refine List.mem_append_left _ (List.mem_cons_of_mem _ ?_)
        rw [List.mem_replicate]
        exact ⟨by omega, rfl⟩)
      cases this
    · exact ih (fun x hx => hw x (List.mem_append_right _ hx)) m rs hm r hr

theorem LogOf.functional {es : List Entry} {ls ls' : List LogLine} (h : LogOf es ls) (h' : LogOf es ls') : ls = ls' := by
  induction h generalizing ls' with
  | nil => cases h'; rfl
  | intro _ ih => cases h' with | intro h' => rw [ih h']
  | rules _ ih => cases h' with | rules h' => rw [ih h']

theorem runFilesLog_lines (ho : opt.omitted = none) {srcs : List (List Str × Str)} {es : List Entry} (hp : ProgramOf srcs es)
    {st : ShState} {ns : List (List Str × Str)} (h : SymInv st ns) {cmds : List Cmd} (hs : Shared ns es cmds) {gc gc' : GCtx} {l : List LogLine}
    (hr : runFilesLog k opt st gc ((srcs.map fun a => (⟨a.1, parseText a.2⟩ : ParsedFile)).map .ok) = ⟨l, gc', .ok ()⟩) :
    l = (List.zipWith entryLines (es.map fun e => e.cmd.scope) cmds).flatten := by
  have hkeep : ∀ cs : List (Out Scoped), cs.filter (keepShare opt) = cs := by
    intro cs
    rw [List.filter_eq_self]
    intro c _
    simp [keepShare, Opt.omits, ho]
  induction hp generalizing st ns cmds gc l with
  | nil => cases hs; cases hr; rfl
  | @cons m text cs srcs es ht _ ih =>
    have hinv := h.setPath m
    have hpath : (st.syms.setPath m).path = m := Symbols.setPath_path
    obtain ⟨cmds1, cmds2, rfl, h1, h2, h3⟩ := shareAll_complete hinv (cs := cs) (es := es) (cmds := cmds) (by rw [hpath]; exact hs)
    have hseq := (fileLog_seq (k := k) (opt := opt) { st with syms := st.syms.setPath m } gc (parseText text)).2
    rw [List.map_cons, List.map_cons, runFilesLog] at hr
    rcases hf : fileLog k opt { st with syms := st.syms.setPath m } gc (parseText text) with ⟨l1, st1, gc1, o⟩
    rw [hf] at hr hseq
    rw [hkeep, parseText_of ht] at hseq
    cases o with
    | ok u =>
      have hst : st1 = _ := hseq rfl
      simp only [Logged.after] at hr
      have hv : (runFilesLog k opt st1 gc1 ((srcs.map fun a => (⟨a.1, parseText a.2⟩ : ParsedFile)).map .ok)).val = (gc', .ok ()) := congrArg Logged.val hr
      have hl : l1 ++ (runFilesLog k opt st1 gc1 ((srcs.map fun a => (⟨a.1, parseText a.2⟩ : ParsedFile)).map .ok)).log = l := congrArg Logged.log hr
      rw [parseText_of ht] at hf
      have e1 : l1 = (List.zipWith entryLines (cs.map PCmd.scope) cmds1).flatten := by
        have hf' : fileLog k opt { st with syms := st.syms.setPath m } gc ((cs.map PCmd.scope).map .ok) = ⟨l1, st1, gc1, .ok ()⟩ := by
          rw [List.map_map]; exact hf
        exact fileLog_lines ho (cmds := cmds1) hf' (by rw [List.map_map]; exact h1)
      have e2 := ih (st := st1) (gc := gc1) (l := (runFilesLog k opt st1 gc1 ((srcs.map fun a => (⟨a.1, parseText a.2⟩ : ParsedFile)).map .ok)).log) (by rw [hst]; exact h2) h3
        (by rw [← hv])
      have hlen : cs.length = cmds1.length := by
        have := congrArg List.length h1
        rw [shareAll_length] at this
        simpa using this
      rw [← hl, e2, e1, List.map_append, List.zipWith_append (by simpa using hlen), List.flatten_append, List.map_map]
      rfl
    | _ => simp at hr

end Kontroli
