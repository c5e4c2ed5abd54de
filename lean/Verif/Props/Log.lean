import Verif.Proofs.Log
import Verif.Props.Correct

/-!
# C67: what a run logs

A run on files without threads logs one line for every command that it reads, and a warning for every rule that it does not check.  So a program that is
accepted without a warning had all of its rules checked.
-/

namespace Kontroli

/-- C67. Reading, logging, sharing and checking one command after another gives the same verdict and the same context as the model without log, in which the
commands of a file are shared before any of them is checked. -/
theorem C67_run (k : Kern) (opt : Opt) (hj : opt.jobs = false) (files : List (Out ParsedFile)) (gc : GCtx) (res : Out Unit) :
    Run k opt files gc res ↔ (runLog k opt files).val = (gc, res) := runFilesLog_iff hj

/-- **C67.** The log of a run that is accepted: the texts are a program, and there is one line for every command, in order; after the line for some rules there is one
warning for each of them that has a variable without type or a `_` on its left-hand side, and there are no other lines. -/
theorem C67_accepted (k : Kern) (opt : Opt) (ho : opt.omitted = none) (hj : opt.jobs = false) (fs : FileSystem) (stdin : Str) (paths : List Str) (gc : GCtx)
    (h : (runLog k opt (openFiles fs stdin paths)).val = (gc, .ok ())) :
    ∃ srcs es, Sources fs stdin paths srcs ∧ ProgramOf srcs es ∧ LogOf es (runLog k opt (openFiles fs stdin paths)).log := by
  have h0 := (C67_run k opt hj _ _ _).2 h
  unfold Run at h0
  obtain ⟨files, hf⟩ := runFiles_ok_files h0
  rw [hf] at h0
  have hrun := runFiles_ok_iff.1 h0
  obtain ⟨srcs, es, cmds, h1, h2, h3, h4⟩ := program_spec ho fs paths stdin ShState.new [] files .new hf (inferChecksSeq_ok_mem hrun)
  refine ⟨srcs, es, h1, h2, ?_⟩
  rw [openFiles_complete h1] at h ⊢
  unfold runLog at h ⊢
  rw [runFilesLog_lines ho h2 .new h4 (l := (runFilesLog k opt ShState.new (GCtx.start opt.eta) _).log) (gc' := gc) (by rw [← h])]
  exact h4.log

/-- C67. Every warning is there: if a run is accepted without a warning then all variables of rules have types, and there is no `_` on a left-hand side.  Hence all rules were checked. -/
theorem C67_silent (k : Kern) (opt : Opt) (ho : opt.omitted = none) (hj : opt.jobs = false) (fs : FileSystem) (stdin : Str) (paths : List Str) (gc : GCtx)
    (h : (runLog k opt (openFiles fs stdin paths)).val = (gc, .ok ()))
    (hw : .unannotated ∉ (runLog k opt (openFiles fs stdin paths)).log) :
    ∃ srcs es, Sources fs stdin paths srcs ∧ ProgramOf srcs es ∧ ∀ m rs, ⟨m, .rules rs⟩ ∈ es → ∀ r ∈ rs, r.Full := by
  obtain ⟨srcs, es, h1, h2, h3⟩ := C67_accepted k opt ho hj fs stdin paths gc h
  refine ⟨srcs, es, h1, h2, h3.unannotated fun x hx => ?_⟩
  cases x with
  | unannotated => exact absurd hx hw
  | _ => rfl

/-- **C67.** If a run is accepted without a warning then the program is correct, when the types of the variables of rules are right and the rules are orthogonal
(or, with eta, only unfold definitions). -/
theorem C67_correct (k : Kern) (hk : k.Real) (opt : Opt) (ho : opt.omitted = none) (hj : opt.jobs = false) (fs : FileSystem) (stdin : Str) (paths : List Str)
    (hR : ∀ srcs es cmds, Sources fs stdin paths srcs → ProgramOf srcs es → Shared [] es cmds →
      CtxsRightIn opt.eta cmds ∧ Amenable opt.eta (rulesOfCmds cmds)) (gc : GCtx)
    (h : (runLog k opt (openFiles fs stdin paths)).val = (gc, .ok ()))
    (hw : .unannotated ∉ (runLog k opt (openFiles fs stdin paths)).log) :
    ∃ srcs es, Sources fs stdin paths srcs ∧ ProgramOf srcs es ∧ CorrectIn opt.eta es gc.theory ∧ Directed es := by
  obtain ⟨srcs, es, h1, h2, h3⟩ := C67_silent k opt ho hj fs stdin paths gc h hw
  refine C66_sound k hk opt ho fs stdin paths (fun srcs' es' h1' h2' => ?_) gc ((C67_run k opt hj _ _ _).2 h)
  obtain ⟨e1, e2⟩ := C41_unique fs stdin paths srcs srcs' es es' h1 h1' h2 h2'
  subst e1 e2
  exact ⟨h3, fun cmds hs => (hR _ _ cmds h1 h2 hs).1, fun cmds hs => (hR _ _ cmds h1 h2 hs).2⟩

/-- C67. Whatever is omitted, an accepted run logs one line for every command of every file, in order (and warnings between them). -/
theorem C67_infos (k : Kern) (opt : Opt) (files : List ParsedFile) (gc : GCtx) (h : (runLog k opt (files.map .ok)).val = (gc, .ok ())) :
    infos (runLog k opt (files.map .ok)).log = files.flatMap fun f => f.cmds.flatMap itemInfo :=
  runFilesLog_infos (by rw [← h]; rfl)

/-- **C67.** The log of a run that fails.  Either a file cannot be opened: the files before it are accepted, and have the same log.  Or a file has an item `c`,
which is a command or a syntax error, such that the run on the files before and on the items before `c` is accepted; the run that ends with `c` has the same log and
the same result as the whole run; and its lines about commands are the lines for the items before `c` and, if `c` is a command, the line for `c`.  So the last line that is
not a warning names the command at fault. -/
theorem C67_failure (k : Kern) (opt : Opt) (files : List (Out ParsedFile)) (h : (runLog k opt files).val.2.isOk = false) :
    (∃ pre x post, files = pre ++ x :: post ∧ x.isOk = false ∧ (runLog k opt pre).val.2 = .ok () ∧
      (runLog k opt files).log = (runLog k opt pre).log ∧ (runLog k opt files).val.2 = x.unit) ∨
    ∃ pre f post cs1 c cs2, files = pre ++ .ok f :: post ∧ f.cmds = cs1 ++ c :: cs2 ∧
      (runLog k opt (pre ++ [.ok ⟨f.path, cs1⟩])).val.2 = .ok () ∧
      runLog k opt (pre ++ [.ok ⟨f.path, cs1 ++ [c]⟩]) = runLog k opt files ∧
      infos (runLog k opt files).log = infos (runLog k opt (pre ++ [.ok ⟨f.path, cs1⟩])).log ++ itemInfo c :=
  runFilesLog_fails h

/-- C67. The lines for a command of rules, whether it is accepted or not: the line for the command, and one warning for each rule that is not checked, up to the first rule that is
found to be wrong. -/
theorem C67_rules (k : Kern) (opt : Opt) (hs : opt.omits .share = false) (hi : opt.omits .infer = false) (st st1 : ShState) (gc : GCtx) (c : Scoped) (rs : List Rule)
    (h : shareCmd st c = (st1, .ok (.rules rs))) :
    ∃ rs1, rs1 <+: rs ∧ (fileLog k opt st gc [.ok c]).log = logCmd c :: List.replicate (unchecked rs1) .unannotated ∧
      (rewriteAll k (fun _ c gc => if opt.omits .check then .ok () else (k.check gc c).out) gc rs1 ()).isOk = true ∧
      (rs1 = rs ∨ ∃ r, rs1 ++ [r] <+: rs ∧ r.Full ∧
        (rewriteAll k (fun _ c gc => if opt.omits .check then .ok () else (k.check gc c).out) gc (rs1 ++ [r]) ()).isOk = false) := by
  obtain ⟨rs1, h1, h2, h3, h4⟩ := rewriteAllLog_log (k := k) (fun _ c gc => if opt.omits .check then .ok () else (k.check gc c).out) gc rs ()
  refine ⟨rs1, h1, ?_, h3, h4⟩
  rw [← h2, ← inferCheckLog_log, fileLog, hs, hi, h]
  simp only [Bool.false_eq_true, if_false]
  rcases inferCheckLog k opt gc (.rules rs) with ⟨l, gc1, o⟩
  cases o <;> simp [fileLog, Logged.after]

/-- C67. Different lines have different texts. -/
theorem C67_text (x y : LogLine) (h : x.text = y.text) : x = y := by
  have hc : x.text.head? = y.text.head? := congrArg List.head? h
  cases x with
  | introduce a =>
    cases y with
    | introduce b => rw [show a = b from List.append_cancel_left (as := str "Introduce symbol ") h]
    | add m => cases hc
    | unannotated => cases hc
  | add n =>
    cases y with
    | introduce b => cases hc
    | add m =>
      have h : str "Add " ++ decimal n ++ str " rules" = str "Add " ++ decimal m ++ str " rules" := h
      generalize str "Add " = a, str " rules" = b at h
      rw [List.append_assoc, List.append_assoc] at h
      rw [decimal_inj (List.append_cancel_right (List.append_cancel_left h))]
    | unannotated => cases hc
  | unannotated =>
    cases y with
    | introduce b => cases hc
    | add m => cases hc
    | unannotated => rfl

/-! ## Examples -/

/-- two rules of three are not checked -/
def Example.logText : Str :=
  str "N : Type. 0 : N. def f : N -> N.\n[x] f x --> 0 [y : N] f y --> y [] f _ --> 0.\nthm t : N := f 0."

/-- the same with a mistake before the last command -/
def Example.logBad : Str :=
  str "N : Type. 0 : N. def f : N -> N.\n[x] f x --> 0 [y : N] f y --> f [] f _ --> 0.\nthm t : N := f 0."

/-- a file with a text -/
def Example.logFile (text : Str) : List (Out ParsedFile) := [.ok ⟨[str "m"], parseText text⟩]

set_option maxRecDepth 100000 in
example : (runLog (Kern.std 1000 fun _ => true) ⟨false, none, false⟩ (Example.logFile Example.logText)).log =
    [.introduce (str "N"), .introduce (str "0"), .introduce (str "f"), .add 3, .unannotated, .unannotated, .introduce (str "t")] := by
  decide +kernel

set_option maxRecDepth 100000 in
example : (runLog (Kern.std 1000 fun _ => true) ⟨false, none, false⟩ (Example.logFile Example.logText)).val.2.isOk = true := by
  decide +kernel

set_option maxRecDepth 100000 in
example : (runLog (Kern.std 1000 fun _ => true) ⟨false, none, false⟩ (Example.logFile Example.logBad)).log =
      [.introduce (str "N"), .introduce (str "0"), .introduce (str "f"), .add 3, .unannotated] ∧
    (runLog (Kern.std 1000 fun _ => true) ⟨false, none, false⟩ (Example.logFile Example.logBad)).val.2.isOk = false := by
  decide +kernel

set_option maxRecDepth 100000 in
example : (runLog (Kern.std 1000 fun _ => true) ⟨false, some .infer, false⟩ (Example.logFile Example.logBad)).log =
      [.introduce (str "N"), .introduce (str "0"), .introduce (str "f"), .add 3, .introduce (str "t")] ∧
    (runLog (Kern.std 1000 fun _ => true) ⟨false, some .infer, false⟩ (Example.logFile Example.logBad)).val.2.isOk = true := by
  decide +kernel

set_option maxRecDepth 100000 in
example : (runLog (Kern.std 1000 fun _ => true) ⟨false, none, false⟩ (Example.logFile Example.goodText)).val.2.isOk = true ∧
    .unannotated ∉ (runLog (Kern.std 1000 fun _ => true) ⟨false, none, false⟩ (Example.logFile Example.goodText)).log := by
  decide +kernel

set_option maxRecDepth 100000 in
example : (runLog (Kern.std 1000 fun _ => true) ⟨false, none, false⟩ [.ok ⟨[str "m"], parseText (str "A : Type.\nB : Type C")⟩]).log = [.introduce (str "A")] := by
  decide +kernel

example : (LogLine.add 12).text = str "Add 12 rules" ∧ (LogLine.introduce (str "f")).text = str "Introduce symbol f" := by decide +kernel

#print axioms C67_run
#print axioms C67_accepted
#print axioms C67_silent
#print axioms C67_correct
#print axioms C67_infos
#print axioms C67_failure
#print axioms C67_rules
#print axioms C67_text

end Kontroli
