import Verif.Proofs.CorrectProgram
import Verif.Proofs.Overlap
import Verif.Proofs.StaticProgram

/-!
# C49: what is accepted is exactly what is correct
-/

namespace Kontroli

/-! ## Sessions -/

/-- C66. Accepted commands are right by the textbook, and make the theory of the final context. -/
theorem C66_session_sound (k : Kern) (hk : k.Real) (opt : Opt) (eta : Bool) (ho : opt.omits .check = false) (cmds : List Cmd)
    (hf : ∀ rs, Cmd.rules rs ∈ cmds → ∀ r ∈ rs, r.Full) (hw : CtxsRightIn eta cmds) (hO : Amenable eta (rulesOfCmds cmds)) (gc : GCtx)
    (h : seqLoop k opt (GCtx.start eta) (cmds.map .ok) = (gc, .ok ())) : SessionIn eta cmds gc.theory := by
  refine (session_sound hk ho hf hw ?_ h).1
  rintro pre post rfl gci hi
  rw [List.map_append, seqLoop_append, hi] at h
  rw [← (seqLoop_rulesEq hk (cmds := pre ++ post) (gc' := gc) (by rw [List.map_append, seqLoop_append, hi]; exact h)).1] at hO
  refine Amenable.church ?_ (seqLoop_rulesEq hk hi).2
  rw [show gci.eta = eta from seqLoop_eta hi]
  exact Amenable.grows (seqLoop_grows h) hO

/-- C66. In accepted commands, every abstraction without a type stands where its type is known. -/
theorem C66_session_known (k : Kern) (hk : k.Real) (opt : Opt) (eta : Bool) (ho : opt.omits .check = false) (cmds : List Cmd)
    (hf : ∀ rs, Cmd.rules rs ∈ cmds → ∀ r ∈ rs, r.Full) (gc : GCtx)
    (h : seqLoop k opt (GCtx.start eta) (cmds.map .ok) = (gc, .ok ())) : ∀ cmd ∈ cmds, cmd.Known :=
  seqLoop_known hk ho (fun rs hrs r hr => Rule.full_iff.1 (hf rs hrs r hr)) h

/-- C66. Commands that are right by the textbook are accepted, if every abstraction without a type stands where its type is known, and the fuel
suffices. -/
theorem C66_session_complete (k : Kern) (hk : k.Exact) (opt : Opt) (eta : Bool) (ho : opt.omits .check = false) (cmds : List Cmd)
    (ha : ∀ cmd ∈ cmds, cmd.Known) (hp : ∀ cmd ∈ cmds, cmd.Proper) (hO : Amenable eta (rulesOfCmds cmds)) (T : Theory) (h : SessionIn eta cmds T) :
    (seqLoop k opt (GCtx.start eta) (cmds.map .ok)).2 = .ok () ∨ (seqLoop k opt (GCtx.start eta) (cmds.map .ok)).2 = .timeout := by
  rcases session_complete hk ho h ha hp (by rw [h.rulesEq]; exact hO) with ⟨gc, h1, -⟩ | h1
  · exact .inl (by rw [h1])
  · exact .inr h1

/-- C66. If the checks of some commands come to an end, the commands are accepted iff they are right by the textbook and every
abstraction without a type stands where its type is known. -/
theorem C66_session_exact (k : Kern) (hk : k.Exact) (opt : Opt) (eta : Bool) (ho : opt.omits .check = false) (cmds : List Cmd)
    (hp : ∀ cmd ∈ cmds, cmd.Proper) (hf : ∀ rs, Cmd.rules rs ∈ cmds → ∀ r ∈ rs, r.Full)
    (hw : CtxsRightIn eta cmds) (hO : Amenable eta (rulesOfCmds cmds)) (hd : (seqLoop k opt (GCtx.start eta) (cmds.map .ok)).2 ≠ .timeout) :
    (seqLoop k opt (GCtx.start eta) (cmds.map .ok)).2 = .ok () ↔ (∃ T, SessionIn eta cmds T) ∧ ∀ cmd ∈ cmds, cmd.Known := by
  constructor
  · intro h
    exact ⟨⟨_, C66_session_sound k hk.real opt eta ho cmds hf hw hO _ (Prod.ext rfl h)⟩, C66_session_known k hk.real opt eta ho cmds hf _ (Prod.ext rfl h)⟩
  · rintro ⟨⟨T, h⟩, ha⟩
    exact (C66_session_complete k hk opt eta ho cmds ha hp hO T h).resolve_right hd

/-- C49. Accepted commands are right by the textbook, and make the theory of the final context. -/
theorem C49_session_sound (k : Kern) (hk : k.Real) (opt : Opt) (ho : opt.omits .check = false) (cmds : List Cmd)
    (hf : ∀ rs, Cmd.rules rs ∈ cmds → ∀ r ∈ rs, r.Full) (hw : CtxsRight cmds) (hO : Orthogonal (rulesOfCmds cmds)) (gc : GCtx)
    (h : seqLoop k opt (GCtx.start false) (cmds.map .ok) = (gc, .ok ())) : Session cmds gc.theory :=
  C66_session_sound k hk opt false ho cmds hf hw hO gc h

/-- C49. In accepted commands, every abstraction without a type stands where its type is known. -/
theorem C49_session_known (k : Kern) (hk : k.Real) (opt : Opt) (ho : opt.omits .check = false) (cmds : List Cmd)
    (hf : ∀ rs, Cmd.rules rs ∈ cmds → ∀ r ∈ rs, r.Full) (gc : GCtx)
    (h : seqLoop k opt (GCtx.start false) (cmds.map .ok) = (gc, .ok ())) : ∀ cmd ∈ cmds, cmd.Known :=
  C66_session_known k hk opt false ho cmds hf gc h

/-- C49. Commands that are right by the textbook are accepted, if every abstraction without a type stands where its type is known, and the fuel
suffices. -/
theorem C49_session_complete (k : Kern) (hk : k.Exact) (opt : Opt) (ho : opt.omits .check = false) (cmds : List Cmd)
    (ha : ∀ cmd ∈ cmds, cmd.Known) (hp : ∀ cmd ∈ cmds, cmd.Proper) (hO : Orthogonal (rulesOfCmds cmds)) (T : Theory) (h : Session cmds T) :
    (seqLoop k opt (GCtx.start false) (cmds.map .ok)).2 = .ok () ∨ (seqLoop k opt (GCtx.start false) (cmds.map .ok)).2 = .timeout :=
  C66_session_complete k hk opt false ho cmds ha hp hO T h

/-- C49. If the checks of some commands come to an end, the commands are accepted iff they are right by the textbook and every
abstraction without a type stands where its type is known. -/
theorem C49_session_exact (k : Kern) (hk : k.Exact) (opt : Opt) (ho : opt.omits .check = false) (cmds : List Cmd)
    (hp : ∀ cmd ∈ cmds, cmd.Proper) (hf : ∀ rs, Cmd.rules rs ∈ cmds → ∀ r ∈ rs, r.Full)
    (hw : CtxsRight cmds) (hO : Orthogonal (rulesOfCmds cmds)) (hd : (seqLoop k opt (GCtx.start false) (cmds.map .ok)).2 ≠ .timeout) :
    (seqLoop k opt (GCtx.start false) (cmds.map .ok)).2 = .ok () ↔ (∃ T, Session cmds T) ∧ ∀ cmd ∈ cmds, cmd.Known :=
  C66_session_exact k hk opt false ho cmds hp hf hw hO hd

/-! ## Programs -/

/-- C66. If a run on some paths is accepted, then the paths mean texts, the texts are a program, the program is correct, and every
abstraction without a type stands where its type is known. -/
theorem C66_sound (k : Kern) (hk : k.Real) (opt : Opt) (ho : opt.omitted = none) (fs : FileSystem) (stdin : Str)
    (paths : List Str) (hR : ∀ srcs es, Sources fs stdin paths srcs → ProgramOf srcs es → RegularIn opt.eta es) (gc : GCtx)
    (h : RunPaths k opt fs stdin paths gc (.ok ())) :
    ∃ srcs es, Sources fs stdin paths srcs ∧ ProgramOf srcs es ∧ CorrectIn opt.eta es gc.theory ∧ Directed es := by
  obtain ⟨files, hf⟩ := runFiles_ok_files h
  unfold RunPaths Run at h
  rw [hf] at h
  have hrun := runFiles_ok_iff.1 h
  obtain ⟨srcs, es, cmds, h1, h2, h3, h4⟩ := program_spec ho fs paths stdin ShState.new [] files .new hf (inferChecksSeq_ok_mem hrun)
  have hreg := hR srcs es h1 h2
  rw [h3, inferChecksSeq_all ho] at hrun
  have hS := C66_session_sound k hk opt opt.eta (Opt.omits_none ho _) cmds (h4.full hreg.full) (hreg.ctxs cmds h4) (hreg.orthogonal cmds h4) gc hrun
  exact ⟨srcs, es, h1, h2, ⟨cmds, h4, hS⟩,
    h4.directed hS.noEmpty (C66_session_known k hk opt opt.eta (Opt.omits_none ho _) cmds (h4.full hreg.full) gc hrun)⟩

/-- C66. A correct program in which every abstraction without a type stands where its type is known is accepted without threads, if the fuel suffices:
there is no error and no panic. -/
theorem C66_complete (k : Kern) (hk : k.Exact) (opt : Opt) (ho : opt.omitted = none) (hj : opt.jobs = false)
    (fs : FileSystem) (stdin : Str) (paths : List Str) (srcs : List (List Str × Str)) (es : List Entry) (T : Theory)
    (h1 : Sources fs stdin paths srcs) (h2 : ProgramOf srcs es) (hR : RegularIn opt.eta es) (h3 : CorrectIn opt.eta es T) (hd : Directed es) (gc : GCtx) (res : Out Unit)
    (h : RunPaths k opt fs stdin paths gc res) : res = .ok () ∨ res = .timeout := by
  obtain ⟨cmds, h4, h5⟩ := h3
  have hall := allCmds_complete ho h2 SymInv.new h4
  have hp : ∀ cmd ∈ cmds, cmd.Proper := by
    intro cmd hc
    refine allCmds_proper (opt := opt) (st := ShState.new) (files := srcs.map fun a => ⟨a.1, parseText a.2⟩) cmd ?_
    rw [hall]
    exact List.mem_map_of_mem hc
  have hC := C66_session_complete k hk opt opt.eta (Opt.omits_none ho _) cmds (h4.known hd) hp (hR.orthogonal cmds h4) T h5
  unfold RunPaths at h
  rw [openFiles_complete h1] at h
  have h6 := (C29_same_verdict k opt hj _ (produce_ok_iff.2 ⟨_, rfl⟩) gc res).1 h
  unfold Consume InferChecks at h6
  rw [hj, eventCmds_produce, hall] at h6
  simp only [Bool.false_eq_true, if_false] at h6
  rw [inferChecksSeq_all ho] at h6
  rw [h6] at hC
  exact hC

/-- C66. If a run without threads comes to an end, it accepts iff the paths mean texts that are a correct program in which every
abstraction without a type stands where its type is known. -/
theorem C66_exact (k : Kern) (hk : k.Exact) (opt : Opt) (ho : opt.omitted = none) (hj : opt.jobs = false)
    (fs : FileSystem) (stdin : Str) (paths : List Str) (hR : ∀ srcs es, Sources fs stdin paths srcs → ProgramOf srcs es → RegularIn opt.eta es)
    (gc : GCtx) (res : Out Unit) (h : RunPaths k opt fs stdin paths gc res) (hd : res ≠ .timeout) :
    res = .ok () ↔ ∃ srcs es T, Sources fs stdin paths srcs ∧ ProgramOf srcs es ∧ CorrectIn opt.eta es T ∧ Directed es := by
  constructor
  · rintro rfl
    obtain ⟨srcs, es, h1, h2, h3⟩ := C66_sound k hk.real opt ho fs stdin paths hR gc h
    exact ⟨srcs, es, _, h1, h2, h3⟩
  · rintro ⟨srcs, es, T, h1, h2, h3, h4⟩
    exact (C66_complete k hk opt ho hj fs stdin paths srcs es T h1 h2 (hR _ _ h1 h2) h3 h4 gc res h).resolve_right hd

/-- C66. The same for any run, also with threads or with a channel, if the run without threads comes to an end. -/
theorem C66_any (k : Kern) (hk : k.Exact) (opt : Opt) (ho : opt.omitted = none)
    (fs : FileSystem) (stdin : Str) (paths : List Str) (hR : ∀ srcs es, Sources fs stdin paths srcs → ProgramOf srcs es → RegularIn opt.eta es)
    (gc' : GCtx) (res' : Out Unit) (h' : RunPaths k { opt with jobs := false } fs stdin paths gc' res') (hd : res' ≠ .timeout)
    (res : Out Unit) (h : (∃ gc, RunPaths k opt fs stdin paths gc res) ∨ PipePaths k opt fs stdin paths res) :
    res = .ok () ↔ ∃ srcs es T, Sources fs stdin paths srcs ∧ ProgramOf srcs es ∧ CorrectIn opt.eta es T ∧ Directed es := by
  constructor
  · rintro rfl
    have h : ∃ gc, RunPaths k opt fs stdin paths gc (.ok ()) := by
      rcases h with h | h
      · exact h
      · exact (C29_accepts_iff k opt _).2 h
    obtain ⟨gc, h⟩ := h
    obtain ⟨srcs, es, h1, h2, h3⟩ := C66_sound k hk.real opt ho fs stdin paths hR gc h
    exact ⟨srcs, es, _, h1, h2, h3⟩
  · intro hC
    have hok := (C66_exact k hk { opt with jobs := false } ho rfl fs stdin paths hR gc' res' h' hd).2 hC
    subst hok
    have hrun : RunPaths k opt fs stdin paths gc' (.ok ()) := by
      unfold RunPaths Run at h' ⊢
      obtain ⟨files, hf⟩ := runFiles_ok_files h'
      rw [hf] at h' ⊢
      have := runFiles_ok_iff.1 h'
      rw [allCmds_jobs, inferChecksSeq_jobs] at this
      exact runFiles_ok_iff.2 this
    rcases h with ⟨gc, h⟩ | h
    · exact C29_run_never_refuses k opt _ gc res ((C29_accepts_iff k opt _).1 ⟨_, hrun⟩) h
    · exact C29_pipe_never_refuses k opt _ gc' res hrun h

/-- C49. If a run on some paths is accepted, then the paths mean texts, the texts are a program, the program is correct, and every
abstraction without a type stands where its type is known. -/
theorem C49_sound (k : Kern) (hk : k.Real) (opt : Opt) (ho : opt.omitted = none) (he : opt.eta = false) (fs : FileSystem) (stdin : Str)
    (paths : List Str) (hR : ∀ srcs es, Sources fs stdin paths srcs → ProgramOf srcs es → Regular es) (gc : GCtx)
    (h : RunPaths k opt fs stdin paths gc (.ok ())) :
    ∃ srcs es, Sources fs stdin paths srcs ∧ ProgramOf srcs es ∧ Correct es gc.theory ∧ Directed es := by
  obtain ⟨_, _, _⟩ := opt
  cases he
  exact C66_sound k hk _ ho fs stdin paths hR gc h

/-- C49. A correct program in which every abstraction without a type stands where its type is known is accepted without threads, if the fuel suffices:
there is no error and no panic. -/
theorem C49_complete (k : Kern) (hk : k.Exact) (opt : Opt) (ho : opt.omitted = none) (he : opt.eta = false) (hj : opt.jobs = false)
    (fs : FileSystem) (stdin : Str) (paths : List Str) (srcs : List (List Str × Str)) (es : List Entry) (T : Theory)
    (h1 : Sources fs stdin paths srcs) (h2 : ProgramOf srcs es) (hR : Regular es) (h3 : Correct es T) (hd : Directed es) (gc : GCtx) (res : Out Unit)
    (h : RunPaths k opt fs stdin paths gc res) : res = .ok () ∨ res = .timeout := by
  obtain ⟨_, _, _⟩ := opt
  cases he
  exact C66_complete k hk _ ho hj fs stdin paths srcs es T h1 h2 hR h3 hd gc res h

/-- C49. If a run without threads comes to an end, it accepts iff the paths mean texts that are a correct program in which every
abstraction without a type stands where its type is known. -/
theorem C49_exact (k : Kern) (hk : k.Exact) (opt : Opt) (ho : opt.omitted = none) (he : opt.eta = false) (hj : opt.jobs = false)
    (fs : FileSystem) (stdin : Str) (paths : List Str) (hR : ∀ srcs es, Sources fs stdin paths srcs → ProgramOf srcs es → Regular es)
    (gc : GCtx) (res : Out Unit) (h : RunPaths k opt fs stdin paths gc res) (hd : res ≠ .timeout) :
    res = .ok () ↔ ∃ srcs es T, Sources fs stdin paths srcs ∧ ProgramOf srcs es ∧ Correct es T ∧ Directed es := by
  obtain ⟨_, _, _⟩ := opt
  cases he
  exact C66_exact k hk _ ho hj fs stdin paths hR gc res h hd

/-- C49. The same for any run, also with threads or with a channel, if the run without threads comes to an end. -/
theorem C49_any (k : Kern) (hk : k.Exact) (opt : Opt) (ho : opt.omitted = none) (he : opt.eta = false)
    (fs : FileSystem) (stdin : Str) (paths : List Str) (hR : ∀ srcs es, Sources fs stdin paths srcs → ProgramOf srcs es → Regular es)
    (gc' : GCtx) (res' : Out Unit) (h' : RunPaths k { opt with jobs := false } fs stdin paths gc' res') (hd : res' ≠ .timeout)
    (res : Out Unit) (h : (∃ gc, RunPaths k opt fs stdin paths gc res) ∨ PipePaths k opt fs stdin paths res) :
    res = .ok () ↔ ∃ srcs es T, Sources fs stdin paths srcs ∧ ProgramOf srcs es ∧ Correct es T ∧ Directed es := by
  obtain ⟨_, _, _⟩ := opt
  cases he
  exact C66_any k hk _ ho fs stdin paths hR gc' res' h' hd res h

/-- C49. The hypothesis of orthogonality can be tested. -/
theorem C49_orthogonal (cmds : List Cmd) (h : orthogonal cmds = true) : Orthogonal (rulesOfCmds cmds) := orthogonal_sound h

/-- `and F _ --> F`, `and _ F --> F` and `and T T --> T` (`/repo/examples/bool.dk`, lines 8–10): both of the first two match `and F F`, and agree. -/
example : orthogonal [.rules [⟨[], ⟨0, [.symb 1 [], .joker]⟩, .const 1⟩, ⟨[], ⟨0, [.joker, .symb 1 []]⟩, .const 1⟩,
    ⟨[], ⟨0, [.symb 2 [], .symb 2 []]⟩, .const 2⟩]] = true := by decide +kernel

/-- `[x] f c x --> x` and `[x] f x c --> x` agree for `f c c`. -/
example : orthogonal [.rules [⟨[(['x'], none)], ⟨0, [.symb 1 [], .mvar 0]⟩, .var 0⟩, ⟨[(['x'], none)], ⟨0, [.mvar 0, .symb 1 []]⟩, .var 0⟩]] = true := by
  decide +kernel

/-- `[x] f c x --> x` and `[x] f x d --> x` do not agree for `f c d`. -/
example : orthogonal [.rules [⟨[(['x'], none)], ⟨0, [.symb 1 [], .mvar 0]⟩, .var 0⟩, ⟨[(['x'], none)], ⟨0, [.mvar 0, .symb 2 []]⟩, .var 0⟩]] = false := by
  decide +kernel

/-! ## Example: a right program and a wrong one -/

/-- `N : Type.`, `0 : N.`, `S : N -> N.`, addition with its rules, and a definition -/
def Example.text (last : String) : Str :=
  str ("N : Type.\n0 : N.\nS : N -> N.\ndef add : N -> N -> N.\n[n: N] add 0 n --> n\n[m: N, n: N] add (S m) n --> S (add m n).\n" ++ last)

/-- a written constant with arguments -/
def Example.pc (x : String) (args : List (PTerm PSymb)) : PTerm PSymb := .app (.atom ⟨[], str x⟩) args

/-- the commands of the text, without the last -/
def Example.common : List (PCmd (PTerm PSymb)) :=
  let N := Example.pc "N" []
  [.intro (str "N") [] (.declaration false (Example.pc "Type" [])),
   .intro (str "0") [] (.declaration false N),
   .intro (str "S") [] (.declaration false (.new (.prod none N N))),
   .intro (str "add") [] (.definition (some (.new (.prod none N (.new (.prod none N N))))) none),
   .rules [⟨[(str "n", some N)], Example.pc "add" [Example.pc "0" [], Example.pc "n" []], Example.pc "n" []⟩,
     ⟨[(str "m", some N), (str "n", some N)], Example.pc "add" [Example.pc "S" [Example.pc "m" []], Example.pc "n" []],
      Example.pc "S" [Example.pc "add" [Example.pc "m" [], Example.pc "n" []]]⟩]]

/-- the last command of a right program -/
def Example.good : PCmd (PTerm PSymb) :=
  .intro (str "one") [] (.definition (some (Example.pc "N" [])) (some (Example.pc "add" [Example.pc "S" [Example.pc "0" []], Example.pc "0" []])))


/-- the last command of a wrong program -/
def Example.bad : PCmd (PTerm PSymb) :=
  .intro (str "one") [] (.definition (some (Example.pc "N" [])) (some (Example.pc "add" [Example.pc "S" [], Example.pc "0" []])))

/-- the text of a right program -/
def Example.goodText : Str := Example.text "def one : N := add (S 0) 0.\n"

/-- the text of a wrong program -/
def Example.badText : Str := Example.text "def one : N := add S 0.\n"

set_option maxRecDepth 100000 in
theorem Example.goodText_of : TextOf Example.goodText (Example.common ++ [Example.good]) := (textOf_iff _ _).2 (by rfl)

set_option maxRecDepth 100000 in
theorem Example.badText_of : TextOf Example.badText (Example.common ++ [Example.bad]) := (textOf_iff _ _).2 (by rfl)

/-- the commands for the kernel, with the body of the definition -/
def Example.cmds (body : LTerm) : List Cmd :=
  let N : LTerm := .const 0
  let arrow (A B : LTerm) : LTerm := .comb (.prod ['$'] A B)
  [.intro 0 (.declaration false .type), .intro 1 (.declaration false N), .intro 2 (.declaration false (arrow N N)),
   .intro 3 (.definition (some (arrow N (arrow N N))) none),
   .rules [⟨[(str "n", some N)], ⟨3, [.symb 1 [], .mvar 0]⟩, .var 0⟩,
     ⟨[(str "m", some N), (str "n", some N)], ⟨3, [.symb 2 [.mvar 1], .mvar 0]⟩,
      .comb (.appl (.const 2) [.comb (.appl (.const 3) [.var 1, .var 0])])⟩],
   .intro 4 (.definition (some N) (some body))]

/-- `add (S 0) 0` -/
def Example.goodBody : LTerm := .comb (.appl (.const 3) [.comb (.appl (.const 2) [.const 1]), .const 1])

/-- `add S 0` -/
def Example.badBody : LTerm := .comb (.appl (.const 3) [.const 2, .const 1])

set_option maxRecDepth 100000 in
theorem Example.goodCmds : allCmds ⟨false, none, false⟩ ShState.new [⟨[str "a"], parseText Example.goodText⟩] = (Example.cmds Example.goodBody).map .ok := by
  rw [parseText_of Example.goodText_of]
  rfl

set_option maxRecDepth 100000 in
theorem Example.badCmds : allCmds ⟨false, none, false⟩ ShState.new [⟨[str "a"], parseText Example.badText⟩] = (Example.cmds Example.badBody).map .ok := by
  rw [parseText_of Example.badText_of]
  rfl

theorem Example.ctxsRight (body : LTerm) : CtxsRight (Example.cmds body) := by
  intro pre rs post T e hS
  have hN : ∀ Γ, T.ty 0 = some .type → Strict T Γ (.const 0) .type := fun Γ h => .const h
  match pre, e with
  | [], e => simp [Example.cmds] at e
  | [_], e => simp [Example.cmds] at e
  | [_, _], e => simp [Example.cmds] at e
  | [_, _, _], e => simp [Example.cmds] at e
  | [a, b, c, d], e =>
    simp only [Example.cmds, List.cons_append, List.nil_append, List.cons.injEq, Cmd.rules.injEq] at e
    obtain ⟨rfl, rfl, rfl, rfl, rfl, -⟩ := e
    have h0 := hS.declaredType (s := 0) (b := false) (ty := .type) (by simp)
    intro r hr Γ l u hc
    simp only [List.mem_cons, List.not_mem_nil, or_false] at hr
    rcases hr with rfl | rfl
    · obtain ⟨tys, h1, rfl, -⟩ := hc
      have : tys = [.const 0] := by
        match tys, h1 with
        | [t], h1 => simpa using h1.symm
      subst this
      exact .cons .nil (hN _ h0)
    · obtain ⟨tys, h1, rfl, -⟩ := hc
      have : tys = [.const 0, .const 0] := by
        match tys, h1 with
        | [t, t'], h1 => simpa [eq_comm] using h1
      subst this
      exact .cons (.cons .nil (hN _ h0)) (hN _ h0)
  | [_, _, _, _, _], e => simp [Example.cmds] at e
  | _ :: _ :: _ :: _ :: _ :: _ :: l, e =>
    have := congrArg List.length e
    simp [Example.cmds] at this

theorem Example.ofText {text : Str} {cs : List (PCmd (PTerm PSymb))} {body : LTerm} (ht : TextOf text cs)
    (hc : allCmds ⟨false, none, false⟩ ShState.new [⟨[str "a"], parseText text⟩] = (Example.cmds body).map .ok)
    {srcs : List (List Str × Str)} {es : List Entry}
    (h1 : Sources (fun p => if p = str "a.dk" then some text else none) [] [str "a.dk"] srcs) (h2 : ProgramOf srcs es) :
    srcs = [([str "a"], text)] ∧ es = cs.map (Entry.mk [str "a"]) ∧ ∀ cmds, Shared [] es cmds → cmds = Example.cmds body := by
  have hsrc : Sources (fun p => if p = str "a.dk" then some text else none) [] [str "a.dk"] [([str "a"], text)] := by
    refine .file (pieces := [str "a.dk"]) ?_ ?_ ?_ (if_pos rfl) .nil
    · exact ⟨by decide, by decide, by decide⟩
    · exact (C36_module_path _ (by decide) (by decide) _).1 (by decide)
    · intro h; exact absurd h.1 (by decide)
  have hprog : ProgramOf [([str "a"], text)] (cs.map (Entry.mk [str "a"])) := by
    have := ProgramOf.cons (m := [str "a"]) ht .nil
    rwa [List.append_nil] at this
  obtain ⟨rfl, rfl⟩ := C41_unique _ _ _ _ _ _ _ h1 hsrc h2 hprog
  refine ⟨rfl, rfl, fun cmds h => ?_⟩
  have := (allCmds_complete (opt := ⟨false, none, false⟩) rfl h2 SymInv.new h).symm.trans hc
  exact List.map_injective_iff.2 (fun a b h => by cases h; rfl) this

theorem occursIn_var {n m : Nat} : OccursIn n (.app (.atom (.var m)) []) ↔ m = n := by
  constructor
  · intro h
    cases h with
    | here => rfl
    | arg h => simp at h
  · rintro rfl; exact .here

theorem occursIn_const {n : Nat} {c : PSymb} {args : List (PTerm Atom)} : OccursIn n (.app (.atom (.const c)) args) ↔ ∃ a ∈ args, OccursIn n a := by
  constructor
  · intro h
    cases h with
    | arg h h' => exact ⟨_, h, h'⟩
  · rintro ⟨a, h, h'⟩; exact .arg h h'

theorem Example.regular {last : PCmd (PTerm PSymb)} {body : LTerm} (hl : last = Example.good ∧ body = Example.goodBody ∨ last = Example.bad ∧ body = Example.badBody)
    (h : ∀ cmds, Shared [] ((Example.common ++ [last]).map (Entry.mk [str "a"])) cmds → cmds = Example.cmds body) :
    Regular ((Example.common ++ [last]).map (Entry.mk [str "a"])) := by
  refine ⟨?_, ?_, ?_⟩
  · intro m rs hm r hr
    have hrs : PCmd.rules rs ∈ Example.common := by
      rcases hl with ⟨rfl, -⟩ | ⟨rfl, -⟩ <;> simp [Example.good, Example.bad] at hm <;> exact hm.1
    simp only [Example.common, List.mem_cons, reduceCtorEq, List.not_mem_nil, or_false, false_or, PCmd.rules.injEq] at hrs
    subst hrs
    simp only [List.mem_cons, List.not_mem_nil, or_false] at hr
    rcases hr with rfl | rfl
    · refine ⟨by simp, ?_⟩
      rw [show (PRule.scope _).lhs = .app (.atom (.const ⟨[], str "add"⟩)) [.app (.atom (.const ⟨[], str "0"⟩)) [], .app (.atom (.var 0)) []] from rfl]
      simp [occursIn_var, occursIn_const]
    · refine ⟨by simp, ?_⟩
      rw [show (PRule.scope _).lhs = .app (.atom (.const ⟨[], str "add"⟩)) [.app (.atom (.const ⟨[], str "S"⟩)) [.app (.atom (.var 1)) []],
        .app (.atom (.var 0)) []] from rfl]
      simp [occursIn_var, occursIn_const]
  · intro cmds hs
    rw [h cmds hs]
    exact Example.ctxsRight body
  · intro cmds hs
    rw [h cmds hs]
    refine orthogonal_sound ?_
    rcases hl with ⟨-, rfl⟩ | ⟨-, rfl⟩ <;> decide +kernel

/-- the file system with one file -/
def Example.oneFile (text : Str) : FileSystem := fun p => if p = str "a.dk" then some text else none

theorem Example.goodRegular (srcs : List (List Str × Str)) (es : List Entry) (h1 : Sources (Example.oneFile Example.goodText) [] [str "a.dk"] srcs)
    (h2 : ProgramOf srcs es) : Regular es := by
  obtain ⟨-, rfl, h3⟩ := Example.ofText Example.goodText_of Example.goodCmds h1 h2
  exact Example.regular (.inl ⟨rfl, rfl⟩) h3

theorem Example.badRegular (srcs : List (List Str × Str)) (es : List Entry) (h1 : Sources (Example.oneFile Example.badText) [] [str "a.dk"] srcs)
    (h2 : ProgramOf srcs es) : Regular es := by
  obtain ⟨-, rfl, h3⟩ := Example.ofText Example.badText_of Example.badCmds h1 h2
  exact Example.regular (.inr ⟨rfl, rfl⟩) h3

theorem Example.badDirected (srcs : List (List Str × Str)) (es : List Entry) (h1 : Sources (Example.oneFile Example.badText) [] [str "a.dk"] srcs)
    (h2 : ProgramOf srcs es) : Directed es := by
  obtain ⟨-, rfl, -⟩ := Example.ofText Example.badText_of Example.badCmds h1 h2
  unfold Directed
  simp [Example.common, Example.bad, Example.pc, PCmd.Known, Intro.given, Intro.body, PTerm.new, PTerm.Known, PHead.Known, PTerm.KnownList]

theorem Example.run {text : Str} {cmds : List Cmd} {res : Out Unit} (hf : openFiles (Example.oneFile text) [] [str "a.dk"] = [.ok ⟨[str "a"], parseText text⟩])
    (hc : allCmds ⟨false, none, false⟩ ShState.new [⟨[str "a"], parseText text⟩] = cmds.map .ok)
    (hr : (seqLoop (Kern.std 30 fun _ => true) ⟨false, none, false⟩ (GCtx.start false) (cmds.map .ok)).2 = res) :
    ∃ gc, RunPaths (Kern.std 30 fun _ => true) ⟨false, none, false⟩ (Example.oneFile text) [] [str "a.dk"] gc res := by
  unfold RunPaths
  rw [hf]
  refine ⟨(seqLoop (Kern.std 30 fun _ => true) ⟨false, none, false⟩ (GCtx.start false) (cmds.map .ok)).1, (C29_same_verdict _ _ rfl _ rfl _ _).2 ?_⟩
  unfold Consume InferChecks
  rw [show [Out.ok (⟨[str "a"], parseText text⟩ : ParsedFile)] = [⟨[str "a"], parseText text⟩].map Out.ok from rfl, eventCmds_produce, hc]
  simp only [Bool.false_eq_true, if_false]
  rw [inferChecksSeq_all rfl]
  exact Prod.ext rfl hr

/-- an error is reported -/
def Out.isErr {α : Type} : Out α → Bool
  | .err _ => true
  | _ => false

/-- The right program is accepted, so it is correct. -/
example : ∃ srcs es T, Sources (Example.oneFile Example.goodText) [] [str "a.dk"] srcs ∧ ProgramOf srcs es ∧ Correct es T ∧ Directed es := by
  have hok : (seqLoop (Kern.std 30 fun _ => true) ⟨false, none, false⟩ (GCtx.start false) ((Example.cmds Example.goodBody).map .ok)).2.isOk = true := by
    decide +kernel
  obtain ⟨⟨⟩, hok⟩ := Out.isOk_iff.1 hok
  obtain ⟨gc, h⟩ := Example.run (res := .ok ()) rfl Example.goodCmds hok
  exact (C49_exact _ (Kern.std_exact ..) ⟨false, none, false⟩ rfl rfl rfl _ _ _ Example.goodRegular gc _ h (fun e => nomatch e)).1 rfl

/-- The wrong program is refused, so it is not correct. -/
example : ¬ ∃ srcs es T, Sources (Example.oneFile Example.badText) [] [str "a.dk"] srcs ∧ ProgramOf srcs es ∧ Correct es T := by
  obtain ⟨gc, h⟩ := Example.run (res := _) rfl Example.badCmds rfl
  have hres : (seqLoop (Kern.std 30 fun _ => true) ⟨false, none, false⟩ (GCtx.start false) ((Example.cmds Example.badBody).map .ok)).2.isErr = true := by
    decide +kernel
  generalize (seqLoop (Kern.std 30 fun _ => true) ⟨false, none, false⟩ (GCtx.start false) ((Example.cmds Example.badBody).map .ok)).2 = res at h hres
  rintro ⟨srcs, es, T, h1, h2, hC⟩
  have := (C49_exact _ (Kern.std_exact ..) ⟨false, none, false⟩ rfl rfl rfl _ _ _ Example.badRegular gc _ h ?_).2
    ⟨srcs, es, T, h1, h2, hC, Example.badDirected srcs es h1 h2⟩
  · subst this; cases hres
  · rintro rfl; cases hres

/-- C66. With or without eta, programs without rewrite rules (the Edinburgh logical framework with definitions): a run that comes to an end accepts if and only if the paths
denote texts that form a correct program in which every abstraction without a type stands where its type is known. -/
theorem C66_static (k : Kern) (hk : k.Exact) (opt : Opt) (ho : opt.omitted = none) (hj : opt.jobs = false) (fs : FileSystem)
    (stdin : Str) (paths : List Str)
    (hR : ∀ srcs es, Sources fs stdin paths srcs → ProgramOf srcs es → ∀ e ∈ es, ∀ rs, e.cmd ≠ .rules rs)
    (gc : GCtx) (res : Out Unit) (h : RunPaths k opt fs stdin paths gc res) (ht : res ≠ .timeout) :
    res = .ok () ↔ ∃ srcs es T, Sources fs stdin paths srcs ∧ ProgramOf srcs es ∧ CorrectIn opt.eta es T ∧ Directed es :=
  C66_exact k hk opt ho hj fs stdin paths (fun srcs es h1 h2 => .static (hR srcs es h1 h2)) gc res h ht

/-- C49. Programs without rewrite rules (the Edinburgh logical framework with definitions): a run that comes to an end accepts if and only if the paths
denote texts that form a correct program in which every abstraction without a type stands where its type is known. -/
theorem C49_static (k : Kern) (hk : k.Exact) (opt : Opt) (ho : opt.omitted = none) (he : opt.eta = false) (hj : opt.jobs = false) (fs : FileSystem)
    (stdin : Str) (paths : List Str)
    (hR : ∀ srcs es, Sources fs stdin paths srcs → ProgramOf srcs es → ∀ e ∈ es, ∀ rs, e.cmd ≠ .rules rs)
    (gc : GCtx) (res : Out Unit) (h : RunPaths k opt fs stdin paths gc res) (ht : res ≠ .timeout) :
    res = .ok () ↔ ∃ srcs es T, Sources fs stdin paths srcs ∧ ProgramOf srcs es ∧ Correct es T ∧ Directed es :=
  C49_exact k hk opt ho he hj fs stdin paths (fun srcs es h1 h2 => .static (hR srcs es h1 h2)) gc res h ht

#print axioms C66_session_sound
#print axioms C66_session_known
#print axioms C66_session_complete
#print axioms C66_session_exact
#print axioms C66_sound
#print axioms C66_complete
#print axioms C66_exact
#print axioms C66_any
#print axioms C66_static
#print axioms C49_session_sound
#print axioms C49_session_known
#print axioms C49_session_complete
#print axioms C49_session_exact
#print axioms C49_sound
#print axioms C49_complete
#print axioms C49_exact
#print axioms C49_any
#print axioms C49_orthogonal
#print axioms C49_static

end Kontroli
