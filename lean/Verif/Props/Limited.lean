import Verif.Proofs.Limited
import Verif.Props.Web

/-!
# C62: what runs limited to some stages accept
-/

namespace Kontroli

/-- C62. A run that stops after parsing accepts if and only if all files are there and consist of commands, by the grammar.  Nothing is added to
the context. -/
theorem C62_parse_only (k : Kern) (opt : Opt) (ho : opt.omitted = some .share) (fs : FileSystem) (stdin : Str) (paths : List Str) (gc : GCtx) :
    RunPaths k opt fs stdin paths gc (.ok ()) ↔ gc = GCtx.start opt.eta ∧ ∃ srcs es, Sources fs stdin paths srcs ∧ ProgramOf srcs es := by
  constructor
  · intro h
    unfold RunPaths Run at h
    obtain ⟨files, hf⟩ := runFiles_ok_files h
    rw [hf] at h
    obtain ⟨h1, h2⟩ := (inferChecksSeq_omit_share ho).1 (runFiles_ok_iff.1 h)
    exact ⟨h1, sources_spec fs paths stdin files hf h2⟩
  · rintro ⟨rfl, srcs, es, h1, h2⟩
    unfold RunPaths Run
    rw [openFiles_complete h1]
    exact runFiles_ok_iff.2 ((inferChecksSeq_omit_share ho).2 ⟨rfl, h2.parsed⟩)

/-- C62. A run that stops after sharing accepts if and only if moreover no name is introduced twice in a module, every constant refers to a name
introduced before, and the left-hand sides of rules are patterns. -/
theorem C62_scope_only (k : Kern) (opt : Opt) (ho : opt.omitted = some .infer) (fs : FileSystem) (stdin : Str) (paths : List Str) (gc : GCtx) :
    RunPaths k opt fs stdin paths gc (.ok ()) ↔
      gc = GCtx.start opt.eta ∧ ∃ srcs es cmds, Sources fs stdin paths srcs ∧ ProgramOf srcs es ∧ Shared [] es cmds := by
  have hs : opt.omitted ≠ some .share := by simp [ho]
  constructor
  · intro h
    unfold RunPaths Run at h
    obtain ⟨files, hf⟩ := runFiles_ok_files h
    rw [hf] at h
    obtain ⟨h1, h2⟩ := (inferChecksSeq_omit_infer ho).1 (runFiles_ok_iff.1 h)
    rw [allCmds_limited hs] at h2
    obtain ⟨srcs, es, cmds, h3, h4, -, h5⟩ := program_spec (opt := { opt with omitted := none }) rfl fs paths stdin ShState.new [] files .new hf h2
    exact ⟨h1, srcs, es, cmds, h3, h4, h5⟩
  · rintro ⟨rfl, srcs, es, cmds, h1, h2, h3⟩
    unfold RunPaths Run
    rw [openFiles_complete h1]
    refine runFiles_ok_iff.2 ((inferChecksSeq_omit_infer ho).2 ⟨rfl, ?_⟩)
    rw [allCmds_limited hs, allCmds_complete rfl h2 .new h3]
    simp [Out.isOk]

/-- C62. If a run that omits the checks accepts, then the files form a program that is right up to bodies with a given type and right-hand sides. -/
theorem C62_types_only (k : Kern) (hk : k.Real) (opt : Opt) (ho : opt.omitted = some .check) (fs : FileSystem) (stdin : Str) (paths : List Str)
    (gc : GCtx) (h : RunPaths k opt fs stdin paths gc (.ok ())) :
    ∃ srcs es, Sources fs stdin paths srcs ∧ ProgramOf srcs es ∧ ProgramTyped es gc.theory := by
  unfold RunPaths Run at h
  obtain ⟨files, hf⟩ := runFiles_ok_files h
  rw [hf] at h
  have hrun := runFiles_ok_iff.1 h
  have hall := allCmds_limited (show opt.omitted ≠ some .share by simp [ho]) ShState.new files
  have hok := inferChecksSeq_ok_mem hrun
  rw [hall] at hrun hok
  obtain ⟨srcs, es, cmds, h3, h4, h5, h6⟩ := program_spec (opt := { opt with omitted := none }) rfl fs paths stdin ShState.new [] files .new hf hok
  rw [h5] at hrun
  exact ⟨srcs, es, h3, h4, h6.programTyped hk ho hrun⟩

/-- C62. A run that stops after parsing or after sharing has the same outcomes whatever the kernel does. -/
theorem C62_kernel_unused (k k' : Kern) (opt : Opt) (ho : opt.omitted = some .share ∨ opt.omitted = some .infer) (fs : FileSystem) (stdin : Str)
    (paths : List Str) (gc : GCtx) (res : Out Unit) : RunPaths k opt fs stdin paths gc res ↔ RunPaths k' opt fs stdin paths gc res :=
  ⟨runFiles_limited ho, runFiles_limited ho⟩

/-- C62. The same with a channel: after parsing. -/
theorem C62_pipe_parse_only (k : Kern) (opt : Opt) (ho : opt.omitted = some .share) (fs : FileSystem) (stdin : Str) (paths : List Str) :
    PipePaths k opt fs stdin paths (.ok ()) ↔ ∃ srcs es, Sources fs stdin paths srcs ∧ ProgramOf srcs es := by
  unfold PipePaths
  rw [← C29_accepts_iff]
  constructor
  · rintro ⟨gc, h⟩
    exact ((C62_parse_only k opt ho fs stdin paths gc).1 h).2
  · intro h
    exact ⟨_, (C62_parse_only k opt ho fs stdin paths _).2 ⟨rfl, h⟩⟩

/-- C62. The same with a channel: after sharing. -/
theorem C62_pipe_scope_only (k : Kern) (opt : Opt) (ho : opt.omitted = some .infer) (fs : FileSystem) (stdin : Str) (paths : List Str) :
    PipePaths k opt fs stdin paths (.ok ()) ↔ ∃ srcs es cmds, Sources fs stdin paths srcs ∧ ProgramOf srcs es ∧ Shared [] es cmds := by
  unfold PipePaths
  rw [← C29_accepts_iff]
  constructor
  · rintro ⟨gc, h⟩
    exact ((C62_scope_only k opt ho fs stdin paths gc).1 h).2
  · intro h
    exact ⟨_, (C62_scope_only k opt ho fs stdin paths _).2 ⟨rfl, h⟩⟩

/-! ## The web checker -/

theorem web_parse_only {k : Kern} {opt : Opt} (ho : opt.omitted = some .share) (hj : opt.jobs = false) {ms : List (Str × Str)} {gc : GCtx} :
    Consume k opt (ms.flatMap fun m => webEvents m.1 m.2) gc (.ok ()) ↔ gc = GCtx.start opt.eta ∧ ∃ es, WebProgramOf ms es := by
  rw [consume_web hj, inferChecksSeq_omit_share ho]
  exact and_congr_right fun _ => ⟨web_parsed, fun ⟨es, h⟩ => h.parsed⟩

theorem web_scope_only {k : Kern} {opt : Opt} (ho : opt.omitted = some .infer) (hj : opt.jobs = false) {ms : List (Str × Str)} {gc : GCtx} :
    Consume k opt (ms.flatMap fun m => webEvents m.1 m.2) gc (.ok ()) ↔
      gc = GCtx.start opt.eta ∧ ∃ es cmds, WebProgramOf ms es ∧ Shared [] es cmds := by
  rw [consume_web hj, inferChecksSeq_omit_infer ho, allCmds_limited (by simp [ho])]
  refine and_congr_right fun _ => ⟨fun h => ?_, fun ⟨es, cmds, h1, h2⟩ => ?_⟩
  · obtain ⟨es, cmds, h1, -, h2⟩ := web_spec (opt := { opt with omitted := none }) rfl .new h
    exact ⟨es, cmds, h1, h2⟩
  · rw [web_complete rfl h1 .new h2]
    simp [Out.isOk]

theorem web_types_only {k : Kern} (hk : k.Real) {opt : Opt} (ho : opt.omitted = some .check) (hj : opt.jobs = false) {ms : List (Str × Str)}
    {gc : GCtx} (h : Consume k opt (ms.flatMap fun m => webEvents m.1 m.2) gc (.ok ())) :
    ∃ es, WebProgramOf ms es ∧ ProgramTyped es gc.theory := by
  have hrun := (consume_web hj).1 h
  have hall := allCmds_limited (show opt.omitted ≠ some .share by simp [ho]) ShState.new (ms.map webFile)
  have hok := inferChecksSeq_ok_mem hrun
  rw [hall] at hrun hok
  obtain ⟨es, cmds, h1, h2, h3⟩ := web_spec (opt := { opt with omitted := none }) rfl .new hok
  rw [h2] at hrun
  exact ⟨es, h1, h3.programTyped hk ho hrun⟩

/-- all that is accepted with all stages is accepted without checks, with the same context -/
theorem web_all_types {k : Kern} {eta : Bool} {ms : List (Str × Str)} {gc : GCtx}
    (h : Consume k ⟨eta, none, false⟩ (ms.flatMap fun m => webEvents m.1 m.2) gc (.ok ())) :
    Consume k ⟨eta, some .check, false⟩ (ms.flatMap fun m => webEvents m.1 m.2) gc (.ok ()) := by
  rw [consume_web rfl] at h ⊢
  rw [allCmds_limited (by simp)]
  exact C31_omit_check k ⟨eta, none, false⟩ _ rfl rfl _ _ _ h

theorem web_types_scope {k : Kern} {eta : Bool} {ms : List (Str × Str)} {gc : GCtx}
    (h : Consume k ⟨eta, some .check, false⟩ (ms.flatMap fun m => webEvents m.1 m.2) gc (.ok ())) :
    Consume k ⟨eta, some .infer, false⟩ (ms.flatMap fun m => webEvents m.1 m.2) (GCtx.start eta) (.ok ()) := by
  rw [consume_web rfl] at h ⊢
  rw [inferChecksSeq_omit_infer rfl]
  refine ⟨rfl, ?_⟩
  have := inferChecksSeq_ok_mem h
  rw [allCmds_limited (by simp)] at this ⊢
  exact this

theorem webProgramOf_single {name text : Str} {es : List Entry} : WebProgramOf [(name, text)] es ↔ ∃ cs, WholeTextOf text cs ∧ es = cs.map (Entry.mk [name]) := by
  constructor
  · intro h
    cases h with
    | @cons _ _ cs _ _ ht hn =>
      cases hn
      exact ⟨cs, ht, by rw [List.append_nil]⟩
  · rintro ⟨cs, ht, rfl⟩
    have := WebProgramOf.cons (name := name) ht .nil
    rwa [List.append_nil] at this

theorem checkSingle_iff {k : Kern} {text : Str} {eta : Bool} {level : Nat} {om : Option Stage} (hl : getOmit level = some om) {gc : GCtx}
    {res : Out Unit} : CheckSingle k text eta level gc res ↔
      Consume k ⟨eta, om, false⟩ ([(str "main", text)].flatMap fun m => webEvents m.1 m.2) gc res := by
  unfold CheckSingle
  rw [hl, List.flatMap_singleton]

/-- C62. The web checker at level 0: a text is accepted if and only if it consists of commands, by the grammar. -/
theorem C62_single_parse (k : Kern) (text : Str) (eta : Bool) (gc : GCtx) :
    CheckSingle k text eta 0 gc (.ok ()) ↔ gc = GCtx.start eta ∧ ∃ cs, WholeTextOf text cs := by
  rw [checkSingle_iff rfl, web_parse_only rfl rfl]
  simp only [webProgramOf_single]
  exact and_congr_right fun _ => ⟨fun ⟨es, cs, h, _⟩ => ⟨cs, h⟩, fun ⟨cs, h⟩ => ⟨_, cs, h, rfl⟩⟩

/-- C62. The web checker at level 1: moreover the names are introduced once, before they are used, and left-hand sides are patterns. -/
theorem C62_single_scope (k : Kern) (text : Str) (eta : Bool) (gc : GCtx) :
    CheckSingle k text eta 1 gc (.ok ()) ↔
      gc = GCtx.start eta ∧ ∃ cs cmds, WholeTextOf text cs ∧ Shared [] (cs.map (Entry.mk [str "main"])) cmds := by
  rw [checkSingle_iff rfl, web_scope_only rfl rfl]
  simp only [webProgramOf_single]
  exact and_congr_right fun _ => ⟨fun ⟨es, cmds, ⟨cs, h, e⟩, h'⟩ => ⟨cs, cmds, h, e ▸ h'⟩, fun ⟨cs, cmds, h, h'⟩ => ⟨_, cmds, ⟨cs, h, rfl⟩, h'⟩⟩

/-- C62. The web checker at level 2: what is accepted is right up to bodies with a given type and right-hand sides. -/
theorem C62_single_types (k : Kern) (hk : k.Real) (text : Str) (eta : Bool) (gc : GCtx) (h : CheckSingle k text eta 2 gc (.ok ())) :
    ∃ cs, WholeTextOf text cs ∧ ProgramTyped (cs.map (Entry.mk [str "main"])) gc.theory := by
  obtain ⟨es, h1, h2⟩ := web_types_only hk rfl rfl ((checkSingle_iff rfl).1 h)
  obtain ⟨cs, h3, rfl⟩ := webProgramOf_single.1 h1
  exact ⟨cs, h3, h2⟩

/-- C62. The levels of the web checker are increasingly strict, and the last two agree on the context. -/
theorem C62_single_levels (k : Kern) (text : Str) (eta : Bool) (gc : GCtx) :
    (CheckSingle k text eta 3 gc (.ok ()) → CheckSingle k text eta 2 gc (.ok ())) ∧
    (CheckSingle k text eta 2 gc (.ok ()) → CheckSingle k text eta 1 (GCtx.start eta) (.ok ())) ∧
    (CheckSingle k text eta 1 gc (.ok ()) → CheckSingle k text eta 0 gc (.ok ())) := by
  refine ⟨fun h => ?_, fun h => ?_, fun h => ?_⟩
  · exact (checkSingle_iff rfl).2 (web_all_types ((checkSingle_iff rfl).1 h))
  · exact (checkSingle_iff rfl).2 (web_types_scope ((checkSingle_iff rfl).1 h))
  · obtain ⟨h1, cs, cmds, h2, -⟩ := (C62_single_scope k text eta gc).1 h
    exact (C62_single_parse k text eta gc).2 ⟨h1, cs, h2⟩

/-- C62. There are no other levels: the web checker panics. -/
theorem C62_no_level (k : Kern) (level : Nat) (hl : 4 ≤ level) (text : Str) (fetch : Str → Option Str) (programs : List WebProgram) (main : Str)
    (eta : Bool) (gc : GCtx) :
    (∀ res, CheckSingle k text eta level gc res ↔ gc = GCtx.start eta ∧ res = .panic) ∧
    ∀ res, CheckMultiple k fetch programs main eta level gc res ↔ gc = GCtx.start eta ∧ res = some .panic := by
  have : getOmit level = none := by
    obtain ⟨n, rfl⟩ := Nat.exists_eq_add_of_le hl
    rw [Nat.add_comm]
    rfl
  unfold CheckSingle CheckMultiple
  simp only [this, implies_true, and_self]

/-- the levels: what is omitted -/
theorem checkMultiple_iff {k : Kern} {fetch : Str → Option Str} {before after : List WebProgram} {p : WebProgram}
    (hb : ∀ q ∈ before, q.name ≠ p.name) {ms : List (Str × Str)}
    (hms : List.Forall₂ (fun a m => (∃ suffix, a.1 = m.1 ++ suffix ∧ utf8Len suffix = 3) ∧ fetch a.2 = some m.2) (p.dependency.zip p.urls) ms)
    {eta : Bool} {level : Nat} {om : Option Stage} (hl : getOmit level = some om) {gc : GCtx} {res : Option (Out Unit)} :
    CheckMultiple k fetch (before ++ p :: after) p.name eta level gc res ↔
      ∃ r, res = some r ∧ Consume k ⟨eta, om, false⟩ (ms.flatMap fun m => webEvents m.1 m.2) gc r := by
  have hfind : (before ++ p :: after).find? (fun q => q.name = p.name) = some p :=
    List.find?_eq_some_iff_append.2 ⟨by simp, before, after, rfl, fun q hq => by simp [hb q hq]⟩
  have hmods : webModules fetch (p.dependency.zip p.urls) = some ms := webModules_iff.2 (hms.imp fun a m hm => ⟨(C50_name _ _).2 hm.1, hm.2⟩)
  unfold CheckMultiple
  rw [hfind, hl]
  simp only [hmods]

/-- C62. A module at level 0 and 1: it is accepted if and only if the texts of its dependencies consist of commands, by the grammar, and (at level
1) sharing succeeds. -/
theorem C62_multiple (k : Kern) (fetch : Str → Option Str) (before after : List WebProgram) (p : WebProgram)
    (hb : ∀ q ∈ before, q.name ≠ p.name) (ms : List (Str × Str))
    (hms : List.Forall₂ (fun a m => (∃ suffix, a.1 = m.1 ++ suffix ∧ utf8Len suffix = 3) ∧ fetch a.2 = some m.2) (p.dependency.zip p.urls) ms)
    (eta : Bool) (gc : GCtx) :
    (CheckMultiple k fetch (before ++ p :: after) p.name eta 0 gc (some (.ok ())) ↔ gc = GCtx.start eta ∧ ∃ es, WebProgramOf ms es) ∧
    (CheckMultiple k fetch (before ++ p :: after) p.name eta 1 gc (some (.ok ())) ↔
      gc = GCtx.start eta ∧ ∃ es cmds, WebProgramOf ms es ∧ Shared [] es cmds) ∧
    (k.Real → CheckMultiple k fetch (before ++ p :: after) p.name eta 2 gc (some (.ok ())) → ∃ es, WebProgramOf ms es ∧ ProgramTyped es gc.theory) ∧
    (CheckMultiple k fetch (before ++ p :: after) p.name eta 3 gc (some (.ok ())) →
      CheckMultiple k fetch (before ++ p :: after) p.name eta 2 gc (some (.ok ()))) ∧
    (CheckMultiple k fetch (before ++ p :: after) p.name eta 2 gc (some (.ok ())) →
      CheckMultiple k fetch (before ++ p :: after) p.name eta 1 (GCtx.start eta) (some (.ok ()))) := by
  have h0 := fun gc res => checkMultiple_iff (k := k) (after := after) hb hms (eta := eta) (level := 0) rfl (gc := gc) (res := res)
  have h1 := fun gc res => checkMultiple_iff (k := k) (after := after) hb hms (eta := eta) (level := 1) rfl (gc := gc) (res := res)
  have h2 := fun gc res => checkMultiple_iff (k := k) (after := after) hb hms (eta := eta) (level := 2) rfl (gc := gc) (res := res)
  have h3 := fun gc res => checkMultiple_iff (k := k) (after := after) hb hms (eta := eta) (level := 3) rfl (gc := gc) (res := res)
  simp only [h0, h1, h2, h3, Option.some.injEq, exists_eq_left']
  exact ⟨web_parse_only rfl rfl, web_scope_only rfl rfl, fun hk => web_types_only hk rfl rfl, web_all_types, web_types_scope⟩

/-- C62. At all levels, nothing is said of a module that is not there. -/
theorem C62_missing (k : Kern) (fetch : Str → Option Str) (programs : List WebProgram) (main : Str) (eta : Bool) (level : Nat) (hl : level < 4)
    (gc : GCtx) (res : Option (Out Unit)) (hm : ∀ p ∈ programs, p.name ≠ main) :
    CheckMultiple k fetch programs main eta level gc res ↔ gc = GCtx.start eta ∧ res = none := by
  have hfind : programs.find? (fun q => q.name = main) = none := List.find?_eq_none.2 fun q hq => by simp [hm q hq]
  unfold CheckMultiple
  rw [hfind]
  match level, hl with
  | 0, _ => rfl
  | 1, _ => rfl
  | 2, _ => rfl
  | 3, _ => rfl

/-! ## Examples: the levels are different -/

/-- the verdict on a text at some level -/
def Example.level (om : Option Stage) (text : String) : Bool :=
  (inferChecksSeq (Kern.std 30 fun _ => true) ⟨false, om, false⟩ (GCtx.start false)
    (allCmds ⟨false, om, false⟩ ShState.new ([(str "main", str text)].map webFile))).2.isOk

theorem Example.level_iff {om : Option Stage} {text : String} {n : Nat} (hn : getOmit n = some om) :
    (∃ gc, CheckSingle (Kern.std 30 fun _ => true) (str text) false n gc (.ok ())) ↔ Example.level om text = true := by
  simp only [checkSingle_iff hn, consume_web (opt := ⟨false, om, false⟩) rfl]
  constructor
  · rintro ⟨gc, h⟩
    unfold Example.level
    rw [h]
    rfl
  · intro h
    exact ⟨_, Prod.ext rfl (Out.isOk_unit h)⟩

/-- A text that is accepted at level 2 only: the theorem has the wrong type. -/
example : (∃ gc, CheckSingle (Kern.std 30 fun _ => true) (str "A : Type. a : A. thm b : A := A.") false 2 gc (.ok ())) ∧
    ¬ ∃ gc, CheckSingle (Kern.std 30 fun _ => true) (str "A : Type. a : A. thm b : A := A.") false 3 gc (.ok ()) := by
  rw [Example.level_iff rfl, Example.level_iff rfl]
  decide +kernel

/-- A text that is accepted at level 1 only: what is declared is not of a type. -/
example : (∃ gc, CheckSingle (Kern.std 30 fun _ => true) (str "A : Type. a : A. b : a.") false 1 gc (.ok ())) ∧
    ¬ ∃ gc, CheckSingle (Kern.std 30 fun _ => true) (str "A : Type. a : A. b : a.") false 2 gc (.ok ()) := by
  rw [Example.level_iff rfl, Example.level_iff rfl]
  decide +kernel

/-- A text that is accepted at level 0 only: a name is not known. -/
example : (∃ gc, CheckSingle (Kern.std 30 fun _ => true) (str "A : Type. a : B.") false 0 gc (.ok ())) ∧
    ¬ ∃ gc, CheckSingle (Kern.std 30 fun _ => true) (str "A : Type. a : B.") false 1 gc (.ok ()) := by
  rw [Example.level_iff rfl, Example.level_iff rfl]
  decide +kernel

/-- A text that is not accepted at any level. -/
example : ¬ ∃ gc, CheckSingle (Kern.std 30 fun _ => true) (str "A : Type. a : A") false 0 gc (.ok ()) := by
  rw [Example.level_iff rfl]
  decide +kernel

#print axioms C62_parse_only
#print axioms C62_scope_only
#print axioms C62_types_only
#print axioms C62_kernel_unused
#print axioms C62_pipe_parse_only
#print axioms C62_pipe_scope_only
#print axioms C62_single_parse
#print axioms C62_single_scope
#print axioms C62_single_types
#print axioms C62_single_levels
#print axioms C62_no_level
#print axioms C62_multiple
#print axioms C62_missing

end Kontroli
