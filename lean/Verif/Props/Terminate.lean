import Verif.Proofs.StaticNormal
import Verif.Proofs.Delivered
import Verif.Proofs.TerminateDriver
import Verif.Props.Correct
import Verif.Props.Confluence
import Verif.Props.Eta
import Verif.Props.Eval
import Verif.Props.Strict
import Verif.Proofs.NoErr

/-!
# C51, C52: what comes to an end

The model has fuel, and `timeout` stands for "more fuel is needed".  A computation comes to an end if from some fuel on its result is always the same and
not `timeout`.
-/

namespace Kontroli

/-! ## C51: strongly normalising terms and normalising theories -/

/-- C51. Evaluation of a strongly normalising term comes to an end, and yields a term; with eta, if the rules only unfold definitions. -/
theorem C51_whnf (gc : GCtx) (he : gc.eta = true → Definitional gc.rules) (rc : Nat → Bool) (t : STerm) (h : SN gc.rules gc.eta t.den) :
    ∃ n u s, ∀ m, n ≤ m → whnf m gc t (St.init rc) = .ok (u, s) := by
  obtain ⟨n, r, hr, hn⟩ := TH.whnfTerm (h.whStopsIn he) _ (World.init _ _ rc)
  have h1 := hn n le_rfl
  cases r with
  | ok p => exact ⟨n, p.1, p.2, hn⟩
  | err e => exact absurd h1 (NoErr.whnfTerm (opsNE gc n) t _ e)
  | panic => exact absurd h1 ((C08_no_panic gc n rc).1 t)
  | timeout => exact absurd rfl hr

/-- C51. The comparison of strongly normalising terms comes to an end, and answers; with eta, if the rules only unfold definitions. -/
theorem C51_convertible (gc : GCtx) (he : gc.eta = true → Definitional gc.rules) (rc : Nat → Bool) (t u : STerm) (ht : SN gc.rules gc.eta t.den)
    (hu : SN gc.rules gc.eta u.den) : ∃ n b s, ∀ m, n ≤ m → convertible m gc t u (St.init rc) = .ok (b, s) := by
  obtain ⟨n, r, hr, hn⟩ := SN.cvIn he ht hu _ (World.init _ _ rc)
  have h1 := hn n le_rfl
  cases r with
  | ok p => exact ⟨n, p.1, p.2, hn⟩
  | err e => exact absurd h1 ((opsNE gc n).cv _ _ e)
  | panic => exact absurd h1 ((C08_no_panic gc n rc).2.1 t u)
  | timeout => exact absurd rfl hr

/-- C51. If moreover, without eta, the rules are confluent, the comparison decides convertibility. -/
theorem C51_decides (gc : GCtx) (hR : Coherent gc.eta gc.rules) (rc : Nat → Bool) (t u : STerm) (ht : SN gc.rules gc.eta t.den)
    (hu : SN gc.rules gc.eta u.den) :
    ∃ n b s, (∀ m, n ≤ m → convertible m gc t u (St.init rc) = .ok (b, s)) ∧ (b = true ↔ Conv gc.rules gc.eta t.den u.den) := by
  obtain ⟨n, b, s, h⟩ := C51_convertible gc (fun he => by rw [he] at hR; exact hR) rc t u ht hu
  refine ⟨n, b, s, h, ?_⟩
  cases he : gc.eta with
  | false => rw [he] at hR; exact C43_decides gc he hR n rc t u b s (h n le_rfl)
  | true => rw [he] at hR; exact C43_eta_definitions gc he hR n rc t u b s (h n le_rfl)

section
variable (gc : GCtx) (hT : gc.theory.WellFormed) (hC : gc.theory.Church) (hN : gc.theory.Normalising) (rc : Nat → Bool)
include hT hC hN

/-- C51. In a well-formed and normalising theory, which is confluent (with eta: the rules only unfold definitions), inference for any term, typable or not, comes to an end. -/
theorem C51_infer (lc : LCtx) (hΓ : WfCtx gc.theory (lc.map STerm.den)) (t : STerm) :
    ∃ n r, r ≠ .timeout ∧ ∀ m, n ≤ m → infer m gc lc t (St.init rc) = r :=
  (stops hT hC hN t _ _ lc hΓ).1 _ (World.init _ _ rc)

/-- C51. Checking of any term against a type comes to an end. -/
theorem C51_check (lc : LCtx) (hΓ : WfCtx gc.theory (lc.map STerm.den)) (t ty : STerm) (X : Tm)
    (hty : Strict gc.theory (lc.map STerm.den) ty.den X) :
    ∃ n r, r ≠ .timeout ∧ ∀ m, n ≤ m → check m gc lc t ty (St.init rc) = r :=
  (stops hT hC hN t _ _ lc hΓ).2 ty ⟨X, hty⟩ _ (World.init _ _ rc)

/-- C51. The introduction of any name comes to an end. -/
theorem C51_intro (it : Intro LTerm) : ∃ n r, r ≠ .timeout ∧ ∀ m, n ≤ m → intro m gc it (St.init rc) = r :=
  TH.intro hT hC hN it _ (World.init _ _ rc)

end

theorem Coherent.static {eta : Bool} {R : RuleMap}
    (h : ∀ s rs, R s = some rs → rs = [] ∨ ∃ tm : LTerm, rs = [⟨[], ⟨s, []⟩, tm⟩] ∧ tm.den.FreeBelow 0) : Coherent eta R := by
  cases eta with
  | false => exact (Orthogonal.static h).confluent
  | true => exact Definitional.static h

/-- C51. The checks of tame commands (`Spec/Normalising.lean`), among them commands that are wrong and errors of earlier stages, come to an end. -/
theorem C51_session (rc : Nat → Bool) (opt : Opt) (eta : Bool) (ho : opt.omits .check = false) (cs : List (Out Cmd)) (hc : .timeout ∉ cs)
    (ht : ∀ pre post, cs = pre.map .ok ++ post → TameIn eta pre) :
    ∃ n gc res, res ≠ .timeout ∧ ∀ m, n ≤ m → seqLoop (Kern.std m rc) opt (GCtx.start eta) cs = (gc, res) := by
  obtain ⟨n, r, hr, hn⟩ := seqLoop_ends rc ho cs hc ht
  exact ⟨n, r.1, r.2, hr, hn⟩

theorem TameIn.prefix {eta : Bool} {pre post : List Cmd} (h : TameIn eta (pre ++ post)) : TameIn eta pre where
  full rs hm := h.full rs (List.mem_append_left _ hm)
  ctxs p rs q T e hS r hr Γ l u hc := h.ctxs p rs (q ++ post) T (by rw [e]; simp) hS r hr Γ l u hc
  coherent p q e := h.coherent p (q ++ post) (by rw [e]; simp)
  normalising p q T e hS := h.normalising p (q ++ post) T (by rw [e]; simp) hS

/-- C51. If the paths mean texts of a program whose names can be resolved, and its commands are tame, then a run without threads comes to an end. -/
theorem C51_run (rc : Nat → Bool) (opt : Opt) (ho : opt.omitted = none) (hj : opt.jobs = false) (fs : FileSystem)
    (stdin : Str) (paths : List Str) (srcs : List (List Str × Str)) (es : List Entry) (cmds : List Cmd) (h1 : Sources fs stdin paths srcs)
    (h2 : ProgramOf srcs es) (h3 : Shared [] es cmds) (ht : TameIn opt.eta cmds) :
    ∃ n gc res, res ≠ .timeout ∧ ∀ m, n ≤ m → ∀ gc' res', RunPaths (Kern.std m rc) opt fs stdin paths gc' res' ↔ gc' = gc ∧ res' = res := by
  have hall := allCmds_complete ho h2 SymInv.new h3
  obtain ⟨n, gc, res, h4, h5⟩ := C51_session rc opt opt.eta (Opt.omits_none ho _) (cmds.map .ok) (by simp) (by
    intro pre post e
    have e' : cmds.take pre.length = pre := by
      have hi : Function.Injective (List.map (Out.ok : Cmd → Out Cmd)) := List.map_injective_iff.2 fun a b h => by cases h; rfl
      refine hi ?_
      rw [List.map_take, e]; simp
    rw [← List.take_append_drop pre.length cmds, e'] at ht
    exact ht.prefix)
  refine ⟨n, gc, res, h4, fun m hm gc' res' => ?_⟩
  unfold RunPaths
  rw [openFiles_complete h1, C29_same_verdict _ opt hj _ (produce_ok_iff.2 ⟨_, rfl⟩)]
  unfold Consume InferChecks
  rw [hj, eventCmds_produce, hall]
  simp only [Bool.false_eq_true, if_false]
  rw [inferChecksSeq_all ho, h5 m hm, Prod.mk.injEq, eq_comm, eq_comm (b := res')]

/-- C51. So for regular and tame programs, the run decides whether the program is correct, and every abstraction without a type stands where its type
is known. -/
theorem C51_run_decides (rc : Nat → Bool) (opt : Opt) (ho : opt.omitted = none) (hj : opt.jobs = false) (fs : FileSystem)
    (stdin : Str) (paths : List Str) (srcs : List (List Str × Str)) (es : List Entry) (cmds : List Cmd) (h1 : Sources fs stdin paths srcs)
    (h2 : ProgramOf srcs es) (h3 : Shared [] es cmds) (ht : TameIn opt.eta cmds) (hr : RegularIn opt.eta es) :
    ∃ n, ∀ m, n ≤ m → ∃ gc res, RunPaths (Kern.std m rc) opt fs stdin paths gc res ∧ res ≠ .timeout ∧ (res = .ok () ↔ (∃ T, CorrectIn opt.eta es T) ∧ Directed es) := by
  obtain ⟨n, gc, res, h4, h5⟩ := C51_run rc opt ho hj fs stdin paths srcs es cmds h1 h2 h3 ht
  refine ⟨n, fun m hm => ?_⟩
  have h := (h5 m hm gc res).2 ⟨rfl, rfl⟩
  refine ⟨gc, res, h, h4, ?_⟩
  rw [C66_exact _ (Kern.std_exact m rc) opt ho hj fs stdin paths ?_ gc res h h4]
  · constructor
    · rintro ⟨srcs', es', T, k1, k2, k3, k4⟩
      obtain ⟨rfl, rfl⟩ := C41_unique _ _ _ _ _ _ _ k1 h1 k2 h2
      exact ⟨⟨T, k3⟩, k4⟩
    · rintro ⟨⟨T, hC⟩, hD⟩; exact ⟨srcs, es, T, h1, h2, hC, hD⟩
  · intro srcs' es' k1 k2
    obtain ⟨rfl, rfl⟩ := C41_unique _ _ _ _ _ _ _ k1 h1 k2 h2
    exact hr

/-! ## C52: programs without rewrite rules -/

/-- C52. In the theory made by right commands without rewrite rules (but with definitions), every typed term is strongly normalising. -/
theorem C52_normalising (cmds : List Cmd) (T : Theory) (eta : Bool) (h : SessionIn eta cmds T) (hn : ∀ rs, .rules rs ∉ cmds) (Γ : List Tm) (t A : Tm) (hΓ : WfCtx T Γ)
    (ht : Strict T Γ t A) : SN T.rules T.eta t := h.normalising hn Γ t A hΓ ht

/-- C52. If no text contains the arrow of rewrite rules, a run without threads, with or without eta, comes to an end, whatever else the texts contain. -/
theorem C52_ends (rc : Nat → Bool) (opt : Opt) (ho : opt.omitted = none) (hj : opt.jobs = false) (fs : FileSystem)
    (stdin : Str) (paths : List Str) (hi : ¬ str "-->" <:+: stdin) (hs : ∀ p ∈ paths, ∀ text, fs p = some text → ¬ str "-->" <:+: text) :
    ∃ n gc res, res ≠ .timeout ∧ ∀ m, n ≤ m → ∀ gc' res', RunPaths (Kern.std m rc) opt fs stdin paths gc' res' ↔ gc' = gc ∧ res' = res := by
  have hread : ∀ text, Readable fs stdin paths text → ¬ str "-->" <:+: text := by
    rintro text (rfl | rfl | ⟨p, hp, h⟩)
    · exact hi
    · intro h; exact absurd (List.IsInfix.length_le h) (by decide)
    · exact hs p hp text h
  have htame : ∀ pre post, delivered opt ShState.new (openFiles fs stdin paths) = pre.map .ok ++ post → TameIn opt.eta pre := by
    intro pre post h
    obtain ⟨es, h1, h2⟩ := delivered_shared ho SymInv.new (fun f hf => openFiles_readable hf) h
    have h3 : ∀ e ∈ es, ∀ rs, e.cmd ≠ .rules rs := by
      intro e hm rs hr
      obtain ⟨text, k1, k2⟩ := h2 e hm
      rw [hr] at k2
      exact hread text k1 (textCmds_arrow k2)
    have hn := h1.noRules h3
    have hnp : ∀ p q, pre = p ++ q → ∀ rs, .rules rs ∉ p := fun p q e rs hm => hn rs (e ▸ List.mem_append_left _ hm)
    refine ⟨fun rs h => absurd h (hn rs), fun p rs q T e => absurd (e ▸ List.mem_append_right p List.mem_cons_self) (hn rs), ?_, ?_⟩
    · intro p q e
      refine Coherent.static fun s rs hr => ?_
      obtain ⟨it, k1, k2⟩ := rulesOfCmds_static (hnp p q e) hr
      exact h1.static h3 s it (e ▸ List.mem_append_left _ k1) rs k2
    · exact fun p q T e hS => hS.normalising (hnp p q e)
  obtain ⟨n, gc, res, h1, h2⟩ := C51_session rc opt opt.eta (Opt.omits_none ho _) _
    (delivered_timeout ho (openFiles_timeout fs stdin paths) fun f hf => by
      obtain ⟨text, -, h⟩ := openFiles_readable hf
      rw [h]; exact parseText_timeout text) htame
  refine ⟨n, gc, res, h1, fun m hm gc' res' => ?_⟩
  unfold RunPaths Run
  rw [runFiles_iff ho hj, h2 m hm, Prod.mk.injEq, eq_comm, eq_comm (b := res')]

theorem Sources.readable {fs : FileSystem} {stdin : Str} {paths : List Str} {srcs : List (List Str × Str)} (h : Sources fs stdin paths srcs) :
    ∀ s ∈ srcs, s.2 = stdin ∨ s.2 = [] ∨ ∃ p ∈ paths, fs p = some s.2 := by
  induction h with
  | nil => nofun
  | stdin _ _ _ _ ih =>
    intro s hs
    rcases List.mem_cons.1 hs with rfl | hs
    · exact .inl rfl
    · rcases ih s hs with h | h | ⟨p, hp, h⟩
      · exact .inr (.inl h)
      · exact .inr (.inl h)
      · exact .inr (.inr ⟨p, List.mem_cons_of_mem _ hp, h⟩)
  | file _ _ _ hf _ ih =>
    intro s hs
    rcases List.mem_cons.1 hs with rfl | hs
    · exact .inr (.inr ⟨_, List.mem_cons_self, hf⟩)
    · rcases ih s hs with h | h | ⟨p, hp, h⟩
      · exact .inl h
      · exact .inr (.inl h)
      · exact .inr (.inr ⟨p, List.mem_cons_of_mem _ hp, h⟩)

theorem ProgramOf.static {srcs : List (List Str × Str)} {es : List Entry} (h : ProgramOf srcs es) (hs : ∀ s ∈ srcs, ¬ str "-->" <:+: s.2) :
    ∀ e ∈ es, ∀ rs, e.cmd ≠ .rules rs := by
  induction h with
  | nil => nofun
  | @cons m text cs srcs es ht _ ih =>
    intro e he rs hr
    rcases List.mem_append.1 he with he | he
    · obtain ⟨c, hc, rfl⟩ := List.mem_map.1 he
      have : cs = textCmds text := by unfold textCmds; rw [(textOf_iff _ _).1 ht]
      subst this
      simp only at hr
      subst hr
      exact hs _ List.mem_cons_self (textCmds_arrow hc)
    · exact ih (fun s h => hs s (List.mem_cons_of_mem _ h)) e he rs hr

/-- C52. If no text contains the arrow of rewrite rules, then a run without threads, with or without eta, decides whether the paths mean texts of a correct
program in which every abstraction without a type stands where its type is known: with enough fuel it has exactly one result, this is not `timeout`, and it is `ok` iff so. -/
theorem C52_decides (rc : Nat → Bool) (opt : Opt) (ho : opt.omitted = none) (hj : opt.jobs = false) (fs : FileSystem)
    (stdin : Str) (paths : List Str) (hi : ¬ str "-->" <:+: stdin) (hs : ∀ p ∈ paths, ∀ text, fs p = some text → ¬ str "-->" <:+: text) :
    ∃ n res, res ≠ .timeout ∧ (res = .ok () ↔ ∃ srcs es T, Sources fs stdin paths srcs ∧ ProgramOf srcs es ∧ CorrectIn opt.eta es T ∧ Directed es) ∧
      ∀ m, n ≤ m → ∀ res', (∃ gc, RunPaths (Kern.std m rc) opt fs stdin paths gc res') ↔ res' = res := by
  obtain ⟨n, gc, res, h1, h2⟩ := C52_ends rc opt ho hj fs stdin paths hi hs
  refine ⟨n, res, h1, ?_, fun m hm res' => ?_⟩
  · refine C66_static (Kern.std n rc) (Kern.std_exact n rc) opt ho hj fs stdin paths ?_ gc res ((h2 n le_rfl _ _).2 ⟨rfl, rfl⟩) h1
    intro srcs es k1 k2 e hm
    refine k2.static (fun s hs' => ?_) e hm
    rcases k1.readable s hs' with h | h | ⟨p, hp, h⟩
    · rw [h]; exact hi
    · rw [h]; intro h; exact absurd (List.IsInfix.length_le h) (by decide)
    · exact hs p hp _ h
  · constructor
    · rintro ⟨gc', h⟩; exact ((h2 m hm _ _).1 h).2
    · rintro rfl; exact ⟨gc, (h2 m hm _ _).2 ⟨rfl, rfl⟩⟩

/-- C52. The same for all runs, with threads or with a channel: with enough fuel, each accepts iff the program is correct and directed. -/
theorem C52_any (rc : Nat → Bool) (opt : Opt) (ho : opt.omitted = none) (fs : FileSystem)
    (stdin : Str) (paths : List Str) (hi : ¬ str "-->" <:+: stdin) (hs : ∀ p ∈ paths, ∀ text, fs p = some text → ¬ str "-->" <:+: text) :
    ∃ n, ∀ m, n ≤ m → ∀ res, (∃ gc, RunPaths (Kern.std m rc) opt fs stdin paths gc res) ∨ PipePaths (Kern.std m rc) opt fs stdin paths res →
      (res = .ok () ↔ ∃ srcs es T, Sources fs stdin paths srcs ∧ ProgramOf srcs es ∧ CorrectIn opt.eta es T ∧ Directed es) := by
  obtain ⟨n, gc, res, h1, h2⟩ := C52_ends rc { opt with jobs := false } ho rfl fs stdin paths hi hs
  refine ⟨n, fun m hm res' h => ?_⟩
  refine C66_any (Kern.std m rc) (Kern.std_exact m rc) opt ho fs stdin paths ?_ gc res ((h2 m hm _ _).2 ⟨rfl, rfl⟩) h1 res' h
  intro srcs es k1 k2
  refine .static (k2.static fun s hs' => ?_)
  rcases k1.readable s hs' with h | h | ⟨p, hp, h⟩
  · rw [h]; exact hi
  · rw [h]; intro h; exact absurd (List.IsInfix.length_le h) (by decide)
  · exact hs p hp _ h

/-! ## Example: numerals by iteration -/

/-- a program without rewrite rules, with one more definition -/
def Example.churchText (last : String) : Str :=
  str ("N : Type.\n0 : N.\nS : N -> N.\ndef twice : (N -> N) -> N -> N := f : (N -> N) => x : N => f (f x).\n" ++ last)

/-- commands for it -/
def Example.churchCmds : List Cmd :=
  let N : LTerm := .const 0
  let arrow (A B : LTerm) : LTerm := .comb (.prod ['$'] A B)
  [.intro 0 (.declaration false .type), .intro 1 (.declaration false N), .intro 2 (.declaration false (arrow N N)),
   .intro 3 (.definition (some (arrow (arrow N N) (arrow N N))) (some (.comb (.abst ['f'] (some (arrow N N))
     (.comb (.abst ['x'] (some N) (.comb (.appl (.var 1) [.comb (.appl (.var 1) [.var 0])])))))))),
   .intro 4 (.definition (some N) (some (.comb (.appl (.const 3) [.comb (.appl (.const 3) [.const 2]), .const 1]))))]

set_option maxRecDepth 100000 in
/-- The hypotheses of `C52_ends` hold for these texts, whatever the last definition is. -/
example : ∃ n gc res, res ≠ .timeout ∧ ∀ m, n ≤ m → ∀ gc' res',
    RunPaths (Kern.std m fun _ => true) ⟨false, none, false⟩ (Example.oneFile (Example.churchText "def four : N := twice (twice S) 0.\n")) [] [str "a.dk"] gc' res' ↔
      gc' = gc ∧ res' = res := by
  refine C52_ends (fun _ => true) ⟨false, none, false⟩ rfl rfl _ _ _ (by decide) ?_
  intro p _ text h
  unfold Example.oneFile at h
  split at h
  · cases h; decide +kernel
  · cases h

/-- the context after these commands -/
def Example.churchGc : GCtx := (seqLoop (Kern.std 60 fun _ => true) ⟨false, none, false⟩ (GCtx.start false) (Example.churchCmds.map .ok)).1

/-- The commands are right, so typed terms are strongly normalising. -/
theorem Example.churchSession : Session Example.churchCmds Example.churchGc.theory := by
  have hok : (seqLoop (Kern.std 60 fun _ => true) ⟨false, none, false⟩ (GCtx.start false) (Example.churchCmds.map .ok)).2.isOk = true := by
    decide +kernel
  obtain ⟨⟨⟩, hok⟩ := Out.isOk_iff.1 hok
  refine C49_session_sound (Kern.std 60 fun _ => true) (Kern.std_real _ _) ⟨false, none, false⟩ rfl _ ?_ ?_ (C49_orthogonal _ (by decide +kernel)) _
    (Prod.ext rfl hok)
  · intro rs h; simp [Example.churchCmds] at h
  · intro pre rs post T e
    have : Cmd.rules rs ∈ Example.churchCmds := e ▸ List.mem_append_right pre List.mem_cons_self
    simp [Example.churchCmds] at this

theorem Example.churchConfluent : Confluent Example.churchGc.rules := by
  rw [show Example.churchGc.rules = _ from Example.churchSession.rulesEq]
  exact C43_orthogonal _ (C49_orthogonal _ (by decide +kernel))

theorem Example.churchNormalising : Example.churchGc.theory.Normalising :=
  fun Γ t A => C52_normalising _ _ _ Example.churchSession (by simp [Example.churchCmds]) Γ t A

/-- `twice (twice S) 0` -/
def Example.churchFour : STerm := STerm.ofL (.comb (.appl (.const 3) [.comb (.appl (.const 3) [.const 2]), .const 1]))

/-- `twice (twice S) 0` is typed, so strongly normalising; its evaluation and its comparison with the constant `four` come to an end -/
example : SN Example.churchGc.rules Example.churchGc.eta Example.churchFour.den ∧
    (∃ n u s, ∀ m, n ≤ m → whnf m Example.churchGc Example.churchFour (St.init fun _ => false) = .ok (u, s)) ∧
    (∃ n r, r ≠ .timeout ∧ ∀ m, n ≤ m → infer m Example.churchGc [] (.scomb (.appl (.const 2) [.const 2])) (St.init fun _ => false) = r) := by
  have he : Example.churchGc.eta = false := Example.churchSession.eta
  have hT := Example.churchSession.wellFormed Example.churchConfluent
  have hN := Example.churchNormalising
  obtain ⟨⟨A, lc⟩, s, h, -⟩ : ∃ p s, infer 60 Example.churchGc [] Example.churchFour (St.init fun _ => true) = .ok (p, s) ∧ true = true :=
    Example.okAnd_elim (p := fun _ => true) (by decide +kernel)
  have h1 := hN _ _ _ .nil (C38_infer _ (.plain he Example.churchConfluent) hT _ _ _ _ .nil _ _ _ h)
  exact ⟨h1, C51_whnf _ (fun h => by rw [he] at h; cases h) _ _ h1, C51_infer _ hT (.plain he Example.churchConfluent) hN _ [] .nil _⟩

/-- The commands are tame, so `C51_session` speaks of them. -/
example : Tame Example.churchCmds := by
  refine ⟨fun rs h => ?_, fun p rs q T e => ?_, fun p q e => ?_, fun p q T e hS => hS.normalising fun rs h => ?_⟩
  · simp [Example.churchCmds] at h
  · have : Cmd.rules rs ∈ Example.churchCmds := e ▸ List.mem_append_right p List.mem_cons_self
    simp [Example.churchCmds] at this
  · have hp : p ∈ Example.churchCmds.inits := (List.mem_inits _ _).2 ⟨q, e.symm⟩
    refine (C49_orthogonal p ?_).confluent
    have : ∀ p ∈ Example.churchCmds.inits, orthogonal p = true := by decide +kernel
    exact this p hp
  · have : Cmd.rules rs ∈ Example.churchCmds := e ▸ List.mem_append_left q h
    simp [Example.churchCmds] at this

/-- the rule `loop --> loop` -/
def Example.loopGc : GCtx := { Example.gc with rules := fun s => if s = 7 then some [⟨[], ⟨7, []⟩, .const 7⟩] else none }

/-- C51. The hypothesis is needed: with the rule `loop --> loop`, evaluation of `loop` never comes to an end. -/
theorem C51_loop : ∃ (gc : GCtx) (t : STerm), gc.eta = false ∧ ∀ n rc, whnf n gc t (St.init rc) = .timeout := by
  refine ⟨Example.loopGc, .const 7, rfl, fun n rc => ?_⟩
  have key : ∀ n s, (ops Example.loopGc n).wh { ctx := [], term := .const 7, stack := [] } s = .timeout := by
    intro n
    induction n with
    | zero => intro s; rfl
    | succ n ih => exact fun s => ih s
  show M.bind _ _ _ = _
  unfold M.bind
  rw [key]

#print axioms C51_whnf
#print axioms C51_convertible
#print axioms C51_decides
#print axioms C51_infer
#print axioms C51_check
#print axioms C51_intro
#print axioms C51_session
#print axioms C51_run
#print axioms C51_run_decides
#print axioms C51_loop
#print axioms C52_normalising
#print axioms C52_ends
#print axioms C52_decides
#print axioms C52_any

end Kontroli
