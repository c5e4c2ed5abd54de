import Verif.Proofs.Structural
import Verif.Props.Terminate

/-!
# C58: structurally recursive rules terminate
-/

namespace Kontroli

/-- C58. In the theory made by right commands with orthogonal, structurally recursive rules (`Spec/Structural.lean`), every typed term is strongly
normalising. -/
theorem C58_normalising (cmds : List Cmd) (T : Theory) (h : Session cmds T) (ho : Orthogonal (rulesOfCmds cmds)) (hs : Structural cmds) (Γ : List Tm)
    (t A : Tm) (hΓ : WfCtx T Γ) (ht : Strict T Γ t A) : SN T.rules T.eta t := h.normalising_structural ho hs Γ t A hΓ ht

/-- C58. The criterion can be tested. -/
theorem C58_test (lv pos : Sym → Nat) (cmds : List Cmd) (h : structural lv pos cmds = true) : Structural cmds := structural_sound h

/-- C58. Regular programs with structurally recursive rules have tame commands. -/
theorem C58_tame (es : List Entry) (cmds : List Cmd) (h : Shared [] es cmds) (hr : Regular es) (hs : Structural cmds) : Tame cmds := by
  have ho : ∀ pre post, cmds = pre ++ post → Orthogonal (rulesOfCmds pre) := by
    rintro pre post rfl
    refine Orthogonal.sub (fun s rs r h1 h2 => ?_) (hr.orthogonal _ h)
    obtain ⟨rs', k1, k2⟩ := rulesOfCmds_prefix h.introduced.1 h1
    exact ⟨rs', k1, k2 r h2⟩
  refine ⟨h.full hr.full, hr.ctxs cmds h, fun pre post e => (ho pre post e).confluent, fun pre post T e hS => ?_⟩
  subst e
  exact hS.normalising_structural (ho pre post rfl) (hs.prefix h.introduced.1)

section
variable (rc : Nat → Bool) (opt : Opt) (ho : opt.omitted = none) (he : opt.eta = false) (hj : opt.jobs = false) (fs : FileSystem) (stdin : Str)
  (paths : List Str) (srcs : List (List Str × Str)) (es : List Entry) (cmds : List Cmd) (h1 : Sources fs stdin paths srcs) (h2 : ProgramOf srcs es)
  (h3 : Shared [] es cmds) (hr : Regular es) (hs : Structural cmds)
include ho he hj h1 h2 h3 hr hs

/-- C58. A run without threads on a regular program with structurally recursive rules comes to an end, also if the program is wrong. -/
theorem C58_ends : ∃ n gc res, res ≠ .timeout ∧ ∀ m, n ≤ m → ∀ gc' res', RunPaths (Kern.std m rc) opt fs stdin paths gc' res' ↔ gc' = gc ∧ res' = res :=
  C51_run rc opt ho hj fs stdin paths srcs es cmds h1 h2 h3 (by rw [he]; exact C58_tame es cmds h3 hr hs)

/-- C58. It decides whether the program is correct, and every abstraction without a type stands where its type is known. -/
theorem C58_decides : ∃ n, ∀ m, n ≤ m → ∃ gc res, RunPaths (Kern.std m rc) opt fs stdin paths gc res ∧ res ≠ .timeout ∧
    (res = .ok () ↔ (∃ T, Correct es T) ∧ Directed es) := by
  obtain ⟨_, _, _⟩ := opt
  cases he
  exact C51_run_decides rc _ ho hj fs stdin paths srcs es cmds h1 h2 h3 (C58_tame es cmds h3 hr hs) hr

end

/-! ## Examples -/

/-- numbers and addition: the recursion is on the first argument -/
theorem Example.addStructural (body : LTerm) (h : structural (fun s => s) (fun _ => 0) (Example.cmds body) = true) : Structural (Example.cmds body) :=
  C58_test _ _ _ h

set_option maxRecDepth 100000 in
/-- The hypotheses hold for the right and for the wrong program about addition of Props/Correct.lean. -/
example (text : Str) (h : text = Example.goodText ∨ text = Example.badText) : ∃ n, ∀ m, n ≤ m → ∃ gc res,
    RunPaths (Kern.std m fun _ => false) ⟨false, none, false⟩ (Example.oneFile text) [] [str "a.dk"] gc res ∧ res ≠ .timeout := by
  have key : ∀ text cs body, TextOf text cs → allCmds ⟨false, none, false⟩ ShState.new [⟨[str "a"], parseText text⟩] = (Example.cmds body).map .ok →
      structural (fun s => s) (fun _ => 0) (Example.cmds body) = true →
      (∀ srcs es, Sources (Example.oneFile text) [] [str "a.dk"] srcs → ProgramOf srcs es → Regular es) →
      ∃ n, ∀ m, n ≤ m → ∃ gc res, RunPaths (Kern.std m fun _ => false) ⟨false, none, false⟩ (Example.oneFile text) [] [str "a.dk"] gc res ∧ res ≠ .timeout := by
    intro text cs body ht hc hb hR
    have hsrc : Sources (Example.oneFile text) [] [str "a.dk"] [([str "a"], text)] := by
      refine .file (pieces := [str "a.dk"]) ?_ ?_ ?_ (if_pos rfl) .nil
      · exact ⟨by decide, by decide, by decide⟩
      · exact (C36_module_path _ (by decide) (by decide) _).1 (by decide)
      · intro h; exact absurd h.1 (by decide)
    have hprog : ProgramOf [([str "a"], text)] (cs.map (Entry.mk [str "a"])) := by
      have := ProgramOf.cons (m := [str "a"]) ht .nil
      rwa [List.append_nil] at this
    have hsh : Shared [] (cs.map (Entry.mk [str "a"])) (Example.cmds body) := by
      have := program_spec (opt := ⟨false, none, false⟩) rfl (Example.oneFile text) [str "a.dk"] [] ShState.new [] [⟨[str "a"], parseText text⟩] .new rfl
        (by rw [hc]; intro c hc; obtain ⟨a, -, rfl⟩ := List.mem_map.1 hc; rfl)
      obtain ⟨srcs, es, cmds, k1, k2, k3, k4⟩ := this
      obtain ⟨rfl, rfl⟩ := C41_unique _ _ _ _ _ _ _ k1 hsrc k2 hprog
      rw [hc] at k3
      rw [List.map_injective_iff.2 (fun a b h => by cases h; rfl) k3]
      exact k4
    obtain ⟨n, h⟩ := C58_decides (fun _ => false) ⟨false, none, false⟩ rfl rfl rfl _ _ _ _ _ _ hsrc hprog hsh (hR _ _ hsrc hprog) (Example.addStructural body hb)
    exact ⟨n, fun m hm => let ⟨gc, res, a, b, _⟩ := h m hm; ⟨gc, res, a, b⟩⟩
  rcases h with rfl | rfl
  · exact key _ _ _ Example.goodText_of Example.goodCmds (by decide +kernel) Example.goodRegular
  · exact key _ _ _ Example.badText_of Example.badCmds (by decide +kernel) Example.badRegular

/-- the rule `[X : D -> D, Y : D] app (c X) Y --> X Y` -/
def Example.nestedRule : Rule :=
  ⟨[(str "X", some (.comb (.prod ['$'] (.const 0) (.const 0)))), (str "Y", some (.const 0))], ⟨2, [.symb 1 [.mvar 1], .mvar 0]⟩, .comb (.appl (.var 1) [.var 0])⟩

/-- commands for `D : Type. c : (D -> D) -> D. def app : D -> D -> D. [X : D -> D, Y : D] app (c X) Y --> X Y.` -/
def Example.nestedCmds : List Cmd :=
  let D : LTerm := .const 0
  let arrow (A B : LTerm) : LTerm := .comb (.prod ['$'] A B)
  [.intro 0 (.declaration false .type), .intro 1 (.declaration false (arrow (arrow D D) D)), .intro 2 (.definition (some (arrow D (arrow D D))) none),
   .rules [Example.nestedRule]]

/-- the context after these commands -/
def Example.nestedGc : GCtx := (seqLoop (Kern.std 30 fun _ => true) ⟨false, none, false⟩ (GCtx.start false) (Example.nestedCmds.map .ok)).1

theorem Example.nestedCtxs : CtxsRight Example.nestedCmds := by
  intro pre rs post T e hS
  match pre, e with
  | [], e => simp [Example.nestedCmds] at e
  | [_], e => simp [Example.nestedCmds] at e
  | [_, _], e => simp [Example.nestedCmds] at e
  | [a, b, c], e =>
    simp only [Example.nestedCmds, List.cons_append, List.nil_append, List.cons.injEq, Cmd.rules.injEq] at e
    obtain ⟨rfl, rfl, rfl, rfl, -⟩ := e
    have h0 := hS.declaredType (s := 0) (b := false) (ty := .type) (by simp)
    have hD : ∀ Γ, Strict T Γ (.const 0) .type := fun Γ => .const h0
    intro r hr Γ l u hc
    rw [List.mem_singleton] at hr
    subst hr
    obtain ⟨tys, h1, rfl, -⟩ := hc
    have : tys = [.comb (.prod ['$'] (.const 0) (.const 0)), .const 0] := by
      match tys, h1 with
      | [t, t'], h1 => simpa [Example.nestedRule, eq_comm] using h1
    subst this
    exact .cons (.cons .nil (.pi (hD _) (hD _) .type)) (hD _)
  | _ :: _ :: _ :: _ :: l, e =>
    have := congrArg List.length e
    simp [Example.nestedCmds] at this

theorem Example.nestedSession : Session Example.nestedCmds Example.nestedGc.theory := by
  have hok : (seqLoop (Kern.std 30 fun _ => true) ⟨false, none, false⟩ (GCtx.start false) (Example.nestedCmds.map .ok)).2.isOk = true := by
    decide +kernel
  obtain ⟨⟨⟩, hok⟩ := Out.isOk_iff.1 hok
  refine C49_session_sound (Kern.std 30 fun _ => true) (Kern.std_real _ _) ⟨false, none, false⟩ rfl _ ?_ Example.nestedCtxs
    (C49_orthogonal _ (by decide +kernel)) _ (Prod.ext rfl hok)
  intro rs h r hr
  simp only [Example.nestedCmds, List.mem_cons, reduceCtorEq, List.not_mem_nil, or_false, false_or, Cmd.rules.injEq] at h
  subst h
  rw [List.mem_singleton] at hr
  subst hr
  exact ⟨_, _, _, [_, _], rfl, rfl, Pattern.term_patTm _ _ rfl, rfl⟩

/-- `x : D => app x x` -/
def Example.selfApp : Tm := .lam (.const 0) (.app (.app (.const 2) (.var 0)) (.var 0))

/-- `app (c (x => app x x)) (c (x => app x x))` -/
def Example.omega : Tm := .app (.app (.const 2) (.app (.const 1) Example.selfApp)) (.app (.const 1) Example.selfApp)

/-- C58. The condition on the types of variables inside patterns is needed: without it, right commands with one orthogonal rule whose right-hand side
contains no constants at all can make a theory in which some typed term has an infinite reduction. -/
theorem C58_nested_false : ¬ ∀ cmds T, Session cmds T → Orthogonal (rulesOfCmds cmds) → RulesForObjects cmds →
    (∃ lv pos, ∀ s rs r, rulesOfCmds cmds s = some rs → r ∈ rs → r.rhs.den.Descends lv pos r 0) → T.Normalising := by
  intro H
  have hS := Example.nestedSession
  have hN := H _ _ hS (C49_orthogonal _ (by decide +kernel)) ?_ ?_
  · have h0 := hS.declaredType (s := 0) (b := false) (ty := .type) (by simp [Example.nestedCmds])
    have h1 : Example.nestedGc.theory.ty 1 = some (.pi (.pi (.const 0) (.const 0)) (.const 0)) := by
      obtain ⟨A, k1, -, k2, -⟩ := hS.introduced (List.mem_of_getElem? (i := 1) rfl : _ ∈ Example.nestedCmds)
      rw [k1, k2 _ rfl]; rfl
    have h2 : Example.nestedGc.theory.ty 2 = some (.pi (.const 0) (.pi (.const 0) (.const 0))) := by
      obtain ⟨A, k1, -, k2, -⟩ := hS.introduced (List.mem_of_getElem? (i := 2) rfl : _ ∈ Example.nestedCmds)
      rw [k1, k2 _ rfl]; rfl
    have hD : ∀ Γ, Strict Example.nestedGc.theory Γ (.const 0) .type := fun Γ => .const h0
    have hx : Strict Example.nestedGc.theory [.const 0] (.var 0) (.const 0) := .var (A := .const 0) rfl
    have happ : ∀ Γ a b, Strict Example.nestedGc.theory Γ a (.const 0) → Strict Example.nestedGc.theory Γ b (.const 0) →
        Strict Example.nestedGc.theory Γ (.app (.app (.const 2) a) b) (.const 0) := fun Γ a b ha hb =>
      .app (B := .const 0) (.app (B := .pi (.const 0) (.const 0)) (.const h2) ha) hb
    have hw : Strict Example.nestedGc.theory [] Example.selfApp (.pi (.const 0) (.const 0)) := .lam (hD _) (happ _ _ _ hx hx) (hD _) .type
    have hc : Strict Example.nestedGc.theory [] (.app (.const 1) Example.selfApp) (.const 0) := .app (B := .const 0) (.const h1) hw
    have hsn := hN [] Example.omega (.const 0) .nil (happ _ _ _ hc hc)
    have h3 : Step Example.nestedGc.theory.rules Example.nestedGc.theory.eta Example.omega (.app Example.selfApp (.app (.const 1) Example.selfApp)) := by
      rw [hS.rulesEq]
      refine .rule (s := 2) (rs := [Example.nestedRule]) (r := Example.nestedRule) (σ := fun n => match n with
          | 0 => .app (.const 1) Example.selfApp
          | 1 => Example.selfApp
          | n => .var n) (ts := [.app (.const 1) Example.selfApp, .app (.const 1) Example.selfApp]) rfl List.mem_cons_self ?_
        (.cons (p := .symb 1 [.mvar 1]) (.symb (ts := [Example.selfApp]) (.cons (.mvar _ _) .nil)) (.cons (.mvar _ _) .nil)) ?_ ?_
      · intro m
        simp [Example.nestedRule, Pattern.varsList, Pattern.vars]
        omega
      · constructor
        · intro m t h
          match m, h with
          | 0, h => cases h; rfl
          | 1, h => cases h; rfl
          | m + 2, h => simp [List.lookup] at h
        · intro b hb
          simp only [List.cons_append, List.nil_append, List.append_nil, List.mem_cons, List.not_mem_nil, or_false] at hb
          rcases hb with rfl | rfl <;> exact .refl _
      · intro m hm
        match m, hm with
        | m + 2, _ => exact ⟨m + 2, rfl⟩
    have h4 : Step Example.nestedGc.theory.rules Example.nestedGc.theory.eta (.app Example.selfApp (.app (.const 1) Example.selfApp)) Example.omega := .beta _ _ _
    have h5 : ∀ t, SN Example.nestedGc.theory.rules Example.nestedGc.theory.eta t → t ≠ Example.omega ∧ t ≠ .app Example.selfApp (.app (.const 1) Example.selfApp) := by
      intro t ht
      induction ht with
      | intro t _ ih => exact ⟨fun e => (ih _ (e ▸ h3)).2 rfl, fun e => (ih _ (e ▸ h4)).1 rfl⟩
    exact (h5 _ hsn).1 rfl
  · refine objects_sound fun rs h r hr => ?_
    simp only [Example.nestedCmds, List.mem_cons, reduceCtorEq, List.not_mem_nil, or_false, false_or, Cmd.rules.injEq] at h
    subst h
    rw [List.mem_singleton] at hr
    subst hr
    rfl
  · refine ⟨fun _ => 0, fun _ => 0, fun s rs r hs hr => ?_⟩
    have := (rulesOfCmds_mem hs hr).1
    rw [show allRules Example.nestedCmds = [_] from rfl, List.mem_singleton] at this
    subst this
    exact .app .var .var

#print axioms C58_normalising
#print axioms C58_test
#print axioms C58_tame
#print axioms C58_ends
#print axioms C58_decides
#print axioms C58_nested_false

end Kontroli
