import Verif.Proofs.StrictDriver
import Verif.Props.Complete

/-!
# C38, C46: what is accepted is right by the textbook; accepted rules preserve types

The textbook system is `Strict` (`Spec/Typing.lean`); the assumptions are in `Spec/WellFormed.lean`.
-/

namespace Kontroli

/-- the type of a term has a sort, if it is typable -/
theorem Strict.sorted {T : Theory} (hT : T.WellFormed) {Γ : List Tm} (hΓ : WfCtx T Γ) {t A X : Tm} (hA : Strict T Γ A X) (h : Strict T Γ t A) :
    ∃ s, IsSort s ∧ Strict T Γ A s := by
  rcases h.typed hT.types hΓ with h1 | h1
  · have := hA.noKind
    rw [h1] at this
    exact this.elim
  · exact h1

/-! ## C38 for terms -/

/-- C38. An inferred type is derivable in the textbook system, if the rules are confluent and preserve types. -/
theorem C38_infer (gc : GCtx) (hcr : gc.theory.Church) (hT : gc.theory.WellFormed) (n : Nat) (rc : Nat → Bool)
    (lc lc' : LCtx) (hΓ : WfCtx gc.theory (lc.map STerm.den)) (t A : STerm) (s : St)
    (h : infer n gc lc t (St.init rc) = .ok ((A, lc'), s)) : Strict gc.theory (lc.map STerm.den) t.den A.den := by
  have hk : ∀ e ∈ lc, e.den.NoKind := fun e he => hΓ.noKind _ (List.mem_map_of_mem he)
  exact Inf.strict hT hcr ((TriG.ok (Tri.infer gc n lc t) h).2 hk).1 hΓ

/-- C38. If a term is accepted against a typable term then the latter is a type, and the judgement is derivable in the textbook system. -/
theorem C38_check (gc : GCtx) (hcr : gc.theory.Church) (hT : gc.theory.WellFormed) (n : Nat) (rc : Nat → Bool)
    (lc lc' : LCtx) (hΓ : WfCtx gc.theory (lc.map STerm.den)) (t A : STerm) (X : Tm) (hA : Strict gc.theory (lc.map STerm.den) A.den X) (s : St)
    (h : check n gc lc t A (St.init rc) = .ok ((true, lc'), s)) :
    (∃ s, IsSort s ∧ Strict gc.theory (lc.map STerm.den) A.den s) ∧ Strict gc.theory (lc.map STerm.den) t.den A.den := by
  have hk : ∀ e ∈ lc, e.den.NoKind := fun e he => hΓ.noKind _ (List.mem_map_of_mem he)
  exact Chk.strict hT hcr ((TriG.ok (Tri.check gc n lc t A) h).2 hk hA.noKind rfl) hΓ hA

/-- C38 and C44. For terms whose abstractions are annotated, and runs that end: a type is inferred if and only if there is one. -/
theorem C38_infer_exact (gc : GCtx) (hcr : gc.theory.Church) (hT : gc.theory.WellFormed) (hL : gc.Levelled)
    (n : Nat) (rc : Nat → Bool) (lc : LCtx) (hΓ : WfCtx gc.theory (lc.map STerm.den)) (hlc : ∀ A ∈ lc, A.den.Small) (t : STerm)
    (ht : t.den.Annotated) (hf : infer n gc lc t (St.init rc) ≠ .timeout) :
    (∃ r, infer n gc lc t (St.init rc) = .ok r) ↔ ∃ A, Strict gc.theory (lc.map STerm.den) t.den A := by
  constructor
  · rintro ⟨⟨⟨A, lc'⟩, s⟩, h⟩
    exact ⟨_, C38_infer gc hcr hT n rc lc lc' hΓ t A s h⟩
  · rintro ⟨A, h⟩
    rcases C44_infer_complete gc ⟨hcr, fun _ => hT⟩ hL n rc lc hlc (fun _ => hΓ) t ht A h with h | ⟨B, lc', s, h, -⟩
    · exact absurd h hf
    · exact ⟨_, h⟩

/-- C38 and C44. For terms whose abstractions are annotated, types that have a sort, and runs that end: the check answers yes if and only if the
term has the type. -/
theorem C38_check_exact (gc : GCtx) (hcr : gc.theory.Church) (hT : gc.theory.WellFormed) (hL : gc.Levelled)
    (n : Nat) (rc : Nat → Bool) (lc : LCtx) (hΓ : WfCtx gc.theory (lc.map STerm.den)) (hlc : ∀ A ∈ lc, A.den.Small) (t A : STerm)
    (ht : t.den.Annotated) (X : Tm) (hA : Strict gc.theory (lc.map STerm.den) A.den X) (hAl : A.den.Small ∨ A.den.IsKind)
    (hf : check n gc lc t A (St.init rc) ≠ .timeout) :
    (∃ lc' s, check n gc lc t A (St.init rc) = .ok ((true, lc'), s)) ↔ Strict gc.theory (lc.map STerm.den) t.den A.den := by
  constructor
  · rintro ⟨lc', s, h⟩
    exact (C38_check gc hcr hT n rc lc lc' hΓ t A X hA s h).2
  · intro h
    rcases C44_check_complete gc ⟨hcr, fun _ => hT⟩ hL n rc lc hlc (fun _ => hΓ) t A ht hAl (fun _ => Strict.sorted hT hΓ hA h) h with h | h
    · exact absurd h hf
    · exact h

/-- C38 and C44. For runs that end, and terms in which only constants may be applied to no arguments: a type is inferred if and only if there is one and
every abstraction without a type stands where its type is known. -/
theorem C38_infer_known (gc : GCtx) (hcr : gc.theory.Church) (hT : gc.theory.WellFormed) (hL : gc.Levelled)
    (n : Nat) (rc : Nat → Bool) (lc : LCtx) (hΓ : WfCtx gc.theory (lc.map STerm.den)) (hlc : ∀ A ∈ lc, A.den.Small) (t : STerm)
    (hp : t.Proper) (hf : infer n gc lc t (St.init rc) ≠ .timeout) :
    (∃ r, infer n gc lc t (St.init rc) = .ok r) ↔ t.den.Known false ∧ ∃ A, Strict gc.theory (lc.map STerm.den) t.den A := by
  constructor
  · rintro ⟨⟨⟨A, lc'⟩, s⟩, h⟩
    exact ⟨(C44_known gc n rc lc t).1 _ h, _, C38_infer gc hcr hT n rc lc lc' hΓ t A s h⟩
  · rintro ⟨hk, A, h⟩
    rcases C44_infer_typed gc ⟨hcr, fun _ => hT⟩ hL n rc lc hlc (fun _ => hΓ) t hp A h with h | ⟨-, B, lc', s, h, -⟩ | ⟨h, -⟩
    · exact absurd h hf
    · exact ⟨_, h⟩
    · exact absurd hk h

/-- C38 and C44. The same for checks against types that have a sort. -/
theorem C38_check_known (gc : GCtx) (hcr : gc.theory.Church) (hT : gc.theory.WellFormed) (hL : gc.Levelled)
    (n : Nat) (rc : Nat → Bool) (lc : LCtx) (hΓ : WfCtx gc.theory (lc.map STerm.den)) (hlc : ∀ A ∈ lc, A.den.Small) (t A : STerm)
    (hp : t.Proper) (X : Tm) (hA : Strict gc.theory (lc.map STerm.den) A.den X) (hAl : A.den.Small ∨ A.den.IsKind)
    (hf : check n gc lc t A (St.init rc) ≠ .timeout) :
    (∃ lc' s, check n gc lc t A (St.init rc) = .ok ((true, lc'), s)) ↔ t.den.Known true ∧ Strict gc.theory (lc.map STerm.den) t.den A.den := by
  constructor
  · rintro ⟨lc', s, h⟩
    exact ⟨(C44_known gc n rc lc t).2.1 _ _ _ h, (C38_check gc hcr hT n rc lc lc' hΓ t A X hA s h).2⟩
  · rintro ⟨hk, h⟩
    rcases C44_check_typed gc ⟨hcr, fun _ => hT⟩ hL n rc lc hlc (fun _ => hΓ) t A hp hAl (fun _ => Strict.sorted hT hΓ hA h) h with h | ⟨-, h⟩ | ⟨h, -⟩
    · exact absurd h hf
    · exact h
    · exact absurd hk h

/-! ## C46: accepted rules preserve types -/

/-- C46. If the rules are confluent and the types of the constants have sorts, then a rule preserves types if both its sides have a common type. -/
theorem C46_rule_preserves (T : Theory) (hcr : T.Church) (hT : T.Sorted) (r : Rule) (h : RuleTyped T r) :
    RulePreserves T r.lhs.symbol r := h.preserves hT hcr

/-- C46. Evaluation preserves types. -/
theorem C46_whnf (gc : GCtx) (hcr : gc.theory.Church) (hT : gc.theory.WellFormed) (n : Nat) (rc : Nat → Bool)
    (t u : STerm) (s : St) (h : whnf n gc t (St.init rc) = .ok (u, s)) (Γ : List Tm) (hΓ : WfCtx gc.theory Γ) (A : Tm)
    (ht : Strict gc.theory Γ t.den A) : Strict gc.theory Γ u.den A := by
  have h1 := (TriG.ok (Tri.whnf gc n t) h).1
  exact Strict.red hT hcr (hcr.toA h1) ht hΓ

/-! ## C38, C46 for commands and sessions -/

/-- C38. An accepted command is right by the textbook, and C46: keeps the context right. -/
theorem C38_command (gc : GCtx) (hcr : gc.theory.Church) (hR : gc.Right) (hU : gc.Untyped) (k : Kern) (hk : k.Real)
    (opt : Opt) (ho : opt.omits .check = false) (cmd : Cmd) (hw : cmd.WfCtx gc) (gc' : GCtx)
    (h : inferCheck k opt gc cmd = (gc', .ok ())) : CmdStrict gc cmd ∧ gc'.Right :=
  inferCheck_strict hcr (hR.wellFormed hcr hU) hk ho hR hw h

/-- C40 (partial: for confluent rules that preserve types). The type recorded by any accepted introduction has a sort. -/
theorem C40_accepted_partial (gc : GCtx) (hcr : gc.theory.Church) (hT : gc.theory.WellFormed) (n n' : Nat)
    (rc rc' : Nat → Bool) (i : Intro LTerm) (ty : Typing) (chk : Option Check) (s : St) (h : intro n gc i (St.init rc) = .ok ((ty, chk), s))
    (hc : ∀ c, chk = some c → ∃ s', Check.check n' gc c (St.init rc') = .ok ((), s')) :
    Strict gc.theory [] ty.ty.den .type ∨ Strict gc.theory [] ty.ty.den .kind := by
  have hp := TriG.ok (Tri.intro n i) h
  have hit : i ≠ .definition none none := by
    rintro rfl
    cases h
  obtain ⟨-, ⟨s, hs, h1⟩, -⟩ := hp.strict hcr hT (by
    intro c hc'
    obtain ⟨s', h9⟩ := hc c hc'
    exact TriG.ok (Tri.checkCheck n' _) h9) hit
  cases hs with
  | type => exact .inl h1
  | kind => exact .inr h1

theorem seqLoop_strict {k : Kern} (hk : k.Real) {opt : Opt} (ho : opt.omits .check = false) {gc gc' : GCtx} {cmds : List (Out Cmd)}
    (hR : gc.Right)
    (hp : ∀ pre post gci, cmds = pre ++ post → gci.Right → seqLoop k opt gc pre = (gci, .ok ()) → gci.theory.Church ∧ gci.Untyped)
    (hw : ∀ pre cmd post gci, cmds = pre ++ .ok cmd :: post → seqLoop k opt gc pre = (gci, .ok ()) → cmd.WfCtx gci)
    (h : seqLoop k opt gc cmds = (gc', .ok ())) :
    (gc'.Right ∧ gc'.theory.WellFormed) ∧
    ∀ pre cmd post gci, cmds = pre ++ .ok cmd :: post → seqLoop k opt gc pre = (gci, .ok ()) → CmdStrict gci cmd := by
  induction cmds generalizing gc with
  | nil =>
    cases h
    obtain ⟨h1, h2⟩ := hp [] [] _ rfl hR rfl
    exact ⟨⟨hR, hR.wellFormed h1 h2⟩, by rintro pre cmd post gci e; simp at e⟩
  | cons c cs ih =>
    obtain ⟨cmd, gc1, rfl, h1, h2⟩ := seqLoop_cons_ok h
    obtain ⟨hcr, hU⟩ := hp [] _ gc rfl hR rfl
    obtain ⟨h3, h4⟩ := C38_command gc hcr hR hU k hk opt ho cmd (hw [] cmd cs gc rfl rfl) gc1 h1
    have ih' := ih h4
      (by
        intro pre post gci e hr h5
        refine hp (.ok cmd :: pre) post gci (by rw [e]; rfl) hr ?_
        rw [seqLoop_cons h1]
        exact h5)
      (by
        intro pre cmd' post gci e h5
        refine hw (.ok cmd :: pre) cmd' post gci (by rw [e]; rfl) ?_
        rw [seqLoop_cons h1]
        exact h5) h2
    refine ⟨ih'.1, ?_⟩
    intro pre cmd' post gci e h5
    cases pre with
    | nil =>
      cases e
      cases h5
      exact h3
    | cons c' pre =>
      cases e
      rw [seqLoop_cons h1] at h5
      exact ih'.2 pre cmd' post gci rfl h5

theorem inferChecksSeq_all {opt : Opt} (ho : opt.omitted = none) (k : Kern) (gc : GCtx) (cmds : List (Out Cmd)) :
    inferChecksSeq k opt gc cmds = seqLoop k opt gc cmds := by
  have hoi : opt.omits .infer = false := by simp [Opt.omits, ho]
  have hf : cmds.filter (keepInfer opt) = cmds := by
    rw [List.filter_eq_self]; intro a _; simp [keepInfer, hoi]
  rw [inferChecksSeq, hf]

/-- C38, C46. Let a session be accepted from the empty context, without eta.  If the rules at the end are orthogonal, and all rules have types for their
variables, which have type `Type` where the rule is given (the code does not check this), and no wildcards, then every command is right by the
textbook in the context made by the commands before it; and the theory at the end is well-formed, so that evaluation preserves types. -/
theorem C38_session (k : Kern) (hk : k.Real) (opt : Opt) (ho : opt.omitted = none) (heta : opt.eta = false) (cmds : List (Out Cmd))
    (ht : ∀ rs, Out.ok (Cmd.rules rs) ∈ cmds → ∀ r ∈ rs, r.toT.isSome)
    (hw : ∀ pre cmd post gci, cmds = pre ++ .ok cmd :: post → inferChecksSeq k opt (GCtx.start opt.eta) pre = (gci, .ok ()) → cmd.WfCtx gci)
    (gc' : GCtx) (hO : Orthogonal gc'.rules) (h : inferChecksSeq k opt (GCtx.start opt.eta) cmds = (gc', .ok ())) :
    gc'.theory.WellFormed ∧
    ∀ pre cmd post gci, cmds = pre ++ .ok cmd :: post → inferChecksSeq k opt (GCtx.start opt.eta) pre = (gci, .ok ()) → CmdStrict gci cmd := by
  have hoc : opt.omits .check = false := by simp [Opt.omits, ho]
  simp only [inferChecksSeq_all ho] at hw h ⊢
  obtain ⟨⟨-, h1⟩, h2⟩ := seqLoop_strict hk hoc (GCtx.start_right _) (by
    rintro pre post gci rfl - h1
    obtain ⟨gc1, h2, h3⟩ := seqLoop_append_ok h
    rw [h1] at h2
    cases h2
    refine ⟨.plain ((seqLoop_grows h1).eta.trans heta) (hO.grows (seqLoop_grows h3)).confluent, ?_⟩
    intro s rs r h4 h5 h6
    rcases seqLoop_rules hk h1 s rs r h4 h5 with ⟨rs0, h7, -⟩ | ⟨ty, tm, -, rfl⟩ | ⟨rs', h7, h8, -⟩
    · simp [GCtx.start, GCtx.new] at h7
    · cases h6
    · have := ht rs' (List.mem_append_left _ h7) r h8
      rw [h6] at this
      cases this) hw h
  exact ⟨h1, h2⟩

/-- the rules made by definitions -/
theorem initRules_orthogonal {gc : GCtx} (hR : gc.Right) (h : ∀ s rs, gc.rules s = some rs → ∃ tm, rs = GCtx.initRules s tm) : Orthogonal gc.rules := by
  have key : ∀ s rs r, gc.rules s = some rs → r ∈ rs → rs = [r] ∧ ∃ tm, r = ⟨[], ⟨s, []⟩, tm⟩ := by
    intro s rs r h1 h2
    obtain ⟨tm, rfl⟩ := h s rs h1
    cases tm with
    | none => simp [GCtx.initRules] at h2
    | some tm =>
      simp only [GCtx.initRules, List.mem_singleton] at h2
      subst h2
      exact ⟨rfl, tm, rfl⟩
  refine ⟨?_, ?_, ?_, ?_⟩
  · intro s rs r h1 h2
    obtain ⟨-, tm, rfl⟩ := key s rs r h1 h2
    simp [Pattern.varsList]
  · intro s rs r h1 h2
    obtain ⟨-, h4⟩ := hR.rules s rs r h1 h2
    obtain ⟨-, tm, rfl⟩ := key s rs r h1 h2
    obtain ⟨t, h5, -, A, -, h6⟩ := h4 rfl
    cases h5
    exact h6.freeBelow
  · intro s rs r r' h1 h2 h3
    left
    obtain ⟨rfl, -⟩ := key s rs r h1 h2
    simp only [List.mem_singleton] at h3
    exact h3.symm
  · intro s rs r s' ps rs' r' us bs h1 h2 h3
    obtain ⟨-, tm, rfl⟩ := key s rs r h1 h2
    cases h3

/-- definitions make theories for which the results hold, with or without eta -/
theorem initRules_church {gc : GCtx} (hR : gc.Right) (h : ∀ s rs, gc.rules s = some rs → ∃ tm, rs = GCtx.initRules s tm) : gc.theory.Church := by
  have hO := initRules_orthogonal hR h
  cases he : gc.eta with
  | false => exact .plain he hO.confluent
  | true =>
    refine .eta he ⟨?_, ?_, ?_⟩ ?_
    · intro s rs r h1 h2
      obtain ⟨tm, rfl⟩ := h s rs h1
      cases tm with
      | none => simp [GCtx.initRules] at h2
      | some tm =>
        simp only [GCtx.initRules, List.mem_singleton] at h2
        rw [h2]
    · intro s rs r h1 h2
      obtain ⟨tm, rfl⟩ := h s rs h1
      cases tm with
      | none => simp [GCtx.initRules] at h2
      | some tm =>
        have h3 := hO.closed s _ r h1 h2
        simp only [GCtx.initRules, List.mem_singleton] at h2
        subst h2
        exact h3
    · intro s rs r r' h1 h2 h3
      obtain ⟨tm, rfl⟩ := h s rs h1
      cases tm with
      | none => simp [GCtx.initRules] at h2
      | some tm =>
        simp only [GCtx.initRules, List.mem_singleton] at h2 h3
        rw [h2, h3]
    · rintro s d ⟨rs, r, h1, -⟩
      cases ht : gc.types s with
      | none => rw [show gc.theory.rules s = gc.rules s from rfl, hR.dom s ht] at h1; cases h1
      | some A => exact ⟨A.den, by simp [GCtx.theory, ht]⟩

/-- C38, C46, without any assumption on rules, and with or without eta: if a session of introductions (declarations, definitions, theorems) is accepted
from the empty context, then every command is right by the textbook in the context made by the commands before it; the theory at the end is
well-formed, and the rules made by the definitions are confluent. -/
theorem C38_introductions (k : Kern) (hk : k.Real) (opt : Opt) (ho : opt.omitted = none) (cmds : List (Out Cmd))
    (ht : ∀ rs, Out.ok (Cmd.rules rs) ∉ cmds) (gc' : GCtx) (h : inferChecksSeq k opt (GCtx.start opt.eta) cmds = (gc', .ok ())) :
    (gc'.theory.WellFormed ∧ gc'.theory.Church ∧ Confluent gc'.rules) ∧
    ∀ pre cmd post gci, cmds = pre ++ .ok cmd :: post → inferChecksSeq k opt (GCtx.start opt.eta) pre = (gci, .ok ()) → CmdStrict gci cmd := by
  have hoc : opt.omits .check = false := by simp [Opt.omits, ho]
  simp only [inferChecksSeq_all ho] at h ⊢
  have init : ∀ {cs : List (Out Cmd)} {gc gci}, (∀ rs, Out.ok (Cmd.rules rs) ∉ cs) → (∀ s rs, gc.rules s = some rs → ∃ tm, rs = GCtx.initRules s tm) →
      seqLoop k opt gc cs = (gci, .ok ()) → ∀ s rs, gci.rules s = some rs → ∃ tm, rs = GCtx.initRules s tm := by
    intro cs
    induction cs with
    | nil => intro gc gci _ h1 h2; cases h2; exact h1
    | cons c cs ih =>
      intro gc gci h1 h2 h3
      obtain ⟨cmd, gc1, rfl, h4, h5⟩ := seqLoop_cons_ok h3
      refine ih (fun rs hm => h1 rs (List.mem_cons_of_mem _ hm)) ?_ h5
      cases cmd with
      | rules rs => exact absurd List.mem_cons_self (h1 rs)
      | intro s it =>
        obtain ⟨ty, chk, -, -, h6⟩ := inferWith_intro_ok h4
        obtain ⟨-, -, rfl⟩ := GCtx.insert_ok h6
        intro c rs hrs
        simp only at hrs
        split at hrs
        · simp only [mapInsert] at hrs
          split at hrs
          · next e => cases hrs; exact ⟨ty.tm, by rw [e]⟩
          · exact h2 c rs hrs
        · exact h2 c rs hrs
  have start : ∀ s rs, (GCtx.start opt.eta).rules s = some rs → ∃ tm, rs = GCtx.initRules s tm := by
    intro s rs h
    simp [GCtx.start, GCtx.new] at h
  obtain ⟨⟨h0, h1⟩, h2⟩ := seqLoop_strict hk hoc (GCtx.start_right _) (by
    rintro pre post gci rfl hr h1
    have h2 := init (fun rs hm => ht rs (List.mem_append_left _ hm)) start h1
    refine ⟨initRules_church hr h2, ?_⟩
    intro s rs r h4 h5 h6
    obtain ⟨tm, rfl⟩ := h2 s rs h4
    cases tm with
    | none => simp [GCtx.initRules] at h5
    | some tm =>
      simp only [GCtx.initRules, List.mem_singleton] at h5
      subst h5
      cases h6) (by
    rintro pre cmd post gci rfl -
    cases cmd with
    | intro s it => trivial
    | rules rs => exact absurd (List.mem_append_right _ List.mem_cons_self) (ht rs)) h
  exact ⟨⟨h1, initRules_church h0 (init ht start h), (initRules_orthogonal h0 (init ht start h)).confluent⟩, h2⟩

/-! ## Instances -/

/-- the context of natural numbers is right -/
theorem Example.right : Example.gc.Right := by
  have hn : ∀ Γ, Strict Example.gc.theory Γ (.const Example.nat) .type := fun Γ => .const rfl
  have hnn : ∀ Γ, Strict Example.gc.theory Γ (.pi (.const Example.nat) (.const Example.nat)) .type := fun Γ => .pi (hn _) (hn _) .type
  have hv : ∀ {Γ n}, Γ[n]? = some (Tm.const Example.nat) → Strict Example.gc.theory Γ (.var n) (.const Example.nat) := fun h => .var h
  have happ : ∀ {Γ a b}, Strict Example.gc.theory Γ a (.const Example.nat) → Strict Example.gc.theory Γ b (.const Example.nat) →
      Strict Example.gc.theory Γ (.app (.app (.const Example.plus) a) b) (.const Example.nat) := fun ha hb =>
    .app (A := .const Example.nat) (B := .const Example.nat)
      (.app (A := .const Example.nat) (B := .pi (.const Example.nat) (.const Example.nat)) (.const rfl) ha) hb
  have hsucc : ∀ {Γ a}, Strict Example.gc.theory Γ a (.const Example.nat) →
      Strict Example.gc.theory Γ (.app (.const Example.succ) a) (.const Example.nat) := fun ha =>
    .app (A := .const Example.nat) (B := .const Example.nat) (.const rfl) ha
  refine ⟨?_, ?_, ?_⟩
  · intro s h
    match s with
    | 0 => cases h
    | 1 => cases h
    | 2 => cases h
    | 3 => cases h
    | n + 4 => rfl
  · intro c A h
    match c with
    | 0 => cases h; exact ⟨.kind, .kind, .type⟩
    | 1 => cases h; exact ⟨.type, .type, hn _⟩
    | 2 => cases h; exact ⟨.type, .type, hnn _⟩
    | 3 => cases h; exact ⟨.type, .type, .pi (hn _) (hnn _) .type⟩
    | 4 => cases h; exact ⟨.type, .type, hn _⟩
    | n + 5 =>
      have h0 : Example.gc.types (n + 5) = none := rfl
      simp only [GCtx.theory, h0] at h
      cases h
  · intro s rs r h hr
    match s with
    | 0 => cases h
    | 1 => cases h
    | 2 => cases h
    | n + 4 => cases h
    | 3 =>
      cases h
      simp only [List.mem_cons, List.not_mem_nil, or_false] at hr
      rcases hr with rfl | rfl
      · refine ⟨rfl, fun _ => ⟨_, rfl, .cons .nil (hn _), .const Example.nat, happ (.const rfl) (hv rfl), hv rfl⟩⟩
      · refine ⟨rfl, fun _ => ⟨_, rfl, .cons (.cons .nil (hn _)) (hn _), .const Example.nat, happ (hsucc (hv rfl)) (hv rfl), hsucc (happ (hv rfl) (hv rfl))⟩⟩

/-- the theory of natural numbers is well-formed -/
theorem Example.wellFormed : Example.gc.theory.WellFormed := by
  refine Example.right.wellFormed (.plain rfl Example.orthogonal.confluent) ?_
  intro s rs r h hr ht
  match s with
  | 0 => cases h
  | 1 => cases h
  | 2 => cases h
  | n + 4 => cases h
  | 3 =>
    cases h
    simp only [List.mem_cons, List.not_mem_nil, or_false] at hr
    rcases hr with rfl | rfl <;> cases ht

/-- `x : Nat` is a well-formed local context -/
example : WfCtx Example.gc.theory (([.const Example.nat] : LCtx).map STerm.den) := .cons .nil (.const rfl)

/-- the declarations and rules of the example session fulfil the hypotheses of `C38_session` (for acceptance and orthogonality see
`Props/Complete.lean`) -/
example (k : Kern) (hk : k.Real) (pre : List (Out Cmd)) (cmd : Cmd) (post : List (Out Cmd)) (gci : GCtx)
    (e : Example.session.take 5 = pre ++ .ok cmd :: post)
    (h : inferChecksSeq k ⟨false, none, false⟩ (GCtx.start false) pre = (gci, .ok ())) : cmd.WfCtx gci := by
  cases cmd with
  | intro s it => trivial
  | rules rs =>
    have hrs : rs = [Example.plusZero, Example.plusSucc] := by
      have : Out.ok (Cmd.rules rs) ∈ Example.session.take 5 := by rw [e]; exact List.mem_append_right _ List.mem_cons_self
      simpa [Example.session] using this
    subst hrs
    have hn : gci.types Example.nat = some .type := by
      rw [inferChecksSeq_all rfl] at h
      cases pre with
      | nil => cases e
      | cons c pre =>
        obtain ⟨rfl, -⟩ := List.cons.inj e
        obtain ⟨cmd, gc1, h0, h1, h2⟩ := seqLoop_cons_ok h
        cases h0
        obtain ⟨ty, chk, h3, -, h4⟩ := inferWith_intro_ok h1
        obtain ⟨h6, h7, rfl⟩ := GCtx.insert_ok h4
        obtain ⟨n, rc, st, h5⟩ := hk.intro _ _ _ h3
        have hty : ty.ty = .type := (TriG.ok (Tri.intro n _) h5).given .type (.inl rfl)
        refine (seqLoop_grows h2).types _ _ ?_
        simp [mapInsert, hty]
    have hs : ∀ Γ, Strict gci.theory Γ (.const Example.nat) .type := fun Γ => .const (by simp [GCtx.theory, hn, LTerm.den])
    intro r hr t ht
    simp only [List.mem_cons, List.not_mem_nil, or_false] at hr
    rcases hr with rfl | rfl
    · cases ht
      exact .cons .nil (hs _)
    · cases ht
      exact .cons (.cons .nil (hs _)) (hs _)

/-- a session of introductions that is accepted: `Nat : Type. 0 : Nat. S : Nat -> Nat. def one := S 0. thm two : Nat := S one.` -/
def Example.introductions : List (Out Cmd) :=
  [.ok (.intro 0 (.declaration false .type)), .ok (.intro 1 (.declaration false (.const 0))),
   .ok (.intro 2 (.declaration true (Example.arrow (.const 0) (.const 0)))), .ok (.intro 3 (.definition none (some (Example.app 2 [.const 1])))),
   .ok (.intro 4 (.theorem_ (.const 0) (Example.app 2 [.const 3])))]

example : (inferChecksSeq (Kern.std 60 fun _ => false) ⟨false, none, false⟩ (GCtx.start false) Example.introductions).2.isOk = true := by
  decide +kernel

#print axioms C38_infer
#print axioms C38_check
#print axioms C38_infer_exact
#print axioms C38_check_exact
#print axioms C38_infer_known
#print axioms C38_check_known
#print axioms C38_command
#print axioms C38_session
#print axioms C38_introductions
#print axioms C40_accepted_partial
#print axioms C46_rule_preserves
#print axioms C46_whnf

end Kontroli
