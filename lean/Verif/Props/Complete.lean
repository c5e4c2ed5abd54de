import Verif.Proofs.KnownDriver
import Verif.Props.Refuse
import Verif.Props.Session

/-!
# C44, C45: right commands and sessions are accepted; levels are an invariant
-/

namespace Kontroli

/-- C44. A command that is right by the textbook (`CmdStrict`: a new name whose type has a sort and whose body has the type, or rules both sides of
which have a common type) and whose abstractions are annotated is accepted, unless the run lacks fuel. -/
theorem C44_command_complete (gc : GCtx) (hC : gc.Apt) (hL : gc.Levelled) (k : Kern) (hk : k.Exact)
    (opt : Opt) (cmd : Cmd) (hw : gc.eta = true → cmd.WfCtx gc) (ha : cmd.Annotated) (hl : cmd.Levelled) (h : CmdStrict gc cmd) :
    (inferCheck k opt gc cmd).2 = .ok () ∨ (inferCheck k opt gc cmd).2 = .timeout :=
  (inferCheck_complete hC hL hk opt ha.dfaFree hl hw h).imp (fun ⟨(), h⟩ => h) id

/-- C44. It suffices that every abstraction without a type stands where its type is known, if only constants are applied to no arguments. -/
theorem C44_command_known (gc : GCtx) (hC : gc.Apt) (hL : gc.Levelled) (k : Kern) (hk : k.Exact)
    (opt : Opt) (cmd : Cmd) (hw : gc.eta = true → cmd.WfCtx gc) (hp : cmd.Proper) (ha : cmd.Known) (hl : cmd.Levelled) (h : CmdStrict gc cmd) :
    (inferCheck k opt gc cmd).2 = .ok () ∨ (inferCheck k opt gc cmd).2 = .timeout :=
  (inferCheck_complete hC hL hk opt (ha.dfaFree hp) hl hw h).imp (fun ⟨(), h⟩ => h) id

/-- C44. This is also necessary: in an accepted command every abstraction without a type stands where its type is known (rules without types for all
their variables, which are not checked, aside). -/
theorem C44_command_necessary (gc gc' : GCtx) (k : Kern) (hk : k.Real) (opt : Opt) (ho : opt.omits .check = false) (cmd : Cmd)
    (hf : ∀ rs, cmd = .rules rs → ∀ r ∈ rs, r.toT.isSome) (h : inferCheck k opt gc cmd = (gc', .ok ())) : cmd.Known :=
  inferCheck_known hk ho hf h

/-- C45. Accepted commands keep the levels. -/
theorem C45_command_levelled (gc : GCtx) (hC : gc.Apt) (hL : gc.Levelled) (k : Kern) (hk : k.Real)
    (opt : Opt) (ho : opt.omits .check = false) (cmd : Cmd) (hl : cmd.Levelled) (gc' : GCtx)
    (h : inferCheck k opt gc cmd = (gc', .ok ())) : gc'.Levelled :=
  inferCheck_levelled hC hL hk ho hl h

/-- the empty context is levelled -/
theorem GCtx.start_levelled (eta : Bool) : (GCtx.start eta).Levelled :=
  ⟨fun _ _ h => by simp [GCtx.start, GCtx.new] at h, fun _ _ _ h => by simp [GCtx.start, GCtx.new] at h⟩

/-- fewer rules are still orthogonal -/
theorem Orthogonal.sub {R R' : RuleMap} (up : ∀ s rs r, R s = some rs → r ∈ rs → ∃ rs', R' s = some rs' ∧ r ∈ rs')
    (h : Orthogonal R') : Orthogonal R := by
  refine ⟨?_, ?_, ?_, ?_⟩
  · intro s rs r h1 h2
    obtain ⟨rs', k1, k2⟩ := up s rs r h1 h2
    exact h.linear s rs' r k1 k2
  · intro s rs r h1 h2
    obtain ⟨rs', k1, k2⟩ := up s rs r h1 h2
    exact h.closed s rs' r k1 k2
  · intro s rs r r' h1 h2 h3
    obtain ⟨rs', k1, k2⟩ := up s rs r h1 h2
    obtain ⟨rs'', k3, k4⟩ := up s rs r' h1 h3
    rw [k1] at k3
    cases k3
    exact h.root s rs' r r' k1 k2 k4
  · intro s rs r s' ps rs' r' us bs h1 h2 h3 h4 h5
    obtain ⟨l1, k1, k2⟩ := up s rs r h1 h2
    obtain ⟨l2, k3, k4⟩ := up s' rs' r' h4 h5
    exact h.inner s l1 r s' ps l2 r' us bs k1 k2 h3 k3 k4

theorem Orthogonal.grows {gc gc' : GCtx} (hg : gc.Grows gc') (h : Orthogonal gc'.rules) : Orthogonal gc.rules := by
  refine h.sub ?_
  intro s rs r h1 h2
  obtain ⟨more, h3⟩ := hg.rules s rs h1
  exact ⟨_, h3, List.mem_append_left _ h2⟩

theorem seqLoop_levelled {k : Kern} (hk : k.Real) {opt : Opt} (ho : opt.omits .check = false) {gc gc' : GCtx} {cmds : List (Out Cmd)}
    (heta : gc.eta = false) (hL : gc.Levelled) (hl : ∀ c, Out.ok c ∈ cmds → c.Levelled)
    (hcr : ∀ pre post gci, cmds = pre ++ post → post ≠ [] → seqLoop k opt gc pre = (gci, .ok ()) → Confluent gci.rules)
    (h : seqLoop k opt gc cmds = (gc', .ok ())) : gc'.Levelled := by
  induction cmds generalizing gc with
  | nil => cases h; exact hL
  | cons c cs ih =>
    obtain ⟨cmd, gc1, rfl, h1, h2⟩ := seqLoop_cons_ok h
    refine ih ((inferWith_grows h1).eta.trans heta) ?_ (fun c hc => hl c (List.mem_cons_of_mem _ hc)) ?_ h2
    · exact inferCheck_levelled (.plain heta (hcr [] _ gc rfl (by simp) rfl)) hL hk ho (hl cmd List.mem_cons_self) h1
    · intro pre post gci e hp h3
      refine hcr (.ok cmd :: pre) post gci (by rw [e]; rfl) hp ?_
      rw [seqLoop_cons h1]
      exact h3

/-- C45. Let a session be accepted from the empty context, without eta.  If its commands respect the levels where the code does not check it
(`Cmd.Levelled`) and the rules at the end are orthogonal, then the final context is levelled: `Type` occurs only at the end of the types of
constants, and not in rules. -/
theorem C45_session_levelled (k : Kern) (hk : k.Real) (opt : Opt) (ho : opt.omitted = none) (heta : opt.eta = false) (cmds : List (Out Cmd))
    (hl : ∀ c, Out.ok c ∈ cmds → c.Levelled) (gc' : GCtx) (hO : Orthogonal gc'.rules)
    (h : inferChecksSeq k opt (GCtx.start opt.eta) cmds = (gc', .ok ())) : gc'.Levelled := by
  have hoc : opt.omits .check = false := by simp [Opt.omits, ho]
  have hoi : opt.omits .infer = false := by simp [Opt.omits, ho]
  have hf : ∀ l : List (Out Cmd), l.filter (keepInfer opt) = l := by
    intro l; rw [List.filter_eq_self]; intro a _; simp [keepInfer, hoi]
  rw [inferChecksSeq, hf] at h
  refine seqLoop_levelled hk hoc heta (GCtx.start_levelled _) hl ?_ h
  rintro pre post gci rfl _ h1
  obtain ⟨gc1, h2, h3⟩ := seqLoop_append_ok h
  rw [h1] at h2
  cases h2
  exact (hO.grows (seqLoop_grows h3)).confluent

theorem seqLoop_complete {k : Kern} (hk : k.Exact) {opt : Opt} (ho : opt.omits .check = false) {gc : GCtx} {cmds : List (Out Cmd)}
    (heta : gc.eta = false) (hL : gc.Levelled)
    (h : ∀ pre c post gci, cmds = pre ++ c :: post → seqLoop k opt gc pre = (gci, .ok ()) → Confluent gci.rules ∧
      ∃ cmd, c = .ok cmd ∧ cmd.Annotated ∧ cmd.Levelled ∧ CmdStrict gci cmd) :
    (seqLoop k opt gc cmds).2 = .ok () ∨ (seqLoop k opt gc cmds).2 = .timeout := by
  induction cmds generalizing gc with
  | nil => exact .inl rfl
  | cons c cs ih =>
    obtain ⟨hcr, cmd, rfl, h1, h2, h3⟩ := h [] c cs gc rfl rfl
    rcases hr : inferCheck k opt gc cmd with ⟨gc1, o⟩
    have hF := C44_command_complete gc (.plain heta hcr) hL k hk opt cmd (GCtx.eta_off heta) h1 h2 h3
    rw [hr] at hF
    rcases hF with hF | hF
    · simp only at hF
      subst hF
      rw [seqLoop_cons hr]
      refine ih ((inferWith_grows hr).eta.trans heta) (inferCheck_levelled (.plain heta hcr) hL hk.real ho h2 hr) ?_
      intro pre c post gci e h4
      refine h (.ok cmd :: pre) c post gci (by rw [e]; rfl) ?_
      rw [seqLoop_cons hr]
      exact h4
    · simp only at hF
      subst hF
      refine .inr ?_
      rw [seqLoop, hr]

/-- C45. A session is accepted, unless the run lacks fuel, if every command is right in the context made by the commands before it, and that context
has confluent rules. -/
theorem C45_session_complete (k : Kern) (hk : k.Exact) (opt : Opt) (ho : opt.omitted = none) (heta : opt.eta = false)
    (cmds : List Cmd)
    (h : ∀ pre cmd post gci, cmds = pre ++ cmd :: post →
      inferChecksSeq k opt (GCtx.start opt.eta) (pre.map .ok) = (gci, .ok ()) →
      Confluent gci.rules ∧ cmd.Annotated ∧ cmd.Levelled ∧ CmdStrict gci cmd) :
    (inferChecksSeq k opt (GCtx.start opt.eta) (cmds.map .ok)).2 = .ok () ∨
    (inferChecksSeq k opt (GCtx.start opt.eta) (cmds.map .ok)).2 = .timeout := by
  have hoc : opt.omits .check = false := by simp [Opt.omits, ho]
  have hoi : opt.omits .infer = false := by simp [Opt.omits, ho]
  have hf : ∀ l : List (Out Cmd), l.filter (keepInfer opt) = l := by
    intro l; rw [List.filter_eq_self]; intro a _; simp [keepInfer, hoi]
  simp only [inferChecksSeq, hf] at h ⊢
  refine seqLoop_complete hk hoc heta (GCtx.start_levelled _) ?_
  intro pre c post gci e h1
  obtain ⟨pre', l, rfl, rfl, h2⟩ := List.map_eq_append_iff.1 e
  obtain ⟨cmd, post', rfl, rfl, -⟩ := List.map_eq_cons_iff.1 h2
  obtain ⟨h3, h4, h5, h6⟩ := h pre' cmd post' gci rfl h1
  exact ⟨h3, cmd, rfl, h4, h5, h6⟩

/-! ## Instances -/

/-- a definition by an abstraction, and a rule, are right in the context of natural numbers -/
example : CmdStrict Example.gc (.intro 10 (.definition (some (Example.arrow (.const Example.nat) (.const Example.nat)))
    (some (.comb (.abst ['x'] (some (.const Example.nat)) (.var 0)))))) ∧
    Cmd.Annotated (.intro 10 (.definition (some (Example.arrow (.const Example.nat) (.const Example.nat)))
    (some (.comb (.abst ['x'] (some (.const Example.nat)) (.var 0)))))) := by
  have hn : ∀ Γ, Strict Example.gc.theory Γ (.const Example.nat) .type := fun Γ => .const rfl
  refine ⟨⟨rfl, rfl, ⟨.type, .type, .pi (hn _) (hn _) .type⟩, .lam (hn _) (.var (A := .const Example.nat) rfl) (hn _) .type⟩, ?_, ?_⟩
  · rintro A ⟨⟩
    exact ⟨trivial, trivial⟩
  · rintro t ⟨⟩
    exact ⟨trivial, trivial⟩

/-- `def f : Nat -> Nat := x => x.` is right; its abstraction has no type, and stands where its type is known -/
example : CmdStrict Example.gc (.intro 10 (.definition (some (Example.arrow (.const Example.nat) (.const Example.nat)))
    (some (.comb (.abst ['x'] none (.var 0)))))) ∧
    Cmd.Known (.intro 10 (.definition (some (Example.arrow (.const Example.nat) (.const Example.nat)))
    (some (.comb (.abst ['x'] none (.var 0)))))) ∧
    ¬ Cmd.Annotated (.intro 10 (.definition (some (Example.arrow (.const Example.nat) (.const Example.nat)))
    (some (.comb (.abst ['x'] none (.var 0)))))) ∧
    Cmd.Proper (.intro 10 (.definition (some (Example.arrow (.const Example.nat) (.const Example.nat)))
    (some (.comb (.abst ['x'] none (.var 0)))))) := by
  have hn : ∀ Γ, Strict Example.gc.theory Γ (.const Example.nat) .type := fun Γ => .const rfl
  refine ⟨⟨rfl, rfl, ⟨.type, .type, .pi (hn _) (hn _) .type⟩, .dlam (hn _) (.var (A := .const Example.nat) rfl) (hn _) .type⟩, ⟨?_, ?_⟩, ?_, ?_⟩
  · rintro A ⟨⟩
    exact ⟨trivial, trivial⟩
  · rintro t ⟨⟩
    exact ⟨rfl, trivial⟩
  · exact fun h => h.2 _ rfl
  · simp [Cmd.Proper, Intro.Proper, LTerm.ProperOpt, Example.arrow, LTerm.Proper, LComb.Proper]

/-- `def f := x => x.` is refused in every context, since the type of the abstraction is not known -/
example (gc gc' : GCtx) (n : Nat) (rc : Nat → Bool) :
    inferCheck (Kern.std n rc) ⟨false, none, false⟩ gc (.intro 10 (.definition none (some (.comb (.abst ['x'] none (.var 0)))))) ≠ (gc', .ok ()) := by
  intro h
  have hk := C44_command_necessary gc gc' (Kern.std n rc) (Kern.std_real n rc) ⟨false, none, false⟩ rfl _ (by rintro rs ⟨⟩) h
  exact absurd (hk.2 _ rfl).1 (by decide)

/-- `[x : Nat] plus x 0 --> x` -/
def Example.plusRight : Rule :=
  { ctx := [(['x'], some (.const Example.nat))], lhs := { symbol := Example.plus, args := [.mvar 0, .symb Example.zero []] }, rhs := .var 0 }

example : CmdStrict Example.gc (.rules [Example.plusRight]) ∧ Cmd.Annotated (.rules [Example.plusRight]) ∧
    Cmd.Levelled (.rules [Example.plusRight]) := by
  have hn : ∀ Γ, Strict Example.gc.theory Γ (.const Example.nat) .type := fun Γ => .const rfl
  refine ⟨?_, ?_, ?_⟩
  · intro r hr
    simp only [List.mem_singleton] at hr
    subst hr
    refine ⟨rfl, ?_⟩
    intro t ht
    cases ht
    refine ⟨.const Example.nat, .type, .type, hn _, ?_, .var (A := .const Example.nat) rfl⟩
    exact .app (A := .const Example.nat) (B := .const Example.nat)
      (.app (A := .const Example.nat) (B := .pi (.const Example.nat) (.const Example.nat)) (.const rfl) (.var (A := .const Example.nat) rfl))
      (.const rfl)
  · intro r hr
    simp only [List.mem_singleton] at hr
    subst hr
    trivial
  · intro r hr
    simp only [List.mem_singleton] at hr
    subst hr
    refine ⟨?_, ?_⟩
    · intro t ht
      cases ht
      simp [LTerm.den, Tm.Small]
    · intro h
      cases h

/-- the commands of the example session respect the levels -/
example : ∀ c, Out.ok c ∈ Example.session → c.Levelled := by
  intro c hc
  simp only [Example.session, List.mem_cons, List.not_mem_nil, or_false, Out.ok.injEq] at hc
  rcases hc with rfl | rfl | rfl | rfl | rfl | rfl | rfl | rfl
  · rintro A ⟨⟩ _; trivial
  · rintro A ⟨⟩ ⟨⟩
  · rintro A ⟨⟩ ⟨_, ⟨⟩⟩
  · rintro A ⟨⟩ ⟨_, _, ⟨⟩⟩
  · intro r hr
    simp only [List.mem_cons, List.not_mem_nil, or_false] at hr
    rcases hr with rfl | rfl
    · refine ⟨?_, ?_⟩
      · intro t ht
        cases ht
        simp [LTerm.den, Tm.Small]
      · intro _
        simp [Example.plusZero, LTerm.den, Tm.Small]
    · refine ⟨?_, ?_⟩
      · intro t ht
        cases ht
        simp [LTerm.den, Tm.Small]
      · intro _
        simp [Example.plusSucc, Example.app, LTerm.den, LComb.den, LTerm.denList, Tm.apps, Tm.Small]
  · rintro A ⟨⟩ ⟨⟩
  · rintro A ⟨⟩
  · rintro A ⟨⟩ ⟨⟩

/-- the declarations and rules of the example session: accepted, with orthogonal rules at the end -/
example : ∃ gc', inferChecksSeq (Kern.std 60 fun _ => false) ⟨false, none, false⟩ (GCtx.start false) (Example.session.take 5) = (gc', .ok ()) ∧
    Orthogonal gc'.rules := by
  have hok : (inferChecksSeq (Kern.std 60 fun _ => false) ⟨false, none, false⟩ (GCtx.start false) (Example.session.take 5)).2.isOk = true := by
    decide +kernel
  rcases hr : inferChecksSeq (Kern.std 60 fun _ => false) ⟨false, none, false⟩ (GCtx.start false) (Example.session.take 5) with ⟨gc', o⟩
  rw [hr] at hok
  obtain ⟨⟨⟩, ho⟩ := Out.isOk_iff.1 hok
  simp only at ho
  subst ho
  refine ⟨gc', rfl, Example.orthogonal.sub ?_⟩
  intro s rs r h1 h2
  have h3 : seqLoop (Kern.std 60 fun _ => false) ⟨false, none, false⟩ (GCtx.start false) (Example.session.take 5) = (gc', .ok ()) := by
    rw [← hr, inferChecksSeq]
    congr 1
  rcases seqLoop_rules (Kern.std_real _ _) h3 s rs r h1 h2 with ⟨rs0, h4, -⟩ | ⟨ty, tm, h4, -⟩ | ⟨rs', h4, h5, h6⟩
  · simp [GCtx.start, GCtx.new] at h4
  · simp [Example.session] at h4
  · simp only [Example.session, List.take, List.mem_cons, List.not_mem_nil, or_false, Out.ok.injEq, reduceCtorEq, false_or, Cmd.rules.injEq] at h4
    subst h4
    simp only [List.mem_cons, List.not_mem_nil, or_false] at h5
    rcases h5 with rfl | rfl <;> subst h6 <;> exact ⟨_, rfl, by simp⟩

theorem Example.noRules {R : RuleMap} (h : ∀ s, R s = none) : Confluent R := by
  have no : ∀ {s rs}, R s = some rs → False := by
    intro s rs h1
    rw [h s] at h1
    cases h1
  exact C43_orthogonal R ⟨fun _ _ _ h => (no h).elim, fun _ _ _ h => (no h).elim, fun _ _ _ _ h => (no h).elim,
    fun _ _ _ _ _ _ _ _ _ h => (no h).elim⟩

/-- A session of two commands that fulfils the hypotheses. -/
example (n : Nat) (rc : Nat → Bool) (pre : List Cmd) (cmd : Cmd) (post : List Cmd) (gci : GCtx)
    (e : [Cmd.intro 0 (.declaration false .type), .intro 1 (.declaration false (.const 0))] = pre ++ cmd :: post)
    (h : inferChecksSeq (Kern.std n rc) ⟨false, none, false⟩ (GCtx.start false) (pre.map .ok) = (gci, .ok ())) :
    Confluent gci.rules ∧ cmd.Annotated ∧ cmd.Levelled ∧ CmdStrict gci cmd := by
  match pre, e with
  | [], e =>
    cases e
    cases h
    refine ⟨Example.noRules fun _ => rfl, ?_, ?_, ?_⟩
    · exact ⟨by rintro A ⟨⟩; trivial, by rintro t ⟨⟩⟩
    · rintro A ⟨⟩ _; trivial
    · exact ⟨rfl, rfl, .kind, .kind, .type⟩
  | [c], e =>
    cases e
    simp only [List.map, inferChecksSeq, Opt.omits] at h
    obtain ⟨cmd, gc1, h0, h1, h2⟩ := seqLoop_cons_ok h
    cases h0
    cases h2
    obtain ⟨ty, chk, h3, -, h4⟩ := inferWith_intro_ok h1
    obtain ⟨h6, h7, rfl⟩ := GCtx.insert_ok h4
    obtain ⟨n, rc, st, h5⟩ := (Kern.std_real _ _).intro _ _ _ h3
    have hty : ty.ty = .type := (TriG.ok (Tri.intro n _) h5).given .type (.inl rfl)
    refine ⟨Example.noRules fun _ => rfl, ?_, ?_, ?_⟩
    · exact ⟨by rintro A ⟨⟩; trivial, by rintro t ⟨⟩⟩
    · rintro A ⟨⟩ ⟨⟩
    · refine ⟨rfl, rfl, .type, .type, .const ?_⟩
      simp [GCtx.theory, mapInsert, hty, LTerm.den]
  | _ :: _ :: _ :: _, e => cases e
  | [_, _], e => cases e

#print axioms C44_command_complete
#print axioms C44_command_known
#print axioms C44_command_necessary
#print axioms C45_command_levelled
#print axioms C45_session_levelled
#print axioms C45_session_complete

end Kontroli
