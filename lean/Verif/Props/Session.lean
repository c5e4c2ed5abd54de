import Verif.Proofs.Driver
import Verif.Props.Typing

/-!
# C07: soundness of whole sessions
-/

namespace Kontroli

/-- one introduction by the sequential driver, with checking -/
theorem inferCheck_intro_sound {k : Kern} (hk : k.Real) {opt : Opt} (ho : opt.omits .check = false) {gc gc' : GCtx} {s : Sym}
    {it : Intro LTerm} (h : inferCheck k opt gc (.intro s it) = (gc', .ok ())) :
    gc.types s = none ∧ ∃ A, gc'.types s = some A ∧ IntroJustified gc.theory it A := by
  obtain ⟨ty, chk, h1, h2, h3⟩ := inferWith_intro_ok h
  obtain ⟨n, rc, st, h4⟩ := hk.intro _ _ _ h1
  have h5 : ∀ c, chk = some c → k.check gc c = .ok () := by
    rintro c rfl
    simp only [ho, Bool.false_eq_true, if_false] at h2
    exact Res.out_ok.1 h2
  obtain ⟨h6, -, rfl⟩ := GCtx.insert_ok h3
  refine ⟨h6, ty.ty, by simp [mapInsert], ?_⟩
  cases hc : chk with
  | none =>
    subst hc
    obtain ⟨-, h7, h8, h10, h11⟩ := C06_intro_sound gc n 0 rc rc it ty none st h4 (by simp)
    exact ⟨h7, h10, h11, h8⟩
  | some c =>
    subst hc
    obtain ⟨n', rc', s', h9⟩ := hk.check _ _ (h5 c rfl)
    obtain ⟨-, h7, h8, h10, h11⟩ := C06_intro_sound gc n n' rc rc' it ty (some c) st h4 (by
      intro c' hc'; cases hc'; exact ⟨s', h9⟩)
    exact ⟨h7, h10, h11, h8⟩

/-- the rules of a command, by the sequential driver with checking -/
theorem rewriteAll_sound {k : Kern} (hk : k.Real) {gc : GCtx} {rs : List Rule} {u : Unit}
    (h : rewriteAll k (fun _ c gc => (k.check gc c).out) gc rs () = .ok u) : ∀ r ∈ rs, RuleJustified gc.theory r := by
  induction rs with
  | nil => simp
  | cons r rs ih =>
    rw [rewriteAll] at h
    intro r' hr'
    cases ht : r.toT with
    | none =>
      rw [ht] at h
      rcases List.mem_cons.1 hr' with rfl | hr'
      · intro t e; rw [ht] at e; simp at e
      · exact ih h r' hr'
    | some t =>
      rw [ht] at h
      simp only [Out.bind_ok, Res.out_ok] at h
      obtain ⟨c, h1, _, h2, h3⟩ := h
      rcases List.mem_cons.1 hr' with rfl | hr'
      · intro t' e
        rw [ht] at e; simp at e; subst e
        obtain ⟨n, rc, s, h4⟩ := hk.rewrite _ _ _ h1
        obtain ⟨n', rc', s', h5⟩ := hk.check _ _ h2
        exact C32_rule_sound gc n n' rc rc' r' t c s s' ht h4 h5
      · exact ih h3 r' hr'

theorem inferCheck_rules_sound {k : Kern} (hk : k.Real) {opt : Opt} (ho : opt.omits .check = false) {gc gc' : GCtx}
    {rs : List Rule} (h : inferCheck k opt gc (.rules rs) = (gc', .ok ())) : ∀ r ∈ rs, RuleJustified gc.theory r := by
  obtain ⟨h1, -⟩ := inferWith_rules_ok h
  simp only [ho, Bool.false_eq_true, if_false] at h1
  exact rewriteAll_sound hk h1

/-- the names of a context come from the commands -/
theorem seqLoop_types {k : Kern} {opt : Opt} {gc gc' : GCtx} {cmds : List (Out Cmd)}
    (h : seqLoop k opt gc cmds = (gc', .ok ())) (s : Sym) :
    (gc'.types s).isSome ↔ (gc.types s).isSome ∨ ∃ it, Out.ok (Cmd.intro s it) ∈ cmds := by
  induction cmds generalizing gc with
  | nil => cases h; simp
  | cons c cs ih =>
    obtain ⟨cmd, gc1, rfl, h1, h2⟩ := seqLoop_cons_ok h
    rw [ih h2]
    cases cmd with
    | intro s' it =>
      obtain ⟨ty, chk, -, -, h3⟩ := inferWith_intro_ok h1
      obtain ⟨h4, -, rfl⟩ := GCtx.insert_ok h3
      by_cases hs : s = s'
      · subst hs
        simp [mapInsert]
      · simp [mapInsert, hs]
    | rules rs =>
      obtain ⟨-, h3⟩ := inferWith_rules_ok h1
      rw [(GCtx.addRules_ok h3).1]
      simp

/-- the rules of a context come from the commands -/
theorem seqLoop_rules {k : Kern} (hk : k.Real) {opt : Opt} {gc gc' : GCtx} {cmds : List (Out Cmd)}
    (h : seqLoop k opt gc cmds = (gc', .ok ())) (s : Sym) (rs : List Rule) (r : Rule) (hs : gc'.rules s = some rs)
    (hr : r ∈ rs) :
    (∃ rs0, gc.rules s = some rs0 ∧ r ∈ rs0) ∨
    (∃ ty tm, Out.ok (Cmd.intro s (.definition ty (some tm))) ∈ cmds ∧ r = ⟨[], ⟨s, []⟩, tm⟩) ∨
    ∃ rs', Out.ok (Cmd.rules rs') ∈ cmds ∧ r ∈ rs' ∧ r.lhs.symbol = s := by
  induction cmds generalizing gc with
  | nil => cases h; exact .inl ⟨rs, hs, hr⟩
  | cons c cs ih =>
    obtain ⟨cmd, gc1, rfl, h1, h2⟩ := seqLoop_cons_ok h
    rcases ih h2 with ⟨rs0, h3, h4⟩ | ⟨ty, tm, h3, h4⟩ | ⟨rs', h3, h4⟩
    · cases cmd with
      | intro s' it =>
        obtain ⟨ty, chk, h5, -, h6⟩ := inferWith_intro_ok h1
        obtain ⟨-, -, rfl⟩ := GCtx.insert_ok h6
        simp only at h3
        split at h3
        · next hrw =>
          by_cases hss : s = s'
          · subst hss
            simp only [mapInsert, if_true, Option.some.injEq] at h3
            subst h3
            obtain ⟨n, rc, st, h7⟩ := hk.intro _ _ _ h5
            have hp := TriG.ok (Tri.intro n it) h7
            have htm := hp.tm
            cases it with
            | definition oty otm =>
              simp only at htm
              rw [htm] at h4
              cases otm with
              | none => simp [GCtx.initRules] at h4
              | some tm =>
                simp [GCtx.initRules] at h4
                exact .inr (.inl ⟨oty, tm, by simp, h4⟩)
            | declaration inj ty' => simp only at htm; rw [htm] at h4; simp [GCtx.initRules] at h4
            | theorem_ ty' tm => simp [Intro.rewritable] at hrw
          · simp only [mapInsert, hss, if_false] at h3
            exact .inl ⟨rs0, h3, h4⟩
        · exact .inl ⟨rs0, h3, h4⟩
      | rules rs' =>
        obtain ⟨-, h5⟩ := inferWith_rules_ok h1
        rw [(GCtx.addRules_ok h5).2.2.1] at h3
        simp only [Option.map_eq_some_iff] at h3
        obtain ⟨l, h6, rfl⟩ := h3
        rcases List.mem_append.1 h4 with h4 | h4
        · exact .inl ⟨l, h6, h4⟩
        · simp only [GCtx.rulesOf, List.mem_filter, decide_eq_true_eq] at h4
          exact .inr (.inr ⟨rs', by simp, h4.1, h4.2⟩)
    · exact .inr (.inl ⟨ty, tm, List.mem_cons_of_mem _ h3, h4⟩)
    · exact .inr (.inr ⟨rs', List.mem_cons_of_mem _ h3, h4⟩)

/-- C07. Let a session (a list of commands with all stages enabled) be accepted from the empty context, with final context `gc'`.

1. Every introduction in it introduced a name that was new, with a type that still is the type of that name at the end; type and
   body were justified in the context at that time, and still are in the final context.
2. The names of the final context are the introduced ones, each introduced once.
3. All completely annotated rules were justified at their time, and still are.
4. The rules of the final context are the definitions and the rules of the session. -/
theorem C07_session_sound (k : Kern) (hk : k.Real) (opt : Opt) (ho : opt.omitted = none) (cmds : List (Out Cmd)) (gc' : GCtx)
    (h : inferChecksSeq k opt (GCtx.start opt.eta) cmds = (gc', .ok ())) :
    (∀ pre s it post, cmds = pre ++ .ok (.intro s it) :: post → ∃ gci A,
      inferChecksSeq k opt (GCtx.start opt.eta) pre = (gci, .ok ()) ∧ gci.types s = none ∧ gc'.types s = some A ∧
      IntroJustified gci.theory it A ∧ IntroJustified gc'.theory it A) ∧
    (∀ s, (gc'.types s).isSome ↔ ∃ it, Out.ok (Cmd.intro s it) ∈ cmds) ∧
    (∀ pre s it post, cmds = pre ++ .ok (.intro s it) :: post → ∀ it', Out.ok (Cmd.intro s it') ∉ pre ++ post) ∧
    (∀ pre rs post, cmds = pre ++ .ok (.rules rs) :: post → ∃ gci,
      inferChecksSeq k opt (GCtx.start opt.eta) pre = (gci, .ok ()) ∧
      ∀ r ∈ rs, RuleJustified gci.theory r ∧ RuleJustified gc'.theory r) ∧
    (∀ s rs r, gc'.rules s = some rs → r ∈ rs →
      (∃ ty tm, Out.ok (Cmd.intro s (.definition ty (some tm))) ∈ cmds ∧ r = ⟨[], ⟨s, []⟩, tm⟩) ∨
      ∃ rs', Out.ok (Cmd.rules rs') ∈ cmds ∧ r ∈ rs' ∧ r.lhs.symbol = s) := by
  have hoc : opt.omits .check = false := by simp [Opt.omits, ho]
  have hoi : opt.omits .infer = false := by simp [Opt.omits, ho]
  have hf : ∀ l : List (Out Cmd), l.filter (keepInfer opt) = l := by
    intro l; rw [List.filter_eq_self]; intro a _; simp [keepInfer, hoi]
  simp only [inferChecksSeq, hf] at *
  have hstart : ∀ s, (GCtx.start opt.eta).types s = none := fun _ => rfl
  have htypes : ∀ s, (gc'.types s).isSome ↔ ∃ it, Out.ok (Cmd.intro s it) ∈ cmds := by
    intro s; rw [seqLoop_types h s]; simp [hstart]
  have hsplit : ∀ pre c post, cmds = pre ++ .ok c :: post → ∃ gci gc1,
      seqLoop k opt (GCtx.start opt.eta) pre = (gci, .ok ()) ∧ inferCheck k opt gci c = (gc1, .ok ()) ∧
      seqLoop k opt gc1 post = (gc', .ok ()) := by
    rintro pre c post rfl
    obtain ⟨gci, h1, h2⟩ := seqLoop_append_ok h
    obtain ⟨c', gc1, h3, h4, h5⟩ := seqLoop_cons_ok h2
    cases h3
    exact ⟨gci, gc1, h1, h4, h5⟩
  refine ⟨?_, htypes, ?_, ?_, ?_⟩
  · intro pre s it post e
    obtain ⟨gci, gc1, h1, h2, h3⟩ := hsplit pre _ post e
    obtain ⟨h4, A, h5, h6⟩ := inferCheck_intro_sound hk hoc h2
    exact ⟨gci, A, h1, h4, (seqLoop_grows h3).types _ _ h5, h6,
      h6.mono ((inferWith_grows h2).trans (seqLoop_grows h3)).le⟩
  · intro pre s it post e it' hmem
    obtain ⟨gci, gc1, h1, h2, h3⟩ := hsplit pre _ post e
    obtain ⟨h4, A, h5, -⟩ := inferCheck_intro_sound hk hoc h2
    rcases List.mem_append.1 hmem with hm | hm
    · have := (seqLoop_types h1 s).2 (.inr ⟨it', hm⟩)
      rw [h4] at this; simp at this
    · obtain ⟨as, bs, rfl⟩ := List.append_of_mem hm
      obtain ⟨gc2, h6, h7⟩ := seqLoop_append_ok h3
      obtain ⟨c', gc3, h8, h9, -⟩ := seqLoop_cons_ok h7
      cases h8
      obtain ⟨h10, -⟩ := inferCheck_intro_sound hk hoc h9
      rw [(seqLoop_grows h6).types _ _ h5] at h10; simp at h10
  · intro pre rs post e
    obtain ⟨gci, gc1, h1, h2, h3⟩ := hsplit pre _ post e
    have h4 := inferCheck_rules_sound hk hoc h2
    exact ⟨gci, h1, fun r hr => ⟨h4 r hr, (h4 r hr).mono ((inferWith_grows h2).trans (seqLoop_grows h3)).le⟩⟩
  · intro s rs r hs hr
    rcases seqLoop_rules hk h s rs r hs hr with ⟨rs0, h1, -⟩ | h1 | h1
    · simp [GCtx.start, GCtx.new] at h1
    · exact .inl h1
    · exact .inr h1

/-- A session: natural numbers, addition by rules, a definition with annotation, a definition without, a theorem. -/
def Example.session : List (Out Cmd) :=
  [.ok (.intro Example.nat (.declaration false .type)),
   .ok (.intro Example.zero (.declaration false (.const Example.nat))),
   .ok (.intro Example.succ (.declaration true (Example.arrow (.const Example.nat) (.const Example.nat)))),
   .ok (.intro Example.plus (.definition (some (Example.arrow (.const Example.nat)
      (Example.arrow (.const Example.nat) (.const Example.nat)))) none)),
   .ok (.rules [Example.plusZero, Example.plusSucc]),
   .ok (.intro 10 (.definition (some (.const Example.nat)) (some Example.onePlusOne))),
   .ok (.intro 11 (.definition none (some Example.double))),
   .ok (.intro 12 (.theorem_ (.const Example.nat) Example.two))]

/-- the session is accepted -/
example : (Kern.std 60 fun _ => false).Real ∧
    (inferChecksSeq (Kern.std 60 fun _ => false) ⟨false, none, false⟩ (GCtx.start false) Example.session).2.isOk = true :=
  ⟨Kern.std_real _ _, by decide +kernel⟩

#print axioms C07_session_sound

end Kontroli
