import Verif.Proofs.Grammar

/-! # The parser and the grammar: what is derivable is parsed -/

namespace Kontroli

/-! ## Terms -/

/-- several steps of the term parser -/
def tMany (ctx : PCtx PSymb) (st : TState PSymb) : List Token → Option (TState PSymb × PCtx PSymb)
  | [] => some (st, ctx)
  | tok :: ts => match tstep scopeSymb ctx tok st with
    | .more st ctx => tMany ctx st ts
    | _ => none

theorem tMany_append {ctx ctx' : PCtx PSymb} {st st' : TState PSymb} {ts : List Token} (h : tMany ctx st ts = some (st', ctx')) (us : List Token) :
    tMany ctx st (ts ++ us) = tMany ctx' st' us := by
  induction ts generalizing ctx st with
  | nil => cases h; rfl
  | cons tok ts ih =>
    rw [List.cons_append, tMany]
    rw [tMany] at h
    revert h
    cases tstep scopeSymb ctx tok st with
    | more st1 ctx1 => exact fun h => ih h
    | done t ctx1 => intro h; cases h
    | err e ctx1 => intro h; cases h

theorem tMany_cons {ctx ctx' : PCtx PSymb} {st st' : TState PSymb} {tok : Token} (h : tstep scopeSymb ctx tok st = .more st' ctx') (ts : List Token) :
    tMany ctx st (tok :: ts) = tMany ctx' st' ts := by rw [tMany, h]

/-- a state in which an application has been read -/
def Ready (st : TState PSymb) (x : Option Str) (t : PTerm PSymb) : Prop :=
  st = .aterm x t ∨ ∃ s, x = none ∧ st = .symb s ∧ t = symbTerm ⟨[], s⟩

theorem Ready.step {st : TState PSymb} {x : Option Str} {t : PTerm PSymb} (h : Ready st x t) (ctx : PCtx PSymb) {tok : Token}
    (h1 : tok ≠ .fatArrow ∨ x ≠ none) (h2 : tok ≠ .colon) : tstep scopeSymb ctx tok st = atermStep scopeSymb x t ctx tok := by
  rcases h with rfl | ⟨s, rfl, rfl, rfl⟩
  · rfl
  · rcases h1 with h1 | h1
    · cases tok <;> first | rfl | exact absurd rfl h1 | exact absurd rfl h2
    · exact absurd rfl h1

theorem tstep_name (ctx : PCtx PSymb) (s : PSymb) : ∃ st, tstep scopeSymb ctx (.symb s) .init = .more st ctx ∧ Ready st none (symbTerm s) := by
  obtain ⟨path, name⟩ := s
  cases path with
  | nil => exact ⟨.symb name, rfl, .inr ⟨name, rfl, rfl, rfl⟩⟩
  | cons a p => exact ⟨.aterm none (symbTerm ⟨a :: p, name⟩), rfl, .inl rfl⟩

/-- a term in parentheses -/
theorem par_run {ts : List Token} {t : PTerm PSymb} (ih : ∀ ctx : PCtx PSymb, ∃ st a stack, tMany ctx .init ts = some (st, { ctx with stack := stack }) ∧
    Ready st none a ∧ reduceStack stack a = reduceStack ctx.stack t) (ctx : PCtx PSymb) (l : LPar PSymb) :
    tMany (ctx.push (.lpar l)) .init (ts ++ [.rpar]) = some (.aterm l.x (match l.app with
      | none => t
      | some app => app.pushArg t), ctx) := by
  obtain ⟨st, a, stack, h1, h2, h3⟩ := ih (ctx.push (.lpar l))
  rw [tMany_append h1, tMany, h2.step _ (.inl (by simp)) (by simp)]
  have h3 : reduceStack stack a = (some l, t, ctx.stack) := h3
  simp only [atermStep, closeStep, h3, if_true, tMany]
  obtain ⟨x, _ | app⟩ := l <;> rfl

mutual
  theorem gterm_run : ∀ {ts : List Token} {t : PTerm PSymb}, GTerm ts t → ∀ ctx : PCtx PSymb, ∃ st a stack,
      tMany ctx .init ts = some (st, { ctx with stack := stack }) ∧ Ready st none a ∧ reduceStack stack a = reduceStack ctx.stack t
    | _, _, .app h, ctx => by
      obtain ⟨⟨st, h1, h2⟩, _⟩ := gapp_run h ctx
      exact ⟨st, _, ctx.stack, h1, h2, rfl⟩
    | _, _, .arrow (t := t) (us := us) h h', ctx => by
      obtain ⟨⟨st, h1, h2⟩, _⟩ := gapp_run h ctx
      obtain ⟨st', a, stack, h3, h4, h5⟩ := gterm_run h' (ctx.push (.prod none t))
      refine ⟨st', a, stack, ?_, h4, h5⟩
      rw [tMany_append h1, tMany, h2.step _ (.inl (by simp)) (by simp)]
      exact h3
    | _, _, .prod (x := x) (t := t) h h', ctx => by
      obtain ⟨_, h1⟩ := gapp_run h ctx
      obtain ⟨st', a, stack, h3, h4, h5⟩ := gterm_run h' (ctx.push (.prod (some x) t))
      refine ⟨st', a, stack, ?_, h4, h5⟩
      show tMany ctx (.varof x) (_ ++ _) = _
      rw [tMany_append (h1 x)]
      exact h3
    | _, _, .abstTy (x := x) (t := t) h h', ctx => by
      obtain ⟨_, h1⟩ := gapp_run h ctx
      obtain ⟨st', a, stack, h3, h4, h5⟩ := gterm_run h' (ctx.push (.abst x (some t)))
      refine ⟨st', a, stack, ?_, h4, h5⟩
      show tMany ctx (.varof x) (_ ++ _) = _
      rw [tMany_append (h1 x)]
      exact h3
    | _, _, .abst (x := x) h', ctx => by
      obtain ⟨st', a, stack, h3, h4, h5⟩ := gterm_run h' (ctx.push (.abst x none))
      exact ⟨st', a, stack, h3, h4, h5⟩
  theorem gapp_run : ∀ {ts : List Token} {t : PTerm PSymb}, GApp ts t → ∀ ctx : PCtx PSymb,
      (∃ st, tMany ctx .init ts = some (st, ctx) ∧ Ready st none t) ∧ ∀ v, tMany ctx (.varof v) ts = some (.aterm (some v) t, ctx)
    | _, _, .symb (s := s), ctx => by
      obtain ⟨st, h1, h2⟩ := tstep_name ctx s
      exact ⟨⟨st, by rw [tMany_cons h1]; rfl, h2⟩, fun v => rfl⟩
    | _, _, .par h, ctx => by
      have := par_run (gterm_run h) ctx
      exact ⟨⟨_, this ⟨none, none⟩, .inl rfl⟩, fun v => this ⟨some v, none⟩⟩
    | _, _, .symbArg (s := s) h, ctx => by
      obtain ⟨⟨st, h1, h2⟩, h3⟩ := gapp_run h ctx
      refine ⟨⟨_, ?_, .inl rfl⟩, fun v => ?_⟩
      · rw [tMany_append h1, tMany, h2.step _ (.inl (by simp)) (by simp)]
        rfl
      · rw [tMany_append (h3 v)]
        rfl
    | _, _, .parArg (h := hd) (as := as) h h', ctx => by
      obtain ⟨⟨st, h1, h2⟩, h3⟩ := gapp_run h ctx
      have hp := par_run (gterm_run h') ctx
      refine ⟨⟨_, ?_, .inl rfl⟩, fun v => ?_⟩
      · rw [List.append_assoc, List.cons_append, tMany_append h1, tMany, h2.step _ (.inl (by simp)) (by simp)]
        exact hp ⟨none, some (.app hd as)⟩
      · rw [List.append_assoc, List.cons_append, tMany_append (h3 v)]
        exact hp ⟨some v, some (.app hd as)⟩
end

/-! ## The whole parser -/

theorem tstep_plain {ctx ctx' : PCtx PSymb} {st st' : TState PSymb} {tok : Token} (h : tstep scopeSymb ctx tok st = .more st' ctx') :
    tok.plain = true := by
  cases tok with
  | comment o =>
    exfalso
    have ha : ∀ x t, atermStep scopeSymb x t ctx (.comment o) ≠ .more st' ctx' := by
      intro x t
      simp only [atermStep]
      cases x with
      | some x => exact fun h => nomatch h
      | none =>
        simp only [closeStep]
        split
        · simp
        · simp
    cases st with
    | init => cases h
    | symb s => exact ha none (symbTerm ⟨[], s⟩) h
    | varof v => cases h
    | aterm x t => exact ha _ _ h
  | _ => rfl

/-- what follows a step -/
def stepThen (us : List Token) : PRes PSymb → List (PCmd (PTerm PSymb)) × PEnd PSymb
  | .more st ctx => pRun scopeSymb st ctx us
  | .cmd c ctx => (c :: (pRun scopeSymb PState.new ctx us).1, (pRun scopeSymb PState.new ctx us).2)
  | .err e ctx => ([], .err e ctx)
  | .panic ctx => ([], .panic ctx)

theorem pRun_step (st : PState PSymb) (ctx : PCtx PSymb) (tok : Token) (us : List Token) (h : tok.plain = true) :
    pRun scopeSymb st ctx (tok :: us) = stepThen us (pstep scopeSymb ctx st tok) := by
  rw [pRun_cons _ _ _ _ _ h]
  cases pstep scopeSymb ctx st tok <;> rfl

theorem pRun_many {cmd : CState (PTerm PSymb)} (hc : cmd.expectsTerm = true) {trm trm' : TState PSymb} {ctx ctx' : PCtx PSymb}
    (ts us : List Token) (h : tMany ctx trm ts = some (trm', ctx')) :
    pRun scopeSymb ⟨cmd, trm⟩ ctx (ts ++ us) = pRun scopeSymb ⟨cmd, trm'⟩ ctx' us := by
  induction ts generalizing ctx trm with
  | nil => cases h; rfl
  | cons tok ts ih =>
    rw [tMany] at h
    cases hs : tstep scopeSymb ctx tok trm with
    | more st1 ctx1 =>
      rw [hs] at h
      rw [List.cons_append, pRun_step _ _ _ _ (tstep_plain hs)]
      simp only [pstep, hc, if_true, hs, stepThen]
      exact ih h
    | done t ctx1 => rw [hs] at h; cases h
    | err e ctx1 => rw [hs] at h; cases h

/-- the tokens after terms -/
def Token.follow : Token → Bool
  | .rpar | .dot | .colonEq | .comma | .rbrk | .longArrow | .lbrk => true
  | _ => false

/-- a term and the token after it -/
theorem term_run {ts : List Token} {t : PTerm PSymb} (h : GTerm ts t) {cmd : CState (PTerm PSymb)} (hc : cmd.expectsTerm = true)
    (bound : List Str) {tok : Token} (htok : tok.follow = true) (us : List Token) :
    pRun scopeSymb ⟨cmd, .init⟩ ⟨bound, []⟩ (ts ++ tok :: us) = stepThen us (cmdRes ⟨bound, []⟩ (cmd.apply bound t tok)) := by
  obtain ⟨st, a, stack, h1, h2, h3⟩ := gterm_run h ⟨bound, []⟩
  rw [pRun_many hc ts _ h1, pRun_step _ _ _ _ (by cases tok <;> first | rfl | cases htok)]
  have h3 : reduceStack stack a = (none, t, []) := h3
  have : tstep scopeSymb ⟨bound, stack⟩ tok st = .done t ⟨bound, []⟩ := by
    rw [h2.step _ (.inl (by rintro rfl; cases htok)) (by rintro rfl; cases htok)]
    cases tok <;> first
      | exact absurd htok Bool.false_ne_true
      | simp only [atermStep, closeStep, h3]
  simp only [pstep, hc, if_true, this]

/-- a token where no term is expected -/
theorem parse_run {cmd : CState (PTerm PSymb)} (hc : cmd.expectsTerm = false) (bound : List Str) {tok : Token} (htok : tok.plain = true)
    (us : List Token) : pRun scopeSymb ⟨cmd, .init⟩ ⟨bound, []⟩ (tok :: us) = stepThen us (cmdRes ⟨bound, []⟩ (cmd.parse bound tok)) := by
  rw [pRun_step _ _ _ _ htok]
  simp only [pstep, hc, Bool.false_eq_true, if_false]

theorem gargs_run {ts : List Token} {as : List (Str × PTerm PSymb)} (h : GArgs ts as) (p : Option Prefix) (s : Str) (c : List (PTerm PSymb))
    (bound : List Str) (us : List Token) : pRun scopeSymb ⟨.args p s c none, .init⟩ ⟨bound, []⟩ (ts ++ us) =
      pRun scopeSymb ⟨.args p s (c ++ as.map Prod.snd) none, .init⟩ ⟨bound ++ as.map Prod.fst, []⟩ us := by
  induction h generalizing c bound with
  | nil => simp
  | @cons x ts us' t as ht _ ih =>
    rw [List.append_assoc, List.cons_append, List.cons_append, List.cons_append, parse_run rfl _ rfl,
      show CState.parse (.args p s c none) bound .lpar = (.ok (.argsIn p s c none), bound) from by rcases p with _ | _ | _ | _ <;> rfl]
    simp only [cmdRes, stepThen]
    rw [parse_run rfl _ rfl]
    simp only [CState.parse, nameTok, List.isEmpty_nil, if_true, CState.applyName, cmdRes, stepThen]
    rw [parse_run rfl _ rfl]
    simp only [CState.parse, cmdRes, stepThen]
    rw [List.cons_append, term_run ht rfl _ rfl]
    simp only [CState.apply, cmdRes, stepThen]
    rw [ih]
    simp

theorem vars_run {ts : List Token} {vs : List (Str × Option (PTerm PSymb))} (h : GVars ts vs) (c : RuleCtx (PTerm PSymb)) (bound : List Str)
    (us : List Token) : pRun scopeSymb ⟨.ruleCtx c none, .init⟩ ⟨bound, []⟩ (ts ++ .rbrk :: us) =
      pRun scopeSymb ⟨.ruleL ⟨c.rules, c.vars ++ vs.map Prod.snd⟩, .init⟩ ⟨joker :: (bound ++ vs.map Prod.fst), []⟩ us := by
  induction h generalizing c bound with
  | nil =>
    rw [List.nil_append, parse_run rfl _ rfl]
    simp only [CState.parse, rulel, cmdRes, stepThen, List.map_nil, List.append_nil]
  | one hv =>
    cases hv with
    | name =>
      rw [List.cons_append, List.nil_append, parse_run rfl _ rfl]
      simp only [CState.parse, nameTok, List.isEmpty_nil, if_true, CState.applyName, cmdRes, stepThen]
      rw [parse_run rfl _ rfl]
      simp only [CState.parse, rulel, cmdRes, stepThen, List.map_nil, List.map_cons, RuleCtx.pushVar]
    | typed ht =>
      rw [List.cons_append, List.cons_append, parse_run rfl _ rfl]
      simp only [CState.parse, nameTok, List.isEmpty_nil, if_true, CState.applyName, cmdRes, stepThen]
      rw [parse_run rfl _ rfl]
      simp only [CState.parse, cmdRes, stepThen]
      rw [term_run ht rfl _ rfl]
      simp only [CState.apply, rulel, cmdRes, stepThen, List.map_nil, List.map_cons, RuleCtx.pushVar]
  | cons hv _ ih =>
    cases hv with
    | name =>
      rw [List.append_assoc, List.cons_append, List.nil_append, parse_run rfl _ rfl]
      simp only [CState.parse, nameTok, List.isEmpty_nil, if_true, CState.applyName, cmdRes, stepThen]
      rw [List.cons_append, parse_run rfl _ rfl]
      simp only [CState.parse, cmdRes, stepThen]
      rw [ih]
      simp [RuleCtx.pushVar]
    | typed ht =>
      rw [List.append_assoc, List.cons_append, List.cons_append, List.cons_append, parse_run rfl _ rfl]
      simp only [CState.parse, nameTok, List.isEmpty_nil, if_true, CState.applyName, cmdRes, stepThen]
      rw [parse_run rfl _ rfl]
      simp only [CState.parse, cmdRes, stepThen]
      rw [term_run ht rfl _ rfl]
      simp only [CState.apply, cmdRes, stepThen]
      rw [ih]
      simp [RuleCtx.pushVar]

theorem zip_fst_snd_eq {α β : Type} (l : List (α × β)) : (l.map Prod.fst).zip (l.map Prod.snd) = l := by
  induction l with
  | nil => rfl
  | cons a l ih => simp [ih]

/-- a command, then what follows -/
def cmdThen (c : PCmd (PTerm PSymb)) (us : List Token) : List (PCmd (PTerm PSymb)) × PEnd PSymb :=
  (c :: (pRun scopeSymb PState.new PCtx.new us).1, (pRun scopeSymb PState.new PCtx.new us).2)

theorem rules_run {ts : List Token} {rs : List (PRule (PTerm PSymb))} (h : GRules ts rs) (hr : rs ≠ []) :
    ∃ ts', ts = .lbrk :: ts' ∧ ∀ rs0 us, pRun scopeSymb ⟨.ruleCtx ⟨rs0, []⟩ none, .init⟩ ⟨[], []⟩ (ts' ++ .dot :: us) = cmdThen (.rules (rs0 ++ rs)) us := by
  induction h with
  | nil => exact absurd rfl hr
  | @cons vs l r rs as bs cs ts hv hl hr' h ih =>
    refine ⟨as ++ .rbrk :: bs ++ .longArrow :: cs ++ ts, by simp, fun rs0 us => ?_⟩
    simp only [List.append_assoc, List.cons_append]
    rw [vars_run hv, term_run hl rfl _ rfl]
    simp only [CState.apply, cmdRes, stepThen, List.nil_append]
    by_cases hrs : rs = []
    · subst hrs
      cases h
      rw [List.nil_append, term_run hr' rfl _ rfl]
      simp only [CState.apply, CState.close, cmdRes, stepThen, RuleCtx.add, zip_fst_snd_eq]
      rfl
    · obtain ⟨ts', rfl, ih'⟩ := ih hrs
      rw [List.cons_append, term_run hr' rfl _ rfl]
      simp only [CState.apply, cmdRes, stepThen, RuleCtx.add, zip_fst_snd_eq]
      rw [ih']
      simp

/-- a command and the dot after it -/
theorem cmd_run {ts : List Token} {c : PCmd (PTerm PSymb)} (h : GCmd ts c) (us : List Token) :
    pRun scopeSymb PState.new PCtx.new (ts ++ .dot :: us) = cmdThen c us := by
  show pRun scopeSymb ⟨.init, .init⟩ ⟨[], []⟩ _ = _
  cases h with
  | decl ha ht =>
    simp only [List.append_assoc, List.cons_append]
    rw [parse_run rfl _ rfl]
    simp only [CState.parse, nameTok, List.isEmpty_nil, if_true, CState.applyName, cmdRes, stepThen]
    rw [gargs_run ha, parse_run rfl _ rfl]
    simp only [CState.parse, cmdRes, stepThen, List.nil_append]
    rw [term_run ht rfl _ rfl]
    simp only [CState.apply, CState.close, cmdRes, stepThen, zip_fst_snd_eq]
    rfl
  | inj ha ht =>
    simp only [List.append_assoc, List.cons_append]
    rw [parse_run rfl _ rfl]
    simp only [CState.parse, cmdRes, stepThen]
    rw [parse_run rfl _ rfl]
    simp only [CState.parse, nameTok, List.isEmpty_nil, if_true, CState.applyName, cmdRes, stepThen]
    rw [gargs_run ha, parse_run rfl _ rfl]
    simp only [CState.parse, cmdRes, stepThen, List.nil_append]
    rw [term_run ht rfl _ rfl]
    simp only [CState.apply, CState.close, cmdRes, stepThen, zip_fst_snd_eq]
    rfl
  | defTy ha ht =>
    simp only [List.append_assoc, List.cons_append]
    rw [parse_run rfl _ rfl]
    simp only [CState.parse, cmdRes, stepThen]
    rw [parse_run rfl _ rfl]
    simp only [CState.parse, nameTok, List.isEmpty_nil, if_true, CState.applyName, cmdRes, stepThen]
    rw [gargs_run ha, parse_run rfl _ rfl]
    simp only [CState.parse, cmdRes, stepThen, List.nil_append]
    rw [term_run ht rfl _ rfl]
    simp only [CState.apply, CState.close, cmdRes, stepThen, zip_fst_snd_eq]
    rfl
  | defTm ha ht =>
    simp only [List.append_assoc, List.cons_append]
    rw [parse_run rfl _ rfl]
    simp only [CState.parse, cmdRes, stepThen]
    rw [parse_run rfl _ rfl]
    simp only [CState.parse, nameTok, List.isEmpty_nil, if_true, CState.applyName, cmdRes, stepThen]
    rw [gargs_run ha, parse_run rfl _ rfl]
    simp only [CState.parse, cmdRes, stepThen, List.nil_append]
    rw [term_run ht rfl _ rfl]
    simp only [CState.apply, CState.close, cmdRes, stepThen, zip_fst_snd_eq]
    rfl
  | defBoth ha ht hu =>
    simp only [List.append_assoc, List.cons_append]
    rw [parse_run rfl _ rfl]
    simp only [CState.parse, cmdRes, stepThen]
    rw [parse_run rfl _ rfl]
    simp only [CState.parse, nameTok, List.isEmpty_nil, if_true, CState.applyName, cmdRes, stepThen]
    rw [gargs_run ha, parse_run rfl _ rfl]
    simp only [CState.parse, cmdRes, stepThen, List.nil_append]
    rw [term_run ht rfl _ rfl]
    simp only [CState.apply, cmdRes, stepThen]
    rw [term_run hu rfl _ rfl]
    simp only [CState.apply, CState.close, cmdRes, stepThen, zip_fst_snd_eq]
    rfl
  | thm ha ht hu =>
    simp only [List.append_assoc, List.cons_append]
    rw [parse_run rfl _ rfl]
    simp only [CState.parse, cmdRes, stepThen]
    rw [parse_run rfl _ rfl]
    simp only [CState.parse, nameTok, List.isEmpty_nil, if_true, CState.applyName, cmdRes, stepThen]
    rw [gargs_run ha, parse_run rfl _ rfl]
    simp only [CState.parse, cmdRes, stepThen, List.nil_append]
    rw [term_run ht rfl _ rfl]
    simp only [CState.apply, cmdRes, stepThen]
    rw [term_run hu rfl _ rfl]
    simp only [CState.apply, CState.close, cmdRes, stepThen, zip_fst_snd_eq]
    rfl
  | rules hr h =>
    obtain ⟨ts', rfl, h'⟩ := rules_run h hr
    rw [List.cons_append, parse_run rfl _ rfl]
    simp only [CState.parse, cmdRes, stepThen]
    exact h' [] us

/-- a pragma -/
theorem pragma_run (ps us : List Token) (h : .dot ∉ ps) :
    pRun scopeSymb ⟨.pragma, .init⟩ ⟨[], []⟩ (ps ++ .dot :: us) = pRun scopeSymb PState.new PCtx.new us := by
  induction ps with
  | nil => rw [List.nil_append, parse_run rfl _ rfl]; rfl
  | cons tok ps ih =>
    have ih := ih fun hm => h (.tail _ hm)
    rw [List.cons_append]
    rcases hp : tok.plain with _ | _
    · obtain ⟨o, rfl⟩ := Token.not_plain hp
      rw [pRun_comment, ih]
    · rw [parse_run rfl _ hp]
      have : CState.parse (Tm := PTerm PSymb) .pragma [] tok = (.ok .pragma, []) := by
        cases tok <;> first | rfl | exact absurd (.head _) h
      rw [this]
      exact ih

/-- What is derivable is parsed. -/
theorem text_run {ts : List Token} {cs : List (PCmd (PTerm PSymb))} (h : GText ts cs) :
    pRun scopeSymb PState.new PCtx.new ts = (cs, .more PState.new PCtx.new) := by
  induction h with
  | nil => rfl
  | cmd hc _ ih => rw [cmd_run hc, cmdThen, ih]
  | pragma hp _ ih =>
    show pRun scopeSymb ⟨.init, .init⟩ ⟨[], []⟩ _ = _
    rw [List.cons_append, parse_run rfl _ rfl]
    simp only [CState.parse, cmdRes, stepThen]
    rw [pragma_run _ _ hp, ih]

/-- Sequences of tokens and their meaning are exactly those of the grammar. -/
theorem pRun_iff (ts : List Token) (cs : List (PCmd (PTerm PSymb))) :
    (∃ st ctx, pRun scopeSymb PState.new PCtx.new ts = (cs, .more st ctx) ∧ st.cmd = .init) ↔ GText (ts.filter Token.plain) cs := by
  constructor
  · rintro ⟨st, ctx, hr, hst⟩
    obtain ⟨as, bs, h1, h2, cs', ds, rfl, h3, h4⟩ := pRun_sound ts [] .start hr
    rw [hst] at h3 h4
    obtain ⟨rfl, _⟩ := h3
    obtain ⟨rfl, _⟩ := h4
    rw [List.nil_append, List.append_nil, List.append_nil] at h1
    rw [h1]; exact h2
  · intro h
    have := text_run h
    rw [pRun_filter] at this
    exact ⟨_, _, this, rfl⟩

end Kontroli
