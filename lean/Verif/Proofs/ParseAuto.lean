import Verif.Model.Parse

/-!
# The parser as an automaton

The functions of the parser consume as many tokens as they can at once.  Here they are shown equal to an automaton that consumes
one token at a time, which is what the remaining proofs reason about.
-/

namespace Kontroli

variable {A : Type}

/-- the outcome of one step of the automaton for terms -/
inductive TRes (A : Type) where
  | more (st : TState A) (ctx : PCtx A)
  | done (t : PTerm A) (ctx : PCtx A)
  | err (e : TermError) (ctx : PCtx A)

/-- closing everything up to the next parenthesis -/
def closeStep (app : PTerm A) (ctx : PCtx A) (tok : Token) : TRes A :=
  match reduceStack ctx.stack app with
  | (some l, tm, st) =>
    if tok = .rpar then
      .more (.aterm l.x (match l.app with
        | none => tm
        | some app => app.pushArg tm)) { ctx with stack := st }
    else .err .unclosedLPar { ctx with stack := st }
  | (none, tm, st) => .done tm { ctx with stack := st }

/-- one token in state `ATerm` -/
def atermStep (sc : ScopeFn A) (x : Option Str) (app : PTerm A) (ctx : PCtx A) : Token → TRes A
  | .symb s => .more (.aterm x (app.pushArg (scopeGo sc s ctx))) ctx
  | .arrow => .more .init (ctx.push (.prod x app))
  | .fatArrow => match x with
    | none => .err .anonymousLambda ctx
    | some x => .more .init (ctx.push (.abst x (some app)))
  | .lpar => .more .init (ctx.push (.lpar ⟨x, some app⟩))
  | tok => match x with
    | some _ => .err .abstWithoutRhs ctx
    | none => closeStep app ctx tok

/-- the state after the first symbol of a term -/
def symbState (sc : ScopeFn A) (s : PSymb) (ctx : PCtx A) : TState A :=
  if s.path.isEmpty then .symb s.name else .aterm none (scopeGo sc s ctx)

/-- one token that is not a comment -/
def tstep (sc : ScopeFn A) (ctx : PCtx A) (tok : Token) : TState A → TRes A
  | .init => match tok with
    | .symb s => .more (symbState sc s ctx) ctx
    | .lpar => .more .init (ctx.push (.lpar ⟨none, none⟩))
    | _ => .err .expectedIdentOrLPar ctx
  | .symb s => match tok with
    | .fatArrow => .more .init (ctx.push (.abst s none))
    | .colon => .more (.varof s) ctx
    | tok => atermStep sc none (scopeGo sc (PSymb.new s) ctx) ctx tok
  | .varof v => match tok with
    | .symb s => .more (.aterm (some v) (scopeGo sc s ctx)) ctx
    | .lpar => .more .init (ctx.push (.lpar ⟨some v, none⟩))
    | _ => .err .expectedIdentOrLPar ctx
  | .aterm x app => atermStep sc x app ctx tok

/-- the automaton on a list of tokens, with the interface of `pTerm` -/
def tRun (sc : ScopeFn A) : TState A → PCtx A → List Token → POut TermError (TState A × Option Token) × PCtx A × List Token
  | st, ctx, [] => (.ok (st, none), ctx, [])
  | st, ctx, .comment o :: ts => (.ok (st, some (.comment o)), ctx, ts)
  | st, ctx, tok :: ts => match tstep sc ctx tok st with
    | .more st ctx => tRun sc st ctx ts
    | .done t ctx => (.ok (.aterm none t, some tok), ctx, ts)
    | .err e ctx => (.err e, ctx, ts)

/-- what `State::parse` makes of the answer of `State::resume` -/
def tFinish (sc : ScopeFn A) : POut TermError (Loop A) × PCtx A × List Token →
    POut TermError (TState A × Option Token) × PCtx A × List Token
  | (.ok .continue_, ctx, ts) => tRun sc .init ctx ts
  | (.ok (.break_ st tok), ctx, ts) => (.ok (st, tok), ctx, ts)
  | (.err e, ctx, ts) => (.err e, ctx, ts)
  | (.panic, ctx, ts) => (.panic, ctx, ts)

theorem tRun_cons (sc : ScopeFn A) (st : TState A) (ctx : PCtx A) (tok : Token) (ts : List Token) (h : ∀ o, tok ≠ .comment o) :
    tRun sc st ctx (tok :: ts) = match tstep sc ctx tok st with
      | .more st ctx => tRun sc st ctx ts
      | .done t ctx => (.ok (.aterm none t, some tok), ctx, ts)
      | .err e ctx => (.err e, ctx, ts) := by
  cases tok <;> first | rfl | (exact absurd rfl (h _))

theorem tFinish_pAterm (sc : ScopeFn A) (x : Option Str) (app : PTerm A) (ctx : PCtx A) (ts : List Token) :
    tFinish sc (pAterm sc x app ctx ts) = tRun sc (.aterm x app) ctx ts := by
  induction ts generalizing x app ctx with
  | nil => rfl
  | cons tok ts ih =>
    have other : ∀ tok : Token, (∀ o, tok ≠ .comment o) →
        atermStep sc x app ctx tok = (match x with
          | some _ => .err .abstWithoutRhs ctx
          | none => closeStep app ctx tok) →
        pAterm sc x app ctx (tok :: ts) = (match x with
          | some _ => (.err .abstWithoutRhs, ctx, ts)
          | none => match reduceStack ctx.stack app with
            | (some l, tm, st) =>
              if tok = .rpar then
                pAterm sc l.x (match l.app with
                  | none => tm
                  | some app => app.pushArg tm) { ctx with stack := st } ts
              else (.err .unclosedLPar, { ctx with stack := st }, ts)
            | (none, tm, st) => (.ok (.break_ (.aterm none tm) (some tok)), { ctx with stack := st }, ts)) →
        tFinish sc (pAterm sc x app ctx (tok :: ts)) = tRun sc (.aterm x app) ctx (tok :: ts) := by
      intro tok hc ha hp
      rw [hp, tRun_cons _ _ _ _ _ hc]
      simp only [tstep, ha]
      cases x with
      | some _ => rfl
      | none =>
        simp only [closeStep]
        cases hr : reduceStack ctx.stack app with
        | mk l r =>
          cases l with
          | none => rfl
          | some l =>
            by_cases ht : tok = .rpar
            · simp only [if_pos ht]
              exact ih _ _ _
            · simp only [if_neg ht]
              rfl
    cases tok with
    | comment o => simp only [pAterm, tRun, tFinish]
    | symb s => simp only [tRun, pAterm, ih]; rfl
    | arrow => simp only [tRun, pAterm]; rfl
    | fatArrow =>
      simp only [tRun]
      cases x <;> rw [pAterm] <;> rfl
    | lpar => simp only [tRun]; cases x <;> rw [pAterm] <;> rfl
    | _ => refine other _ (by intro o; simp) ?_ ?_ <;> cases x <;> rfl

theorem tFinish_pVarof (sc : ScopeFn A) (v : Str) (ctx : PCtx A) (ts : List Token) :
    tFinish sc (pVarof sc v ctx ts) = tRun sc (.varof v) ctx ts := by
  cases ts with
  | nil => rfl
  | cons tok ts =>
    cases tok with
    | comment o => simp only [pVarof, tRun, tFinish]
    | symb s => simp only [tRun, pVarof, tFinish_pAterm]; rfl
    | _ => simp only [tRun]; rfl

theorem tFinish_pSymb (sc : ScopeFn A) (s : PSymb) (ctx : PCtx A) (ts : List Token) :
    tFinish sc (pSymb sc s ctx ts) = tRun sc (symbState sc s ctx) ctx ts := by
  rcases hs : s.path.isEmpty with _ | _
  · simp only [pSymb, symbState, hs]
    exact tFinish_pAterm _ _ _ _ _
  · have e : s = PSymb.new s.name := by
      obtain ⟨path, name⟩ := s
      simp only [List.isEmpty_iff] at hs
      subst hs
      rfl
    simp only [pSymb, symbState, hs, if_true]
    cases ts with
    | nil => rfl
    | cons tok ts =>
      have other : ∀ tok : Token, (∀ o, tok ≠ .comment o) →
          tstep sc ctx tok (.symb s.name) = atermStep sc none (scopeGo sc (PSymb.new s.name) ctx) ctx tok →
          tFinish sc (pAterm sc none (scopeGo sc s ctx) ctx (tok :: ts)) = tRun sc (.symb s.name) ctx (tok :: ts) := by
        intro tok hc ht
        rw [tFinish_pAterm, tRun_cons _ _ _ _ _ hc, tRun_cons _ _ _ _ _ hc, ht, ← e]
        rfl
      cases tok with
      | comment o => simp only [tRun, tFinish]
      | colon => simp only [tRun]; exact tFinish_pVarof _ _ _ _
      | fatArrow => simp only [tRun]; rfl
      | _ => exact other _ (by intro o; simp) rfl

/-- the tokens left are no more than before -/
theorem pAterm_length (sc : ScopeFn A) (x : Option Str) (app : PTerm A) (ctx : PCtx A) (ts : List Token) :
    (pAterm sc x app ctx ts).2.2.length ≤ ts.length := by
  fun_induction pAterm sc x app ctx ts <;> simp_all <;> omega

theorem pVarof_length (sc : ScopeFn A) (v : Str) (ctx : PCtx A) (ts : List Token) :
    (pVarof sc v ctx ts).2.2.length ≤ ts.length := by
  cases ts with
  | nil => exact Nat.le_refl _
  | cons tok ts =>
    have := pAterm_length sc (some v)
    cases tok <;> simp only [pVarof, List.length_cons] <;> first | omega | (exact Nat.le_succ_of_le (this _ _ _))

theorem pSymb_length (sc : ScopeFn A) (s : PSymb) (ctx : PCtx A) (ts : List Token) :
    (pSymb sc s ctx ts).2.2.length ≤ ts.length := by
  have h1 := pAterm_length sc none
  have h2 := pVarof_length sc s.name
  rcases hs : s.path.isEmpty with _ | _
  · simp only [pSymb, hs]
    exact h1 _ _ _
  · simp only [pSymb, hs, if_true]
    cases ts with
    | nil => exact Nat.le_refl _
    | cons tok ts =>
      cases tok <;> simp only [List.length_cons] <;>
        first | omega | (exact Nat.le_succ_of_le (h2 _ _)) | (exact h1 _ _ (_ :: ts))

theorem pInit_eq (sc : ScopeFn A) (n : Nat) (ctx : PCtx A) (ts : List Token) (h : ts.length < n) :
    pInit sc n ctx ts = tRun sc .init ctx ts := by
  induction n generalizing ctx ts with
  | zero => exact absurd h (Nat.not_lt_zero _)
  | succ n ih =>
    cases ts with
    | nil => rfl
    | cons tok ts =>
      have hl : ts.length < n := by simpa using h
      cases tok with
      | comment o => simp only [pInit, tRun]
      | symb s =>
        simp only [tRun]
        simp only [tstep, ← tFinish_pSymb]
        have hlen := pSymb_length sc s ctx ts
        simp only [pInit]
        revert hlen
        generalize pSymb sc s ctx ts = r
        obtain ⟨r, ctx', ts'⟩ := r
        intro hlen
        rcases r with (_ | _) | _ | _
        · exact ih _ _ (by simp only at hlen; omega)
        all_goals rfl
      | lpar => simp only [tRun]; simp only [pInit, tstep]; exact ih _ _ hl
      | _ => simp only [tRun]; rfl

/-- The term parser is the automaton. -/
theorem pTerm_eq (sc : ScopeFn A) (st : TState A) (ctx : PCtx A) (ts : List Token) :
    pTerm sc st ctx ts = tRun sc st ctx ts := by
  have fin : ∀ r : POut TermError (Loop A) × PCtx A × List Token, (match r with
      | (.ok .continue_, ctx, ts) => pInit sc (ts.length + 1) ctx ts
      | (.ok (.break_ st tok), ctx, ts) => (.ok (st, tok), ctx, ts)
      | (.err e, ctx, ts) => (.err e, ctx, ts)
      | (.panic, ctx, ts) => (.panic, ctx, ts)) = tFinish sc r := by
    rintro ⟨(_ | _) | _ | _, ctx, ts⟩
    · exact pInit_eq _ _ _ _ (Nat.lt_succ_self _)
    all_goals rfl
  refine (fin _).trans ?_
  cases st with
  | init => rfl
  | symb s => rw [pResume, tFinish_pSymb]; rfl
  | varof v => rw [pResume, tFinish_pVarof]
  | aterm x app => rw [pResume, tFinish_pAterm]

/-! ## The whole parser -/

/-- the outcome of one step of the automaton for commands -/
inductive PRes (A : Type) where
  | more (st : PState A) (ctx : PCtx A)
  | cmd (c : PCmd (PTerm A)) (ctx : PCtx A)
  | err (e : ParseError) (ctx : PCtx A)
  | panic (ctx : PCtx A)

/-- a new state of the command parser -/
def cmdRes (ctx : PCtx A) : POut CmdError (CState (PTerm A)) × List Str → PRes A
  | (.ok (.command c), bound) => .cmd c { ctx with bound := bound }
  | (.ok cmd, bound) => .more ⟨cmd, .init⟩ { ctx with bound := bound }
  | (.err e, bound) => .err (.command e) { ctx with bound := bound }
  | (.panic, bound) => .panic { ctx with bound := bound }

/-- one token that is not a comment -/
def pstep (sc : ScopeFn A) (ctx : PCtx A) (st : PState A) (tok : Token) : PRes A :=
  if st.cmd.expectsTerm then
    match tstep sc ctx tok st.trm with
    | .more trm ctx => .more ⟨st.cmd, trm⟩ ctx
    | .done t ctx => cmdRes ctx (st.cmd.apply ctx.bound t tok)
    | .err e ctx => .err (.term e) ctx
  else
    match st.trm with
    | .init => cmdRes ctx (st.cmd.parse ctx.bound tok)
    | _ => .panic ctx

/-- A state in between two tokens: it does not hold a finished command, and if no term is expected, none has been begun. -/
def PState.Open (st : PState A) : Prop := (∀ c, st.cmd ≠ .command c) ∧ (st.cmd.expectsTerm = false → st.trm = .init)

theorem PState.new_open : (PState.new : PState A).Open := ⟨fun _ h => (by cases h), fun _ => rfl⟩

theorem expectsTerm_open {cmd : CState (PTerm A)} (h : cmd.expectsTerm = true) (trm : TState A) : (⟨cmd, trm⟩ : PState A).Open := by
  refine ⟨?_, fun h' => absurd (h.symm.trans h') (by simp)⟩
  rintro c rfl
  exact absurd h (by simp [CState.expectsTerm])

/-- not a comment -/
def Token.plain : Token → Bool
  | .comment _ => false
  | _ => true

theorem Token.not_plain {tok : Token} (h : tok.plain = false) : ∃ o, tok = .comment o := by
  cases tok <;> simp_all [Token.plain]

theorem Token.plain_ne {tok : Token} (h : tok.plain = true) (o : Nat) : tok ≠ .comment o := by
  rintro rfl
  exact absurd h (by simp [Token.plain])

/-- What a function computes that processes one token at a time, from what a loop around `feed` computes. -/
theorem feed_run {β : Type} (sc : ScopeFn A) (F : PState A → PCtx A → List Token → β) (K : PState A → Nat → PCtx A → List Token → β)
    (E : ParseError → PCtx A → List Token → β) (P : PCtx A → List Token → β)
    (hK : ∀ st ctx ts, st.Open → K st 0 ctx ts = F st ctx ts)
    (hC : ∀ st o ctx ts, st.Open → F st ctx (.comment o :: ts) = K st o ctx ts)
    (hS : ∀ st ctx tok ts, st.Open → tok.plain = true → F st ctx (tok :: ts) = match pstep sc ctx st tok with
      | .more st ctx => F st ctx ts
      | .cmd c ctx => K ⟨.command c, .init⟩ 0 ctx ts
      | .err e ctx => E e ctx ts
      | .panic ctx => P ctx ts)
    (st : PState A) (ctx : PCtx A) (tok : Token) (ts : List Token) (ho : st.Open) :
    F st ctx (tok :: ts) = match st.feed sc ctx tok ts with
      | (.ok (st, o), ctx, ts) => K st o ctx ts
      | (.err e, ctx, ts) => E e ctx ts
      | (.panic, ctx, ts) => P ctx ts := by
  have hcmd : ∀ (r : POut CmdError (CState (PTerm A)) × List Str) (ctx : PCtx A) (ts : List Token), (match cmdRes ctx r with
      | .more st ctx => F st ctx ts
      | .cmd c ctx => K ⟨.command c, .init⟩ 0 ctx ts
      | .err e ctx => E e ctx ts
      | .panic ctx => P ctx ts) = match (match r with
        | (.ok cmd, bound) => (.ok (⟨cmd, .init⟩, 0), { ctx with bound := bound }, ts)
        | (.err e, bound) => (.err (.command e), { ctx with bound := bound }, ts)
        | (.panic, bound) => (.panic, { ctx with bound := bound }, ts) :
          POut ParseError (PState A × Nat) × PCtx A × List Token) with
      | (.ok (st, o), ctx, ts) => K st o ctx ts
      | (.err e, ctx, ts) => E e ctx ts
      | (.panic, ctx, ts) => P ctx ts := by
    rintro ⟨c | e | _, bound⟩ ctx ts
    · cases c <;> first | rfl | exact (hK _ _ _ ⟨fun _ h => (by cases h), fun _ => rfl⟩).symm
    · rfl
    · rfl
  obtain ⟨cmd, trm⟩ := st
  rcases he : cmd.expectsTerm with _ | _
  · obtain rfl : trm = .init := ho.2 he
    simp only [PState.feed, he]
    rcases hp : tok.plain with _ | _
    · obtain ⟨o, rfl⟩ := Token.not_plain hp
      simp only [hC _ _ _ _ ho, Bool.false_eq_true, if_false]
    · rw [hS _ _ _ _ ho hp]
      simp only [pstep, he, Bool.false_eq_true, if_false]
      rw [hcmd]
      cases tok <;> first | rfl | (simp [Token.plain] at hp)
  · simp only [PState.feed, he, if_true, pTerm_eq]
    generalize tok :: ts = ts
    induction ts generalizing trm ctx with
    | nil => exact (hK _ _ _ (expectsTerm_open he _)).symm
    | cons tok ts ih =>
      rcases hp : tok.plain with _ | _
      · obtain ⟨o, rfl⟩ := Token.not_plain hp
        exact hC _ _ _ _ (expectsTerm_open he _)
      · rw [hS _ _ _ _ (expectsTerm_open he _) hp, tRun_cons _ _ _ _ _ (Token.plain_ne hp)]
        simp only [pstep, he, if_true]
        cases ht : tstep sc ctx tok trm with
        | more trm ctx => exact ih _ _ (expectsTerm_open he _)
        | done t ctx =>
          simp only
          rw [hcmd]
          cases tok <;> first | rfl | (simp [Token.plain] at hp)
        | err e ctx => rfl

theorem tRun_suffix (sc : ScopeFn A) (st : TState A) (ctx : PCtx A) (ts : List Token) :
    (tRun sc st ctx ts).2.2 <:+ ts := by
  induction ts generalizing st ctx with
  | nil => exact List.suffix_refl _
  | cons tok ts ih =>
    rcases hp : tok.plain with _ | _
    · obtain ⟨o, rfl⟩ := Token.not_plain hp
      exact List.suffix_cons _ _
    · rw [tRun_cons _ _ _ _ _ (Token.plain_ne hp)]
      cases ht : tstep sc ctx tok st with
      | more trm ctx => exact (ih _ _).trans (List.suffix_cons _ _)
      | done t ctx => exact List.suffix_cons _ _
      | err e ctx => exact List.suffix_cons _ _

/-- at least one token is consumed -/
theorem tRun_suffix_cons (sc : ScopeFn A) (st : TState A) (ctx : PCtx A) (tok : Token) (ts : List Token) :
    (tRun sc st ctx (tok :: ts)).2.2 <:+ ts := by
  rcases hp : tok.plain with _ | _
  · obtain ⟨o, rfl⟩ := Token.not_plain hp
    exact List.suffix_refl _
  · rw [tRun_cons _ _ _ _ _ (Token.plain_ne hp)]
    cases ht : tstep sc ctx tok st with
    | more trm ctx => exact tRun_suffix _ _ _ _
    | done t ctx => exact List.suffix_refl _
    | err e ctx => exact List.suffix_refl _

theorem feed_suffix (sc : ScopeFn A) (st : PState A) (ctx : PCtx A) (tok : Token) (ts : List Token) :
    (st.feed sc ctx tok ts).2.2 <:+ ts := by
  unfold PState.feed
  rw [pTerm_eq]
  have := tRun_suffix_cons sc st.trm ctx tok ts
  revert this
  generalize tRun sc st.trm ctx (tok :: ts) = r
  intro this
  repeat' split
  all_goals first | exact this | exact List.suffix_refl _

/-- the loop of the strict parser, one token at a time -/
def sLoop (sc : ScopeFn A) : PState A → PCtx A → List Token → POut ParseError (Option (PCmd (PTerm A))) × PCtx A × List Token
  | _, ctx, [] => (.ok none, ctx, [])
  | st, ctx, .comment o :: ts => if o > 0 then (.ok none, ctx, ts) else sLoop sc st ctx ts
  | st, ctx, tok :: ts => match pstep sc ctx st tok with
    | .more st ctx => sLoop sc st ctx ts
    | .cmd c ctx => (.ok (some c), ctx, ts)
    | .err e ctx => (.err e, ctx, ts)
    | .panic ctx => (.panic, ctx, ts)

theorem sLoop_cons (sc : ScopeFn A) (st : PState A) (ctx : PCtx A) (tok : Token) (ts : List Token) (h : tok.plain = true) :
    sLoop sc st ctx (tok :: ts) = match pstep sc ctx st tok with
      | .more st ctx => sLoop sc st ctx ts
      | .cmd c ctx => (.ok (some c), ctx, ts)
      | .err e ctx => (.err e, ctx, ts)
      | .panic ctx => (.panic, ctx, ts) := by
  cases tok <;> first | rfl | (simp [Token.plain] at h)

theorem cmdRes_open {ctx ctx' : PCtx A} {r : POut CmdError (CState (PTerm A)) × List Str} {st : PState A}
    (h : cmdRes ctx r = .more st ctx') : st.Open := by
  obtain ⟨c | e | _, bound⟩ := r
  · cases c <;> simp only [cmdRes, PRes.more.injEq, reduceCtorEq] at h <;> obtain ⟨rfl, rfl⟩ := h <;>
      exact ⟨fun _ h => (by cases h), fun _ => rfl⟩
  · simp [cmdRes] at h
  · simp [cmdRes] at h

theorem pstep_open {sc : ScopeFn A} {ctx ctx' : PCtx A} {st st' : PState A} {tok : Token}
    (h : pstep sc ctx st tok = .more st' ctx') : st'.Open := by
  unfold pstep at h
  split at h
  · next he =>
    split at h
    · cases h; exact expectsTerm_open he _
    · exact cmdRes_open h
    · cases h
  · split at h
    · exact cmdRes_open h
    · cases h

/-- what the loop of the strict parser does after `feed` -/
def sAfter (sc : ScopeFn A) (st : PState A) (o : Nat) (ctx : PCtx A) (ts : List Token) :
    POut ParseError (Option (PCmd (PTerm A))) × PCtx A × List Token :=
  match st.cmd with
  | .command c => (.ok (some c), ctx, ts)
  | _ => if o > 0 then (.ok none, ctx, ts) else sLoop sc st ctx ts

theorem sAfter_open (sc : ScopeFn A) (st : PState A) (o : Nat) (ctx : PCtx A) (ts : List Token) (h : st.Open) :
    sAfter sc st o ctx ts = if o > 0 then (.ok none, ctx, ts) else sLoop sc st ctx ts := by
  unfold sAfter
  split
  · next c hc => exact absurd hc (h.1 c)
  · rfl

theorem sLoop_feed (sc : ScopeFn A) (st : PState A) (ctx : PCtx A) (tok : Token) (ts : List Token) (h : st.Open) :
    sLoop sc st ctx (tok :: ts) = match st.feed sc ctx tok ts with
      | (.ok (st, o), ctx, ts) => sAfter sc st o ctx ts
      | (.err e, ctx, ts) => (.err e, ctx, ts)
      | (.panic, ctx, ts) => (.panic, ctx, ts) := by
  refine feed_run sc (sLoop sc) (sAfter sc) (fun e ctx ts => (.err e, ctx, ts)) (fun ctx ts => (.panic, ctx, ts)) ?_ ?_ ?_ st ctx tok ts h
  · intro st ctx ts h
    rw [sAfter_open _ _ _ _ _ h]
    rfl
  · intro st o ctx ts h
    rw [sAfter_open _ _ _ _ _ h]
    rfl
  · intro st ctx tok ts _ hp
    rw [sLoop_cons _ _ _ _ _ hp]
    rfl

/-- a state returned by `feed` that holds no command is one in between two tokens -/
theorem feed_open {sc : ScopeFn A} {st st' : PState A} {ctx ctx' : PCtx A} {tok : Token} {ts ts' : List Token} {o : Nat}
    (h : st.feed sc ctx tok ts = (.ok (st', o), ctx', ts')) (hc : ∀ c, st'.cmd ≠ .command c) : st'.Open := by
  refine ⟨hc, ?_⟩
  unfold PState.feed at h
  split at h
  · next he =>
    split at h <;> try (simp only [Prod.mk.injEq, POut.ok.injEq, reduceCtorEq, false_and] at h)
    · obtain ⟨⟨rfl, _⟩, _⟩ := h
      intro h'; exact absurd (he.symm.trans h') (by simp)
    · obtain ⟨⟨rfl, _⟩, _⟩ := h
      intro h'; exact absurd (he.symm.trans h') (by simp)
    · split at h <;> simp only [Prod.mk.injEq, POut.ok.injEq, reduceCtorEq, false_and] at h
      obtain ⟨⟨rfl, _⟩, _⟩ := h
      intro; rfl
  · next he =>
    split at h <;> try (simp only [Prod.mk.injEq, reduceCtorEq, false_and] at h)
    · next ht =>
      split at h
      · simp only [Prod.mk.injEq, POut.ok.injEq] at h
        obtain ⟨⟨rfl, _⟩, _⟩ := h
        intro; exact ht
      · split at h <;> simp only [Prod.mk.injEq, POut.ok.injEq, reduceCtorEq, false_and] at h
        obtain ⟨⟨rfl, _⟩, _⟩ := h
        intro; exact ht

/-- The loop of the strict parser is the automaton. -/
theorem strictLoop_eq (sc : ScopeFn A) (n : Nat) (st : PState A) (ctx : PCtx A) (ts : List Token) (h : ts.length < n) (ho : st.Open) :
    strictLoop sc n st ctx ts = sLoop sc st ctx ts := by
  induction n generalizing st ctx ts with
  | zero => exact absurd h (Nat.not_lt_zero _)
  | succ n ih =>
    cases ts with
    | nil => rfl
    | cons tok ts =>
      rw [sLoop_feed _ _ _ _ _ ho, strictLoop]
      have hs := (feed_suffix sc st ctx tok ts).length_le
      have hop := fun st' ctx' ts' o => @feed_open A sc st st' ctx ctx' tok ts ts' o
      revert hs hop
      generalize st.feed sc ctx tok ts = r
      intro hs hop
      obtain ⟨⟨st', o⟩ | e | _, ctx', ts'⟩ := r
      · simp only [List.length_cons] at h hs
        rcases Classical.em (∃ c, st'.cmd = .command c) with ⟨c, hc⟩ | hc
        · simp only [sAfter, hc]
        · have hop' := hop _ _ _ _ rfl (fun c h => hc ⟨c, h⟩)
          simp only [sAfter_open _ _ _ _ _ hop', ih _ _ _ (show ts'.length < n by omega) hop']
          split
          · next c hc' => exact absurd ⟨c, hc'⟩ hc
          · rfl
      · rfl
      · rfl

theorem sLoop_suffix (sc : ScopeFn A) (st : PState A) (ctx : PCtx A) (ts : List Token) : (sLoop sc st ctx ts).2.2 <:+ ts.tail := by
  induction ts generalizing st ctx with
  | nil => exact List.suffix_refl _
  | cons tok ts ih =>
    have ih' : ∀ st ctx, (sLoop sc st ctx ts).2.2 <:+ ts := fun st ctx => (ih st ctx).trans (List.tail_suffix _)
    rcases hp : tok.plain with _ | _
    · obtain ⟨o, rfl⟩ := Token.not_plain hp
      rw [sLoop]
      split
      · exact List.suffix_refl _
      · exact ih' _ _
    · rw [sLoop_cons _ _ _ _ _ hp]
      cases pstep sc ctx st tok with
      | more st ctx => exact ih' _ _
      | _ => exact List.suffix_refl _

/-- the items of the strict parser, one token at a time; `seen` tells whether a token was seen since the last item -/
def pItems (sc : ScopeFn A) : Bool → PState A → PCtx A → List Token → List (POut ParseError (PCmd (PTerm A)))
  | seen, _, _, [] => if seen then [.err .expectedInput] else []
  | _, st, ctx, .comment o :: ts => if o > 0 then .err .expectedInput :: pItems sc false PState.new ctx ts else pItems sc true st ctx ts
  | _, st, ctx, tok :: ts => match pstep sc ctx st tok with
    | .more st ctx => pItems sc true st ctx ts
    | .cmd c ctx => .ok c :: pItems sc false PState.new ctx ts
    | .err e ctx => .err e :: pItems sc false PState.new ctx ts
    | .panic ctx => .panic :: pItems sc false PState.new ctx ts

theorem pItems_cons (sc : ScopeFn A) (seen : Bool) (st : PState A) (ctx : PCtx A) (tok : Token) (ts : List Token)
    (h : tok.plain = true) : pItems sc seen st ctx (tok :: ts) = match pstep sc ctx st tok with
      | .more st ctx => pItems sc true st ctx ts
      | .cmd c ctx => .ok c :: pItems sc false PState.new ctx ts
      | .err e ctx => .err e :: pItems sc false PState.new ctx ts
      | .panic ctx => .panic :: pItems sc false PState.new ctx ts := by
  cases tok <;> first | rfl | (simp [Token.plain] at h)

theorem pItems_sLoop (sc : ScopeFn A) (seen : Bool) (st : PState A) (ctx : PCtx A) (ts : List Token) :
    pItems sc seen st ctx ts = match sLoop sc st ctx ts with
      | (.ok (some c), ctx, ts') => .ok c :: pItems sc false PState.new ctx ts'
      | (.ok none, ctx, ts') => if seen || !ts.isEmpty then .err .expectedInput :: pItems sc false PState.new ctx ts' else []
      | (.err e, ctx, ts') => .err e :: pItems sc false PState.new ctx ts'
      | (.panic, ctx, ts') => .panic :: pItems sc false PState.new ctx ts' := by
  induction ts generalizing seen st ctx with
  | nil => cases seen <;> rfl
  | cons tok ts ih =>
    have ih' := fun st ctx => ih true st ctx
    simp only [Bool.true_or, if_true] at ih'
    simp only [List.isEmpty_cons, Bool.not_false, Bool.or_true, if_true]
    rcases hp : tok.plain with _ | _
    · obtain ⟨o, rfl⟩ := Token.not_plain hp
      rw [sLoop, pItems]
      split
      · rfl
      · exact ih' _ _
    · rw [sLoop_cons _ _ _ _ _ hp, pItems_cons _ _ _ _ _ _ hp]
      cases pstep sc ctx st tok with
      | more st ctx => exact ih' _ _
      | _ => rfl

/-- The items of the strict parser are those of the automaton. -/
theorem strictItems_eq (sc : ScopeFn A) (n : Nat) (ctx : PCtx A) (ts : List Token) (h : ts.length < n) :
    strictItems sc n ctx ts = pItems sc false PState.new ctx ts := by
  induction n generalizing ctx ts with
  | zero => exact absurd h (Nat.not_lt_zero _)
  | succ n ih =>
    rw [strictItems, strictNext, strictLoop_eq _ _ _ _ _ (Nat.lt_succ_self _) PState.new_open, pItems_sLoop]
    cases ts with
    | nil => rfl
    | cons tok ts =>
      have hs := (sLoop_suffix sc PState.new ctx (tok :: ts)).length_le
      revert hs
      generalize sLoop sc PState.new ctx (tok :: ts) = r
      intro hs
      have hl : r.2.2.length < n := by
        simp only [List.length_cons, List.tail_cons] at h hs
        omega
      obtain ⟨(_ | c) | e | _, ctx', ts'⟩ := r
      all_goals simp only [List.isEmpty_cons, Bool.false_eq_true, if_false, Bool.not_false, Bool.or_true, if_true] <;> rw [ih _ _ hl]

theorem strict_eq (sc : ScopeFn A) (text : Str) : strict sc text = pItems sc false PState.new PCtx.new (lex text) :=
  strictItems_eq _ _ _ _ (Nat.lt_succ_self _)

/-! ## Runs until the first error -/

/-- how a run of the automaton ends -/
inductive PEnd (A : Type) where
  | more (st : PState A) (ctx : PCtx A)
  | err (e : ParseError) (ctx : PCtx A)
  | panic (ctx : PCtx A)

/-- the commands until the first error, and how the run ends; comments are ignored -/
def pRun (sc : ScopeFn A) : PState A → PCtx A → List Token → List (PCmd (PTerm A)) × PEnd A
  | st, ctx, [] => ([], .more st ctx)
  | st, ctx, .comment _ :: ts => pRun sc st ctx ts
  | st, ctx, tok :: ts => match pstep sc ctx st tok with
    | .more st ctx => pRun sc st ctx ts
    | .cmd c ctx => (c :: (pRun sc PState.new ctx ts).1, (pRun sc PState.new ctx ts).2)
    | .err e ctx => ([], .err e ctx)
    | .panic ctx => ([], .panic ctx)

theorem pRun_cons (sc : ScopeFn A) (st : PState A) (ctx : PCtx A) (tok : Token) (ts : List Token) (h : tok.plain = true) :
    pRun sc st ctx (tok :: ts) = match pstep sc ctx st tok with
      | .more st ctx => pRun sc st ctx ts
      | .cmd c ctx => (c :: (pRun sc PState.new ctx ts).1, (pRun sc PState.new ctx ts).2)
      | .err e ctx => ([], .err e ctx)
      | .panic ctx => ([], .panic ctx) := by
  cases tok <;> first | rfl | (simp [Token.plain] at h)

/-- comments are found at the end only -/
def CommentLast : List Token → Prop
  | [] => True
  | .comment _ :: ts => ts = []
  | _ :: ts => CommentLast ts

/-- the number of comments open at the end -/
def openOf : List Token → Nat
  | [] => 0
  | tok :: ts => match tok, ts with
    | .comment o, [] => o
    | _, ts => openOf ts

theorem CommentLast.tail {tok : Token} {ts : List Token} (h : CommentLast (tok :: ts)) : CommentLast ts := by
  cases tok <;> first | exact h | skip
  simp only [CommentLast] at h
  rw [h]; trivial

theorem CommentLast.suffix {ts ts' : List Token} (h : CommentLast ts) (hs : ts' <:+ ts) : CommentLast ts' := by
  induction ts with
  | nil => rw [List.suffix_nil.1 hs]; trivial
  | cons tok ts ih =>
    rcases List.suffix_cons_iff.1 hs with rfl | hs
    · exact h
    · exact ih h.tail hs

theorem openOf_cons {tok : Token} (ts : List Token) (h : tok.plain = true) : openOf (tok :: ts) = openOf ts := by
  cases tok <;> first | rfl | (simp [Token.plain] at h)

theorem tRun_comment {sc : ScopeFn A} {st st' : TState A} {ctx ctx' : PCtx A} {ts ts' : List Token} {o : Nat} (h : CommentLast ts)
    (hr : tRun sc st ctx ts = (.ok (st', some (.comment o)), ctx', ts')) : ts' = [] := by
  induction ts generalizing st ctx with
  | nil => simp [tRun] at hr
  | cons tok ts ih =>
    rcases hp : tok.plain with _ | _
    · obtain ⟨o, rfl⟩ := Token.not_plain hp
      simp only [tRun, Prod.mk.injEq] at hr
      rw [← hr.2.2]
      exact h
    · rw [tRun_cons _ _ _ _ _ (Token.plain_ne hp)] at hr
      cases ht : tstep sc ctx tok st with
      | more trm ctx => rw [ht] at hr; exact ih h.tail hr
      | done t ctx =>
        simp only [ht, Prod.mk.injEq, POut.ok.injEq, Option.some.injEq] at hr
        exact absurd hr.1.2 (Token.plain_ne hp _)
      | err e ctx => simp [ht] at hr

theorem feed_comment {sc : ScopeFn A} {st st' : PState A} {ctx ctx' : PCtx A} {tok : Token} {ts ts' : List Token} {o : Nat}
    (ho : st.Open) (h : CommentLast (tok :: ts)) (hf : st.feed sc ctx tok ts = (.ok (st', o), ctx', ts')) :
    o = 0 ∨ ts' = [] ∧ ∀ c, st'.cmd ≠ .command c := by
  unfold PState.feed at hf
  split at hf
  · next he =>
    rw [pTerm_eq] at hf
    split at hf <;> try (simp only [Prod.mk.injEq, POut.ok.injEq, reduceCtorEq, false_and] at hf)
    · exact .inl hf.1.2.symm
    · next hr =>
      obtain ⟨⟨rfl, _⟩, _, rfl⟩ := hf
      exact .inr ⟨tRun_comment h hr, ho.1⟩
    · split at hf <;> simp only [Prod.mk.injEq, POut.ok.injEq, reduceCtorEq, false_and] at hf
      exact .inl hf.1.2.symm
  · split at hf <;> try (simp only [Prod.mk.injEq, reduceCtorEq, false_and] at hf)
    split at hf
    · simp only [Prod.mk.injEq, POut.ok.injEq] at hf
      obtain ⟨⟨rfl, _⟩, _, rfl⟩ := hf
      exact .inr ⟨h, ho.1⟩
    · split at hf <;> simp only [Prod.mk.injEq, POut.ok.injEq, reduceCtorEq, false_and] at hf
      exact .inl hf.1.2.symm

/-- what the loop over the tokens of a line answers, from a run of the automaton -/
def lineOf (sc : ScopeFn A) (st : PState A) (ctx : PCtx A) (ts : List Token) (buf : List (PCmd (PTerm A))) :
    POut ParseError (PState A) × PCtx A × List (PCmd (PTerm A)) × Nat :=
  match pRun sc st ctx ts with
  | (cs, .more st ctx) => (.ok st, ctx, buf ++ cs, openOf ts)
  | (cs, .err e ctx) => (.err e, ctx, buf ++ cs, 0)
  | (cs, .panic ctx) => (.panic, ctx, buf ++ cs, 0)

/-- what the loop over the tokens of a line does after `feed` -/
def lineAfter (sc : ScopeFn A) (st : PState A) (o : Nat) (ctx : PCtx A) (ts : List Token) (buf : List (PCmd (PTerm A))) :
    POut ParseError (PState A) × PCtx A × List (PCmd (PTerm A)) × Nat :=
  match st.cmd with
  | .command c => lineOf sc PState.new ctx ts (buf ++ [c])
  | _ => if ts = [] then (.ok st, ctx, buf, o) else lineOf sc st ctx ts buf

theorem lineAfter_open (sc : ScopeFn A) (st : PState A) (o : Nat) (ctx : PCtx A) (ts : List Token) (buf : List (PCmd (PTerm A)))
    (h : ∀ c, st.cmd ≠ .command c) :
    lineAfter sc st o ctx ts buf = if ts = [] then (.ok st, ctx, buf, o) else lineOf sc st ctx ts buf := by
  unfold lineAfter
  split
  · next c hc => exact absurd hc (h c)
  · rfl

theorem lineOf_feed (sc : ScopeFn A) (st : PState A) (ctx : PCtx A) (tok : Token) (ts : List Token) (buf : List (PCmd (PTerm A)))
    (h : st.Open) : lineOf sc st ctx (tok :: ts) buf = match st.feed sc ctx tok ts with
      | (.ok (st, o), ctx, ts) => lineAfter sc st o ctx ts buf
      | (.err e, ctx, _) => (.err e, ctx, buf, 0)
      | (.panic, ctx, _) => (.panic, ctx, buf, 0) := by
  have := feed_run sc (lineOf sc) (lineAfter sc) (fun e ctx _ buf => (.err e, ctx, buf, 0)) (fun ctx _ buf => (.panic, ctx, buf, 0))
    ?_ ?_ ?_ st ctx tok ts h
  · rw [this]
    split <;> rfl
  · intro st ctx ts h
    funext buf
    rw [lineAfter_open _ _ _ _ _ _ h.1]
    split
    · next hn => subst hn; simp [lineOf, pRun, openOf]
    · rfl
  · intro st o ctx ts h
    funext buf
    rw [lineAfter_open _ _ _ _ _ _ h.1]
    split
    · next hn => subst hn; simp [lineOf, pRun, openOf]
    · next hn =>
      simp only [lineOf, pRun]
      have : openOf (.comment o :: ts) = openOf ts := by
        cases ts with
        | nil => exact absurd rfl hn
        | cons => rfl
      rw [this]
  · intro st ctx tok ts h hp
    funext buf
    simp only [lineOf, pRun_cons _ _ _ _ _ hp, openOf_cons _ hp]
    cases hst : pstep sc ctx st tok with
    | more st ctx => rfl
    | cmd c ctx =>
      simp only [lineAfter, lineOf]
      generalize pRun sc PState.new ctx ts = r
      obtain ⟨cs, _ | _ | _⟩ := r <;> simp
    | err e ctx => simp
    | panic ctx => simp

/-- The loop over the tokens of a line is a run of the automaton. -/
theorem lazyLine_eq (sc : ScopeFn A) (n : Nat) (st : PState A) (ctx : PCtx A) (buf : List (PCmd (PTerm A))) (ts : List Token)
    (h : ts.length < n) (ho : st.Open) (hc : CommentLast ts) :
    lazyLine sc n st ctx buf 0 ts = lineOf sc st ctx ts buf := by
  induction n generalizing st ctx ts buf with
  | zero => exact absurd h (Nat.not_lt_zero _)
  | succ n ih =>
    cases ts with
    | nil => simp [lazyLine, lineOf, pRun, openOf]
    | cons tok ts =>
      rw [lineOf_feed _ _ _ _ _ _ ho, lazyLine]
      have hs := feed_suffix sc st ctx tok ts
      have hop := fun st' ctx' ts' o => @feed_open A sc st st' ctx ctx' tok ts ts' o
      have hcm := fun st' ctx' ts' o => @feed_comment A sc st st' ctx ctx' tok ts ts' o ho hc
      revert hs hop hcm
      generalize st.feed sc ctx tok ts = r
      intro hs hop hcm
      obtain ⟨⟨st', o⟩ | e | _, ctx', ts'⟩ := r
      · have hl := hs.length_le
        simp only [List.length_cons] at h hl
        have hc' : CommentLast ts' := hc.tail.suffix hs
        have hcm := hcm _ _ _ _ rfl
        rcases Classical.em (∃ c, st'.cmd = .command c) with ⟨c, hc⟩ | hc
        · obtain rfl : o = 0 := hcm.resolve_right (fun h => h.2 c hc)
          simp only [lineAfter, hc]
          exact ih _ _ _ _ (by omega) PState.new_open hc'
        · have hop' := hop _ _ _ _ rfl (fun c h => hc ⟨c, h⟩)
          simp only [lineAfter_open _ _ _ _ _ _ hop'.1]
          split
          · next c hc' => exact absurd ⟨c, hc'⟩ hc
          · split
            · next hn =>
              subst hn
              cases n with
              | zero => omega
              | succ n => rfl
            · next hn =>
              obtain rfl : o = 0 := hcm.resolve_right (fun h => hn h.1)
              exact ih _ _ _ _ (by omega) hop' hc'
      · rfl
      · rfl

end Kontroli
