import Verif.Proofs.Lex

/-! # Invariants of the parser -/

namespace Kontroli

variable {A : Type}

/-- the context after a step -/
def TRes.ctx : TRes A → PCtx A
  | .more _ ctx => ctx
  | .done _ ctx => ctx
  | .err _ ctx => ctx

theorem closeStep_bound (app : PTerm A) (ctx : PCtx A) (tok : Token) : (closeStep app ctx tok).ctx.bound = ctx.bound := by
  unfold closeStep
  generalize reduceStack ctx.stack app = r
  obtain ⟨_ | l, tm, st⟩ := r
  · rfl
  · by_cases h : tok = .rpar <;> simp [h, TRes.ctx]

theorem atermStep_bound (sc : ScopeFn A) (x : Option Str) (app : PTerm A) (ctx : PCtx A) (tok : Token) :
    (atermStep sc x app ctx tok).ctx.bound = ctx.bound := by
  cases tok <;> cases x <;> first | rfl | exact closeStep_bound _ _ _

/-- parsing a term does not touch the variables bound outside of it -/
theorem tstep_bound (sc : ScopeFn A) (ctx : PCtx A) (tok : Token) (st : TState A) : (tstep sc ctx tok st).ctx.bound = ctx.bound := by
  cases st with
  | init => cases tok <;> rfl
  | symb s => simp only [tstep]; split <;> first | rfl | exact atermStep_bound _ _ _ _ _
  | varof v => cases tok <;> rfl
  | aterm x app => exact atermStep_bound _ _ _ _ _

theorem reduceStack_none {st st' : List (Cont A)} {t t' : PTerm A} (h : reduceStack st t = (none, t', st')) : st' = [] := by
  induction st generalizing t with
  | nil => simp only [reduceStack, Prod.mk.injEq] at h; exact h.2.2.symm
  | cons c st ih => cases c <;> simp only [reduceStack] at h <;> first | exact ih h | simp at h

/-- when a term is finished, no construct is open -/
theorem tstep_done {sc : ScopeFn A} {ctx ctx' : PCtx A} {tok : Token} {st : TState A} {t : PTerm A}
    (h : tstep sc ctx tok st = .done t ctx') : ctx'.stack = [] := by
  have h1 : ∀ app, closeStep app ctx tok = .done t ctx' → ctx'.stack = [] := by
    intro app h
    unfold closeStep at h
    cases hr : reduceStack ctx.stack app with
    | mk l r =>
      rw [hr] at h
      cases l with
      | none => cases h; exact reduceStack_none hr
      | some l => simp only at h; split at h <;> cases h
  have h2 : ∀ x app, atermStep sc x app ctx tok = .done t ctx' → ctx'.stack = [] := by
    intro x app h
    cases tok <;> cases x <;> first | (cases h; done) | exact h1 _ h
  cases st with
  | init => cases tok <;> cases h
  | symb s => simp only [tstep] at h; split at h <;> first | (cases h; done) | exact h2 _ _ h
  | varof v => cases tok <;> cases h
  | aterm x app => exact h2 _ _ h

/-! ## Absence of panics -/

/-- what the command parser relies on -/
def CState.Safe {Tm : Type} (bound : List Str) : CState Tm → Prop
  | .args p _ _ (some .eq) => p = some .def_
  | .ofEq p _ _ _ => p = some .def_ ∨ p = some .thm
  | .ruleL _ => bound ≠ []
  | _ => True

/-- an answer of the command parser that is not a panic, and a state that will not panic -/
def CSafe {Tm : Type} : POut CmdError (CState Tm) × List Str → Prop
  | (.ok st, bound) => st.Safe bound
  | (.err _, _) => True
  | (.panic, _) => False

theorem parse_safe {Tm : Type} (st : CState Tm) (bound : List Str) (tok : Token) : CSafe (st.parse bound tok) := by
  have hsymb : ∀ (s : PSymb) (st : CState Tm), CSafe (if s.path.isEmpty then (st.applyName s.name, bound) else (.err .unexpectedPath, bound)) := by
    intro s st
    split
    · rcases st with _ | _ | ⟨_, _, _, _ | _⟩ | ⟨_, _, _, _ | _⟩ | _ | ⟨_, _ | _⟩ | _ | _ | _ | _ <;> trivial
    · trivial
  rcases st with _ | _ | ⟨_ | _ | _ | _, _, _, _ | _⟩ | ⟨_, _, _, _ | ⟨_, _ | _⟩⟩ | _ | ⟨_, _ | ⟨_, _ | _⟩⟩ | _ | _ | _ | _ <;> cases tok <;>
    first
    | trivial
    | exact hsymb _ _
    | exact List.cons_ne_nil _ _
    | rfl

theorem apply_safe {Tm : Type} (st : CState Tm) (bound : List Str) (tm : Tm) (tok : Token) (h : st.Safe bound) :
    CSafe (st.apply bound tm tok) := by
  rcases st with _ | _ | ⟨_ | _ | _ | _, _, _, _ | _ | _⟩ | ⟨_, _, _, _ | ⟨_, _ | _⟩⟩ | ⟨_ | _ | _ | _, _, _, _⟩ | ⟨_, _ | ⟨_, _ | _⟩⟩ | _ | _ | _ | _ <;> cases tok <;>
    first
    | trivial
    | exact List.cons_ne_nil _ _
    | exact .inl rfl
    | exact .inr rfl
    | (simp [CState.Safe] at h; done)
    | skip
  all_goals
    cases bound with
    | nil => exact absurd rfl h
    | cons => trivial

/-- a state of the parser that will not panic -/
def PState.Safe (st : PState A) (ctx : PCtx A) : Prop := st.Open ∧ st.cmd.Safe ctx.bound

theorem PState.new_safe (ctx : PCtx A) : (PState.new : PState A).Safe ctx := ⟨PState.new_open, trivial⟩

theorem cmdRes_safe {ctx : PCtx A} {r : POut CmdError (CState (PTerm A)) × List Str} (h : CSafe r) : match cmdRes ctx r with
    | .more st ctx => st.Safe ctx
    | .panic _ => False
    | _ => True := by
  cases hr : cmdRes ctx r with
  | more st ctx' =>
    refine ⟨cmdRes_open hr, ?_⟩
    obtain ⟨c | e | _, bound⟩ := r
    · cases c <;> simp only [cmdRes, PRes.more.injEq, reduceCtorEq] at hr <;> obtain ⟨rfl, rfl⟩ := hr <;> exact h
    · simp [cmdRes] at hr
    · simp [cmdRes] at hr
  | panic ctx' =>
    obtain ⟨c | e | _, bound⟩ := r
    · cases c <;> simp [cmdRes] at hr
    · simp [cmdRes] at hr
    · exact h
  | _ => trivial

/-- A step from a safe state does not panic, and leads to a safe state. -/
theorem pstep_safe (sc : ScopeFn A) {ctx : PCtx A} {st : PState A} (tok : Token) (h : st.Safe ctx) : match pstep sc ctx st tok with
    | .more st ctx => st.Safe ctx
    | .panic _ => False
    | _ => True := by
  unfold pstep
  have hb := tstep_bound sc ctx tok st.trm
  rcases he : st.cmd.expectsTerm with _ | _
  · rw [h.1.2 he]
    exact cmdRes_safe (parse_safe _ _ _)
  · simp only [if_true]
    cases ht : tstep sc ctx tok st.trm with
    | more trm ctx' =>
      rw [ht] at hb
      exact ⟨expectsTerm_open he _, by rw [show ctx'.bound = ctx.bound from hb]; exact h.2⟩
    | done t ctx' =>
      rw [ht] at hb
      exact cmdRes_safe (apply_safe _ _ _ _ (by rw [show ctx'.bound = ctx.bound from hb]; exact h.2))
    | err e ctx' => trivial

theorem pItems_safe (sc : ScopeFn A) (seen : Bool) (st : PState A) (ctx : PCtx A) (ts : List Token) (h : st.Safe ctx) :
    .panic ∉ pItems sc seen st ctx ts := by
  induction ts generalizing seen st ctx with
  | nil => cases seen <;> simp [pItems]
  | cons tok ts ih =>
    rcases hp : tok.plain with _ | _
    · obtain ⟨o, rfl⟩ := Token.not_plain hp
      rw [pItems]
      split
      · simp [ih _ _ _ (PState.new_safe ctx)]
      · exact ih _ _ _ h
    · rw [pItems_cons _ _ _ _ _ _ hp]
      have := pstep_safe sc tok h
      cases hr : pstep sc ctx st tok with
      | more st' ctx' => rw [hr] at this; exact ih _ _ _ this
      | panic => rw [hr] at this; exact this.elim
      | cmd c ctx' => simp [ih _ _ _ (PState.new_safe ctx')]
      | err e ctx' => simp [ih _ _ _ (PState.new_safe ctx')]

/-- how a run ends from a safe state -/
theorem pRun_safe (sc : ScopeFn A) (st : PState A) (ctx : PCtx A) (ts : List Token) (h : st.Safe ctx) : match (pRun sc st ctx ts).2 with
    | .more st ctx => st.Safe ctx
    | .err _ _ => True
    | .panic _ => False := by
  induction ts generalizing st ctx with
  | nil => exact h
  | cons tok ts ih =>
    rcases hp : tok.plain with _ | _
    · obtain ⟨o, rfl⟩ := Token.not_plain hp
      exact ih _ _ h
    · rw [pRun_cons _ _ _ _ _ hp]
      have := pstep_safe sc tok h
      cases hr : pstep sc ctx st tok with
      | more st' ctx' => rw [hr] at this; exact ih _ _ this
      | panic => rw [hr] at this; exact this.elim
      | cmd c ctx' => exact ih _ _ (PState.new_safe ctx')
      | err e ctx' => trivial

/-- One call to the lazy parser, in terms of runs of the automaton. -/
theorem lazyLines_cons (sc : ScopeFn A) (line : Str) (lines : List Str) (opened : Nat) (st : PState A) (ctx : PCtx A)
    (buf : List (PCmd (PTerm A))) (ho : st.Open) :
    lazyLines sc (line :: lines) opened st ctx buf = match comment opened line with
      | (o + 1, _) => lazyLines sc lines (o + 1) st ctx buf
      | (0, rest) => match pRun sc st ctx (lex rest) with
        | (cs, .err e ctx) => (some (.err e), ⟨lines, 0, PState.new, ctx, buf ++ cs⟩)
        | (cs, .panic ctx) => (some .panic, ⟨lines, 0, PState.new, ctx, buf ++ cs⟩)
        | (cs, .more st ctx) => match buf ++ cs with
          | [] => lazyLines sc lines (openOf (lex rest)) st ctx []
          | c :: cs => (some (.ok c), ⟨lines, openOf (lex rest), st, ctx, cs.reverse⟩) := by
  rw [lazyLines]
  generalize comment opened line = r
  obtain ⟨_ | o, rest⟩ := r
  · simp only [lazyLine_eq _ _ _ _ _ _ (Nat.lt_succ_self _) ho (lex_commentLast rest), lineOf]
    generalize pRun sc st ctx (lex rest) = r
    obtain ⟨cs, _ | _ | _⟩ := r
    · rfl
    · rfl
    · rfl
  · rfl

theorem lazyLines_safe (sc : ScopeFn A) (lines : List Str) (opened : Nat) (st : PState A) (ctx : PCtx A)
    (buf : List (PCmd (PTerm A))) (h : st.Safe ctx) :
    (lazyLines sc lines opened st ctx buf).1 ≠ some .panic ∧
      (lazyLines sc lines opened st ctx buf).2.state.Safe (lazyLines sc lines opened st ctx buf).2.ctx := by
  induction lines generalizing opened st ctx buf with
  | nil =>
    refine ⟨?_, h⟩
    simp only [lazyLines]
    split
    · split <;> simp
    · simp
  | cons line lines ih =>
    rw [lazyLines_cons _ _ _ _ _ _ _ h.1]
    generalize comment opened line = r
    obtain ⟨_ | o, rest⟩ := r
    · have := pRun_safe sc st ctx (lex rest) h
      revert this
      simp only
      generalize pRun sc st ctx (lex rest) = r
      obtain ⟨cs, _ | _ | _⟩ := r
      · intro this
        simp only at this ⊢
        cases buf ++ cs with
        | nil => exact ih _ _ _ _ this
        | cons c cs => exact ⟨by simp, this⟩
      · intro this
        exact ⟨by simp, PState.new_safe _⟩
      · exact False.elim
    · exact ih _ _ _ _ h

theorem items_safe (sc : ScopeFn A) (n : Nat) (p : LazyP A) (h : p.state.Safe p.ctx) : .panic ∉ p.items sc n := by
  induction n generalizing p with
  | zero => simp [LazyP.items]
  | succ n ih =>
    rw [LazyP.items]
    have : (p.next sc).1 ≠ some .panic ∧ (p.next sc).2.state.Safe (p.next sc).2.ctx := by
      unfold LazyP.next
      split
      · exact ⟨by simp, h⟩
      · exact lazyLines_safe _ _ _ _ _ _ h
    revert this
    generalize p.next sc = r
    obtain ⟨_ | i, p'⟩ := r
    · simp
    · rintro ⟨h1, h2⟩
      simp only [List.mem_cons, not_or]
      exact ⟨fun h => h1 (by rw [h]), ih _ h2⟩

end Kontroli
