import Verif.Proofs.ParseClean

/-! # What the lazy parser delivers around the first error -/

namespace Kontroli

variable {A : Type}

theorem lexFrom_unlines_append (opened : Nat) (lines : List Str) (hm : ∀ l ∈ lines, MoustacheClosed l) (u : Str) :
    lexFrom opened (unlines lines ++ u) =
      (lexFrom opened (unlines lines)).filter Token.plain ++ lexFrom (openOf (lexFrom opened (unlines lines))) u := by
  induction lines generalizing opened with
  | nil => cases opened <;> rfl
  | cons line lines ih =>
    have h1 : unlines (line :: lines) ++ u = line ++ '\n' :: (unlines lines ++ u) := by simp [unlines]
    rw [h1, lexFrom_append (hm line (.head _)) (u := '\n' :: (unlines lines ++ u)) (by rfl), lexFrom_space rfl,
      ih _ (fun l hl => hm l (.tail _ hl)), lexFrom_unlines _ _ _ (hm line (.head _)),
      openOf_append _ _ (fun t ht => (List.mem_filter.1 ht).2)]
    simp [List.filter_append]

theorem plain_of_open {text : Str} (h : openOf (lex text) = 0) : (lex text).filter Token.plain = lex text := by
  rw [List.filter_eq_self]
  intro t ht
  cases hp : t.plain with
  | true => rfl
  | false =>
    obtain ⟨o, rfl⟩ := Token.not_plain hp
    exact absurd ht (openOf_zero (lex_commentLast text) (fun o ho => lex_comment_pos ho) h o)

/-- the lines before the error yield their commands, the line of the error yields the error and then its commands backwards -/
theorem items_error_line (sc : ScopeFn A) (pre : List Str) (line : Str) (post : List Str) (opened : Nat) (st : PState A) (ctx : PCtx A)
    (ho : st.Open) (hm : ∀ l ∈ pre, MoustacheClosed l) {cs ds : List (PCmd (PTerm A))} {st1 : PState A} {ctx1 ctx2 : PCtx A}
    {e : ParseError} (h1 : pRun sc st ctx (lexFrom opened (unlines pre)) = (cs, .more st1 ctx1))
    (h2 : pRun sc st1 ctx1 (lexFrom (openOf (lexFrom opened (unlines pre))) line) = (ds, .err e ctx2)) (n : Nat) :
    LazyP.items sc (cs.length + (n + 1 + ds.length)) ⟨pre ++ line :: post, opened, st, ctx, []⟩ =
      cs.map .ok ++ .err e :: ds.reverse.map .ok ++ LazyP.items sc n ⟨post, 0, PState.new, ctx2, []⟩ := by
  induction pre generalizing opened st ctx cs with
  | nil =>
    have h0 : pRun sc st ctx (lexFrom opened (unlines [])) = ([], .more st ctx) := by cases opened <;> rfl
    have h3 : openOf (lexFrom opened (unlines [])) = opened := by cases opened <;> rfl
    rw [h0] at h1
    simp only [Prod.mk.injEq, PEnd.more.injEq] at h1
    obtain ⟨rfl, rfl, rfl⟩ := h1
    rw [h3] at h2
    have hn : LazyP.next sc ⟨[] ++ line :: post, opened, st, ctx, []⟩ = lazyLines sc (line :: post) opened st ctx [] := rfl
    rw [show ([] : List (PCmd (PTerm A))).length + (n + 1 + ds.length) = n + ds.length + 1 by simp; omega, LazyP.items, hn,
      lazyLines_cons' _ _ _ _ _ _ ho, h2]
    simp only
    have := items_buf sc ds.reverse (n + ds.length) post 0 PState.new ctx2
    rw [List.reverse_reverse] at this
    rw [this, List.take_of_length_le (by simp)]
    simp
  | cons l pre ih =>
    rw [lexFrom_unlines _ _ _ (hm l (.head _)), pRun_append, pRun_filter] at h1
    rw [lexFrom_unlines _ _ _ (hm l (.head _)), openOf_append _ _ (fun t ht => (List.mem_filter.1 ht).2)] at h2
    have hn : LazyP.next sc ⟨l :: pre ++ line :: post, opened, st, ctx, []⟩ = lazyLines sc (l :: (pre ++ line :: post)) opened st ctx [] := rfl
    cases hp : pRun sc st ctx (lexFrom opened l) with
    | mk es r =>
      rw [hp] at h1
      cases r with
      | err e' ctx' => cases h1
      | panic ctx' => cases h1
      | more st' ctx' =>
        simp only [PEnd.andThen, Prod.mk.injEq] at h1
        obtain ⟨rfl, h1⟩ := h1
        have ih' := ih (openOf (lexFrom opened l)) st' ctx' (pRun_open sc st ctx _ ho hp) (fun x hx => hm x (.tail _ hx))
          (Prod.ext rfl h1) h2
        have step : ∀ m, LazyP.items sc (m + 1) ⟨l :: pre ++ line :: post, opened, st, ctx, []⟩ =
            match es with
            | [] => LazyP.items sc (m + 1) ⟨pre ++ line :: post, openOf (lexFrom opened l), st', ctx', []⟩
            | c :: cs => .ok c :: LazyP.items sc m ⟨pre ++ line :: post, openOf (lexFrom opened l), st', ctx', cs.reverse⟩ := by
          intro m
          have h4 := lazyLines_cons' sc l (pre ++ line :: post) opened st ctx ho
          rw [hp] at h4
          rw [LazyP.items, hn, h4]
          cases es with
          | nil => rfl
          | cons c es => rfl
        cases es with
        | nil =>
          rw [List.nil_append, ← ih', show ∀ k, k + (n + 1 + ds.length) = (k + n + ds.length) + 1 by intro k; omega, step]
        | cons c es =>
          rw [show ((c :: es) ++ (pRun sc st' ctx' (lexFrom (openOf (lexFrom opened l)) (unlines pre))).1).length + (n + 1 + ds.length) =
            (es.length + ((pRun sc st' ctx' (lexFrom (openOf (lexFrom opened l)) (unlines pre))).1.length + (n + 1 + ds.length))) + 1 by
              simp; omega, step]
          simp only [items_buf, Nat.add_sub_cancel_left, ih']
          rw [List.take_of_length_le (by simp)]
          simp

theorem pstep_expectedInput (sc : ScopeFn A) (ctx ctx' : PCtx A) (st : PState A) (tok : Token) : pstep sc ctx st tok ≠ .err .expectedInput ctx' := by
  have h1 : ∀ ctx r, cmdRes (A := A) ctx r ≠ .err .expectedInput ctx' := by
    rintro ctx ⟨r, b⟩ h
    cases r with
    | ok s => cases s <;> cases h
    | err e => cases h
    | panic => cases h
  unfold pstep
  split
  · cases tstep sc ctx tok st.trm with
    | more trm ctx => intro h; cases h
    | done t ctx => exact h1 _ _
    | err e ctx => intro h; cases h
  · split
    · exact h1 _ _
    · intro h; cases h

theorem pRun_expectedInput (sc : ScopeFn A) (st : PState A) (ctx : PCtx A) (ts : List Token) {cs : List (PCmd (PTerm A))} {e : ParseError}
    {ctx' : PCtx A} (h : pRun sc st ctx ts = (cs, .err e ctx')) : e ≠ .expectedInput := by
  induction ts generalizing st ctx cs with
  | nil => cases h
  | cons tok ts ih =>
    rcases hp : tok.plain with _ | _
    · obtain ⟨o, rfl⟩ := Token.not_plain hp
      rw [pRun_comment] at h
      exact ih _ _ h
    · rw [pRun_cons _ _ _ _ _ hp] at h
      cases hs : pstep sc ctx st tok with
      | more st1 ctx1 => rw [hs] at h; exact ih _ _ h
      | cmd c ctx1 =>
        rw [hs] at h
        simp only [Prod.mk.injEq] at h
        exact ih PState.new ctx1 (Prod.ext rfl h.2)
      | err e' ctx1 =>
        rw [hs] at h
        cases h
        rintro rfl
        exact pstep_expectedInput _ _ _ _ _ hs
      | panic ctx1 => rw [hs] at h; cases h

theorem lazyEnd_none {opened : Nat} {st : PState A} (h : lazyEnd opened st = none) : st.cmd = .init ∧ opened = 0 := by
  unfold lazyEnd at h
  cases hst : st.cmd with
  | init =>
    rw [hst] at h
    by_cases h0 : opened > 0
    · simp [h0] at h
    · exact ⟨rfl, by omega⟩
  | _ => rw [hst] at h; simp at h

theorem PState.eq_new {st : PState A} (ho : st.Open) (h : st.cmd = .init) : st = PState.new := by
  have := ho.2 (by rw [h]; rfl)
  obtain ⟨cmd, trm⟩ := st
  simp only at h this
  subst h; subst this
  rfl

theorem PCtx.eq_new {ctx : PCtx A} (hc : (PState.new : PState A).Clean ctx) : ctx = PCtx.new := by
  obtain ⟨bound, stack⟩ := ctx
  have h1 : bound = [] := hc.1
  have h2 : stack = [] := hc.2 ⟨rfl, rfl⟩
  rw [h1, h2]; rfl

/-- only at rest and in a pragma, the parser goes on at a `#` -/
theorem pstep_hash {sc : ScopeFn A} {ctx : PCtx A} {st : PState A} (ho : st.Open) (h1 : st.cmd ≠ .init) (h2 : st.cmd ≠ .pragma) :
    ∃ e ctx', pstep sc ctx st .hash = .err e ctx' := by
  obtain ⟨cmd, trm⟩ := st
  unfold pstep
  split
  · next he =>
    have ht : (∃ t ctx', tstep sc ctx .hash trm = .done t ctx') ∨ ∃ e ctx', tstep sc ctx .hash trm = .err e ctx' := by
      have ha : ∀ x app, (∃ t ctx', atermStep sc x app ctx .hash = .done t ctx') ∨ ∃ e ctx', atermStep sc x app ctx .hash = .err e ctx' := by
        intro x app
        cases x with
        | none =>
          have hc : (∃ t ctx', closeStep app ctx .hash = .done t ctx') ∨ ∃ e ctx', closeStep app ctx .hash = .err (A := A) e ctx' := by
            unfold closeStep
            split
            · exact .inr ⟨_, _, rfl⟩
            · exact .inl ⟨_, _, rfl⟩
          exact hc
        | some x => exact .inr ⟨_, _, rfl⟩
      cases trm with
      | init => exact .inr ⟨_, _, rfl⟩
      | symb s => exact ha none (scopeGo sc (PSymb.new s) ctx)
      | varof v => exact .inr ⟨_, _, rfl⟩
      | aterm x app => exact ha _ _
    rcases ht with ⟨t, ctx', ht⟩ | ⟨e, ctx', ht⟩
    · simp only [ht]
      simp only at he
      rcases cmd with _ | _ | ⟨_ | _ | _ | _, _, _, _ | _ | _⟩ | ⟨_, _, _, _ | ⟨_, _ | _⟩⟩ | ⟨_ | _ | _ | _, _, _, _⟩ | ⟨_, _ | ⟨_, _ | _⟩⟩ | _ | _ | _ | _ <;>
        first
        | exact ⟨_, _, rfl⟩
        | cases he
    · simp only [ht]
      exact ⟨_, _, rfl⟩
  · next he =>
    have := ho.2 (by simpa using he)
    simp only at this
    subst this
    simp only
    rcases cmd with _ | _ | ⟨_ | _ | _ | _, _, _, _ | _ | _⟩ | ⟨_, _, _, _ | ⟨_, _ | _⟩⟩ | ⟨_ | _ | _ | _, _, _, _⟩ | ⟨_, _ | ⟨_, _ | _⟩⟩ | _ | _ | _ | _ <;>
        first
        | exact ⟨_, _, rfl⟩
        | exact absurd rfl h1
        | exact absurd rfl h2

end Kontroli
