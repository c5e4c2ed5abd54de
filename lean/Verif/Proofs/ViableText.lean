import Verif.Proofs.ViableKind

/-! # The first error of a text -/

namespace Kontroli

theorem pRun_split {ts : List Token} {st : PState PSymb} {ctx ctx' : PCtx PSymb} {cs : List (PCmd (PTerm PSymb))} {e : ParseError}
    (h : pRun scopeSymb st ctx ts = (cs, .err e ctx')) : ∃ pre tok post cs' st1 ctx1, ts = pre ++ tok :: post ∧ tok.plain = true ∧
      pRun scopeSymb st ctx pre = (cs', .more st1 ctx1) ∧ pstep scopeSymb ctx1 st1 tok = .err e ctx' := by
  induction ts generalizing st ctx cs with
  | nil => cases h
  | cons t ts ih =>
    rcases hp : t.plain with _ | _
    · obtain ⟨o, rfl⟩ := Token.not_plain hp
      rw [pRun_comment] at h
      obtain ⟨pre, tok, post, cs', st1, ctx1, rfl, h1, h2, h3⟩ := ih h
      exact ⟨.comment o :: pre, tok, post, cs', st1, ctx1, rfl, h1, by rw [pRun_comment]; exact h2, h3⟩
    · rw [pRun_cons _ _ _ _ _ hp] at h
      cases hs : pstep scopeSymb ctx st t with
      | more st' ctx'' =>
        rw [hs] at h
        obtain ⟨pre, tok, post, cs', st1, ctx1, rfl, h1, h2, h3⟩ := ih h
        exact ⟨t :: pre, tok, post, cs', st1, ctx1, rfl, h1, by rw [pRun_cons _ _ _ _ _ hp, hs]; exact h2, h3⟩
      | cmd c ctx'' =>
        rw [hs] at h
        simp only [Prod.mk.injEq] at h
        obtain ⟨pre, tok, post, cs', st1, ctx1, rfl, h1, h2, h3⟩ := ih (Prod.ext rfl h.2)
        exact ⟨t :: pre, tok, post, c :: cs', st1, ctx1, rfl, h1, by rw [pRun_cons _ _ _ _ _ hp, hs]; simp only [h2], h3⟩
      | err e' ctx'' =>
        rw [hs] at h
        cases h
        exact ⟨[], t, ts, [], st, ctx, rfl, hp, rfl, hs⟩
      | panic ctx'' => rw [hs] at h; cases h

theorem follows_of {pre : List Token} (hp : pre.filter Token.plain = pre) {cs : List (PCmd (PTerm PSymb))} {st : PState PSymb} {ctx : PCtx PSymb}
    (hr : pRun scopeSymb PState.new PCtx.new pre = (cs, .more st ctx)) : Follows (fun us => Viable (pre ++ us)) st ctx where
  one t ht := by
    rw [← goes_one _ _ ht]
    exact viable_append hp hr (List.filter_cons_of_pos ht)
  two t u ht hu := by
    rw [← goes_two _ _ ht hu]
    exact viable_append hp hr (by rw [List.filter_cons_of_pos ht, List.filter_cons_of_pos hu, List.filter_nil])

/-- A run that ends in an error: the first error. -/
theorem pRun_err {ts : List Token} (hp : ts.filter Token.plain = ts) (e : ParseError) :
    (∃ cs ctx, pRun scopeSymb PState.new PCtx.new ts = (cs, .err e ctx)) ↔ FirstError ts e := by
  constructor
  · rintro ⟨cs, ctx, h⟩
    obtain ⟨pre, tok, post, cs', st1, ctx1, rfl, h1, h2, h3⟩ := pRun_split h
    have hpre : pre.filter Token.plain = pre := by
      rw [List.filter_eq_self] at hp ⊢
      exact fun a ha => hp a (List.mem_append_left _ ha)
    have hs := pRun_safe scopeSymb PState.new PCtx.new pre (PState.new_safe _)
    rw [h2] at hs
    have hF := follows_of hpre h2
    refine ⟨pre, tok, post, rfl, ?_, ?_, ?_⟩
    · exact (viable_iff hpre).2 (by simp [goes, h2])
    · rw [hF.one tok h1, h3]; simp [PRes.okay]
    · exact (pstep_kind hs hF h1 (by rw [h3]; rfl) e).1 (by rw [h3]; rfl)
  · rintro ⟨pre, tok, post, rfl, h1, h2, h3⟩
    have hp' := List.filter_eq_self.1 hp
    have hpre : pre.filter Token.plain = pre := List.filter_eq_self.2 fun a ha => hp' a (List.mem_append_left _ ha)
    have ht : tok.plain = true := hp' tok (by simp)
    have hs := pRun_safe scopeSymb PState.new PCtx.new pre (PState.new_safe _)
    have hg := viable_goes h1
    unfold goes at hg
    cases hr : pRun scopeSymb PState.new PCtx.new pre with
    | mk cs r =>
      rw [hr] at hg hs
      cases r with
      | err => cases hg
      | panic => cases hg
      | more st ctx =>
        have hF := follows_of hpre hr
        have hn : (pstep scopeSymb ctx st tok).okay = false := by
          cases h : (pstep scopeSymb ctx st tok).okay with
          | false => rfl
          | true => exact absurd ((hF.one tok ht).2 h) h2
        have := (pstep_kind hs hF ht hn e).2 h3
        rw [pRun_append, hr]
        simp only [PEnd.andThen]
        rw [pRun_cons _ _ _ _ _ ht]
        revert this
        cases pstep scopeSymb ctx st tok with
        | err e' ctx' => rintro rfl; exact ⟨_, _, rfl⟩
        | _ => exact False.elim

/-- the kind of the first error is determined -/
theorem firstError_unique {ts : List Token} (hp : ts.filter Token.plain = ts) {e e' : ParseError} (h : FirstError ts e) (h' : FirstError ts e') :
    e = e' := by
  obtain ⟨cs, ctx, h⟩ := (pRun_err hp e).2 h
  obtain ⟨cs', ctx', h'⟩ := (pRun_err hp e').2 h'
  rw [h] at h'
  cases h'
  rfl

theorem viable_or_error {ts : List Token} (hp : ts.filter Token.plain = ts) : Viable ts ↔ ¬ ∃ e, FirstError ts e := by
  rw [viable_iff hp]
  have hs := pRun_safe scopeSymb PState.new PCtx.new ts (PState.new_safe _)
  unfold goes
  cases hr : pRun scopeSymb PState.new PCtx.new ts with
  | mk cs r =>
    rw [hr] at hs
    cases r with
    | more st ctx =>
      refine ⟨fun _ => ?_, fun _ => rfl⟩
      rintro ⟨e, h⟩
      obtain ⟨cs', ctx', h⟩ := (pRun_err hp e).2 h
      rw [hr] at h
      cases h
    | err e ctx =>
      refine ⟨fun h => (by cases h), fun h => absurd ⟨e, (pRun_err hp e).1 ⟨_, _, hr⟩⟩ h⟩
    | panic ctx => exact hs.elim

/-! ## The lazy parser -/

theorem LexesOpen.plain {d n : Nat} {lines : List Str} {ts : List Token} (h : LexesOpen d lines ts n) : ts.filter Token.plain = ts := by
  induction h with
  | nil => rfl
  | cons h _ ih => rw [List.filter_append, ih, ((lexesFrom_iff _ _ _ _).1 h).1, List.filter_filter]; simp

theorem lazyRun_open {d n : Nat} {lines : List Str} {ts : List Token} (h : LexesOpen d lines ts n) (st : PState PSymb) (ctx : PCtx PSymb) :
    match pRun scopeSymb st ctx ts with
    | (cs, .more st' _) => lazyRun scopeSymb lines d st ctx = (cs, (lazyEnd n st').map some)
    | (_, .err e _) => ∃ cs, lazyRun scopeSymb lines d st ctx = (cs, some (some e))
    | (_, .panic _) => ∃ cs, lazyRun scopeSymb lines d st ctx = (cs, some none) := by
  induction h generalizing st ctx with
  | nil => rfl
  | @cons d e n l ls ts us h1 h2 ih =>
    obtain ⟨rfl, rfl⟩ := (lexesFrom_iff _ _ _ _).1 h1
    rw [pRun_append, pRun_filter, lazyRun]
    cases pRun scopeSymb st ctx (lexFrom d l) with
    | mk cs r =>
      cases r with
      | err e ctx' => exact ⟨_, rfl⟩
      | panic ctx' => exact ⟨_, rfl⟩
      | more st' ctx' =>
        have := ih st' ctx'
        revert this
        simp only [PEnd.andThen]
        cases pRun scopeSymb st' ctx' us with
        | mk cs' r' =>
          cases r' with
          | more st2 ctx2 => intro h; simp only at h ⊢; rw [h]
          | err e ctx2 => rintro ⟨ds, h⟩; exact ⟨_, by rw [h]⟩
          | panic ctx2 => rintro ⟨ds, h⟩; exact ⟨_, by rw [h]⟩

theorem first_err {α : Type} {L rest : List (POut ParseError α)} {cs cs' : List α} {e : ParseError} {x : POut ParseError α} {k : Nat}
    (hx : ∀ c, x ≠ .ok c) (h : L = cs.map .ok ++ .err e :: rest) (h' : L.take (cs'.length + 1) = (cs'.map POut.ok ++ [x]).take k) : x = .err e := by
  subst h
  induction cs' generalizing cs k with
  | nil =>
    cases k with
    | zero => cases cs <;> cases h'
    | succ k =>
      cases cs with
      | nil => simp at h'; exact h'.symm
      | cons c cs =>
        simp only [List.map_cons, List.cons_append, List.length_nil, List.take_succ_cons, List.map_nil, List.nil_append, List.cons.injEq] at h'
        exact absurd h'.1.symm (hx c)
  | cons c' cs' ih =>
    cases k with
    | zero => cases cs <;> cases h'
    | succ k =>
      cases cs with
      | nil => cases h'
      | cons c cs =>
        simp only [List.map_cons, List.cons_append, List.length_cons, List.take_succ_cons, List.cons.injEq] at h'
        exact ih h'.2

theorem ok_err_inj {α : Type} {cs cs' : List α} {e e' : ParseError} {rest rest' : List (POut ParseError α)}
    (h : cs.map .ok ++ .err e :: rest = cs'.map .ok ++ .err e' :: rest') : cs = cs' ∧ e = e' := by
  induction cs generalizing cs' with
  | nil => cases cs' <;> cases h; exact ⟨rfl, rfl⟩
  | cons c cs ih =>
    cases cs' with
    | nil => cases h
    | cons c' cs' =>
      simp only [List.map_cons, List.cons_append, List.cons.injEq, POut.ok.injEq] at h
      obtain ⟨h1, h2⟩ := ih h.2
      exact ⟨by rw [h.1, h1], h2⟩

/-- the commands before the first error are those of the longest text at the beginning -/
theorem pRun_before {ts : List Token} (hp : ts.filter Token.plain = ts) {cs : List (PCmd (PTerm PSymb))} {r : PEnd PSymb}
    (h : pRun scopeSymb PState.new PCtx.new ts = (cs, r)) :
    (∃ ts1 ts2, ts = ts1 ++ ts2 ∧ GText ts1 cs) ∧ ∀ ts1 ts2 cs1, ts = ts1 ++ ts2 → GText ts1 cs1 → cs1 <+: cs := by
  have hs := pRun_safe scopeSymb PState.new PCtx.new ts (PState.new_safe _)
  constructor
  · cases r with
    | panic ctx => rw [h] at hs; exact hs.elim
    | more st ctx =>
      obtain ⟨as, bs, h1, h2, _⟩ := pRun_sound ts [] .start h
      rw [hp] at h1
      exact ⟨as, bs, h1, h2⟩
    | err e ctx =>
      obtain ⟨pre, tok, post, cs', st1, ctx1, rfl, h1, h2, h3⟩ := pRun_split h
      have hpre : pre.filter Token.plain = pre := by
        rw [List.filter_eq_self] at hp ⊢
        exact fun a ha => hp a (List.mem_append_left _ ha)
      obtain ⟨as, bs, h4, h5, _⟩ := pRun_sound pre [] .start h2
      rw [hpre] at h4
      simp only [List.nil_append] at h4
      rw [pRun_append, h2, PEnd.andThen, pRun_cons _ _ _ _ _ h1, h3] at h
      cases h
      exact ⟨as, bs ++ tok :: post, by rw [h4, List.append_assoc], by simpa using h5⟩
  · rintro ts1 ts2 cs1 rfl hg
    rw [pRun_append, text_run hg, PEnd.andThen] at h
    cases h
    exact List.prefix_append _ _

end Kontroli
