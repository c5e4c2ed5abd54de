import Verif.Proofs.ParseInv
import Verif.Proofs.Comment

/-! # Parsing line by line and as a whole -/

namespace Kontroli

variable {A : Type}

/-- continue a run -/
def PEnd.andThen (sc : ScopeFn A) (r : List (PCmd (PTerm A)) × PEnd A) (ts : List Token) : List (PCmd (PTerm A)) × PEnd A :=
  match r with
  | (cs, .more st ctx) => (cs ++ (pRun sc st ctx ts).1, (pRun sc st ctx ts).2)
  | r => r

theorem pRun_comment (sc : ScopeFn A) (st : PState A) (ctx : PCtx A) (o : Nat) (ts : List Token) :
    pRun sc st ctx (.comment o :: ts) = pRun sc st ctx ts := by rw [pRun]

theorem pRun_append (sc : ScopeFn A) (st : PState A) (ctx : PCtx A) (ts us : List Token) :
    pRun sc st ctx (ts ++ us) = PEnd.andThen sc (pRun sc st ctx ts) us := by
  induction ts generalizing st ctx with
  | nil => rfl
  | cons tok ts ih =>
    rcases hp : tok.plain with _ | _
    · obtain ⟨o, rfl⟩ := Token.not_plain hp
      rw [List.cons_append, pRun_comment, pRun_comment, ih]
    · rw [List.cons_append, pRun_cons _ _ _ _ _ hp, pRun_cons _ _ _ _ _ hp]
      cases hs : pstep sc ctx st tok with
      | more st ctx => simp only [ih]
      | cmd c ctx =>
        simp only [ih]
        generalize pRun sc PState.new ctx ts = r
        obtain ⟨cs, _ | _ | _⟩ := r <;> rfl
      | err e ctx => rfl
      | panic ctx => rfl

theorem pRun_filter (sc : ScopeFn A) (st : PState A) (ctx : PCtx A) (ts : List Token) :
    pRun sc st ctx (ts.filter Token.plain) = pRun sc st ctx ts := by
  induction ts generalizing st ctx with
  | nil => rfl
  | cons tok ts ih =>
    rcases hp : tok.plain with _ | _
    · obtain ⟨o, rfl⟩ := Token.not_plain hp
      rw [pRun_comment, List.filter_cons_of_neg (by simp [Token.plain]), ih]
    · rw [List.filter_cons_of_pos hp, pRun_cons _ _ _ _ _ hp, pRun_cons _ _ _ _ _ hp]
      simp only [ih]

theorem pRun_open (sc : ScopeFn A) (st : PState A) (ctx : PCtx A) (ts : List Token) (h : st.Open) {cs : List (PCmd (PTerm A))}
    {st' : PState A} {ctx' : PCtx A} (hr : pRun sc st ctx ts = (cs, .more st' ctx')) : st'.Open := by
  induction ts generalizing st ctx cs with
  | nil => cases hr; exact h
  | cons tok ts ih =>
    rcases hp : tok.plain with _ | _
    · obtain ⟨o, rfl⟩ := Token.not_plain hp
      rw [pRun_comment] at hr
      exact ih _ _ h hr
    · rw [pRun_cons _ _ _ _ _ hp] at hr
      cases hs : pstep sc ctx st tok with
      | more st1 ctx1 =>
        rw [hs] at hr
        exact ih _ _ (pstep_open hs) hr
      | cmd c ctx1 =>
        rw [hs] at hr
        simp only [Prod.mk.injEq] at hr
        exact ih PState.new ctx1 PState.new_open (Prod.ext rfl hr.2)
      | err e ctx1 => rw [hs] at hr; cases hr
      | panic ctx1 => rw [hs] at hr; cases hr

/-! ## The stream of the lazy parser -/

/-- the error at the end of the lines, if any -/
def lazyEnd (opened : Nat) (st : PState A) : Option ParseError :=
  match st.cmd with
  | .init => if opened > 0 then some .expectedInput else none
  | _ => some .expectedInput

/-- the commands that the lazy parser delivers before the first error, and the error, if any -/
def lazyRun (sc : ScopeFn A) : List Str → Nat → PState A → PCtx A → List (PCmd (PTerm A)) × Option (Option ParseError)
  | [], opened, st, _ => ([], (lazyEnd opened st).map some)
  | line :: lines, opened, st, ctx =>
    match pRun sc st ctx (lexFrom opened line) with
    | (_, .err e _) => ([], some (some e))
    | (_, .panic _) => ([], some none)
    | (cs, .more st ctx) =>
      (cs ++ (lazyRun sc lines (openOf (lexFrom opened line)) st ctx).1, (lazyRun sc lines (openOf (lexFrom opened line)) st ctx).2)

/-- an error or a panic -/
def failOut : Option ParseError → POut ParseError (PCmd (PTerm A))
  | some e => .err e
  | none => .panic

theorem lazyLines_cons' (sc : ScopeFn A) (line : Str) (lines : List Str) (opened : Nat) (st : PState A) (ctx : PCtx A) (ho : st.Open) :
    lazyLines sc (line :: lines) opened st ctx [] = match pRun sc st ctx (lexFrom opened line) with
        | (cs, .err e ctx) => (some (.err e), ⟨lines, 0, PState.new, ctx, cs⟩)
        | (cs, .panic ctx) => (some .panic, ⟨lines, 0, PState.new, ctx, cs⟩)
        | (cs, .more st ctx) => match cs with
          | [] => lazyLines sc lines (openOf (lexFrom opened line)) st ctx []
          | c :: cs => (some (.ok c), ⟨lines, openOf (lexFrom opened line), st, ctx, cs.reverse⟩) := by
  rw [lazyLines_cons _ _ _ _ _ _ _ ho]
  unfold lexFrom
  cases comment opened line with
  | mk m r =>
    cases m with
    | zero => rfl
    | succ m => rfl

/-- what the lazy parser delivers from some point on: the commands in the buffer, and what the lines to come yield -/
theorem items_buf (sc : ScopeFn A) (cs : List (PCmd (PTerm A))) (n : Nat) (lines : List Str) (opened : Nat) (st : PState A)
    (ctx : PCtx A) : LazyP.items sc n ⟨lines, opened, st, ctx, cs.reverse⟩ =
      ((cs.map .ok).take n) ++ LazyP.items sc (n - cs.length) ⟨lines, opened, st, ctx, []⟩ := by
  induction cs generalizing n with
  | nil => simp
  | cons c cs ih =>
    cases n with
    | zero => simp [LazyP.items]
    | succ n =>
      rw [LazyP.items]
      simp only [LazyP.next, List.reverse_cons, List.getLast?_concat, List.dropLast_concat, ih]
      simp [Nat.add_sub_add_right]

theorem items_run (sc : ScopeFn A) (lines : List Str) (n opened : Nat) (st : PState A) (ctx : PCtx A) (ho : st.Open) :
    match lazyRun sc lines opened st ctx with
    | (cs, none) => LazyP.items sc n ⟨lines, opened, st, ctx, []⟩ = (cs.map POut.ok).take n
    | (cs, some e) => (LazyP.items sc n ⟨lines, opened, st, ctx, []⟩).take (cs.length + 1) = (cs.map POut.ok ++ [failOut e]).take n := by
  cases n with
  | zero => cases lazyRun sc lines opened st ctx with | mk cs e => cases e <;> simp [LazyP.items]
  | succ n =>
  induction lines generalizing n opened st ctx with
  | nil =>
    rw [LazyP.items]
    simp only [LazyP.next, List.getLast?_nil, lazyLines, lazyRun, lazyEnd]
    cases st.cmd with
    | init =>
      by_cases h : opened > 0
      · simp [h, failOut]
      · simp [h]
    | _ => simp [failOut]
  | cons line lines ih =>
    have hn : LazyP.next sc ⟨line :: lines, opened, st, ctx, []⟩ = lazyLines sc (line :: lines) opened st ctx [] := rfl
    rw [LazyP.items, hn, lazyLines_cons' _ _ _ _ _ _ ho, lazyRun]
    cases hr : pRun sc st ctx (lexFrom opened line) with
    | mk cs r =>
      cases r with
      | err e ctx' => simp [failOut]
      | panic ctx' => simp [failOut]
      | more st' ctx' =>
        have ho' := pRun_open sc st ctx _ ho hr
        cases cs with
        | nil =>
          have := ih (openOf (lexFrom opened line)) st' ctx' ho' n
          rw [LazyP.items] at this
          exact this
        | cons c cs =>
          have ih' : ∀ n, _ := fun n => ih (openOf (lexFrom opened line)) st' ctx' ho' n
          revert ih'
          simp only [items_buf]
          generalize lazyRun sc lines (openOf (lexFrom opened line)) st' ctx' = q
          obtain ⟨ds, _ | e⟩ := q
          · intro ih'
            simp only at ih' ⊢
            rcases Nat.lt_or_ge cs.length n with hlt | hge
            · obtain ⟨k, rfl⟩ : ∃ k, n = cs.length + (k + 1) := ⟨n - cs.length - 1, by omega⟩
              rw [Nat.add_sub_cancel_left, ih' k]
              simp only [List.map_append, List.map_cons, List.cons_append, List.take_succ_cons, List.cons.injEq, true_and]
              rw [List.take_append, List.length_map, Nat.add_sub_cancel_left]
            · rw [Nat.sub_eq_zero_of_le hge]
              simp only [LazyP.items, List.append_nil, List.map_append, List.map_cons, List.cons_append, List.take_succ_cons]
              rw [List.take_append_of_le_length (by simpa using hge)]
          · intro ih'
            simp only at ih' ⊢
            simp only [List.map_append, List.map_cons, List.cons_append, List.take_succ_cons, List.length_cons, List.cons.injEq, true_and,
              List.length_append, List.append_assoc]
            rcases Nat.lt_or_ge cs.length n with hlt | hge
            · obtain ⟨k, rfl⟩ : ∃ k, n = cs.length + (k + 1) := ⟨n - cs.length - 1, by omega⟩
              rw [Nat.add_sub_cancel_left, List.take_of_length_le (l := List.map POut.ok cs) (by simp)]
              have e1 : cs.length + ds.length + 1 = (cs.map (POut.ok (ε := ParseError))).length + (ds.length + 1) := by simp [Nat.add_assoc]
              have e2 : cs.length + (k + 1) = (cs.map (POut.ok (ε := ParseError))).length + (k + 1) := by simp
              rw [e1, List.take_length_add_append, ih' k, e2, List.take_length_add_append]
            · rw [Nat.sub_eq_zero_of_le hge]
              simp only [LazyP.items, List.append_nil]
              rw [List.take_append_of_le_length (by simpa using hge), List.take_of_length_le]
              simp; omega

theorem items_length (sc : ScopeFn A) (n : Nat) (p : LazyP A) : (p.items sc n).length ≤ n := by
  induction n generalizing p with
  | zero => simp [LazyP.items]
  | succ n ih =>
    rw [LazyP.items]
    split
    · simp
    · simp [ih]

/-! ## The lazy parser and the whole text -/

theorem lexFrom_unlines (opened : Nat) (line : Str) (lines : List Str) (hm : MoustacheClosed line) :
    lexFrom opened (unlines (line :: lines)) =
      (lexFrom opened line).filter Token.plain ++ lexFrom (openOf (lexFrom opened line)) (unlines lines) := by
  have : unlines (line :: lines) = line ++ '\n' :: unlines lines := by simp [unlines]
  rw [this, lexFrom_append hm (u := '\n' :: unlines lines) (by rfl), lexFrom_space rfl]

theorem openOf_append (ts us : List Token) (h : ∀ t ∈ ts, Token.plain t = true) : openOf (ts ++ us) = openOf us := by
  induction ts with
  | nil => rfl
  | cons t ts ih => rw [List.cons_append, openOf_cons _ (h t (.head _)), ih fun t ht => h t (.tail _ ht)]

/-- the lazy parser, in terms of a run over the whole text -/
theorem lazyRun_whole (sc : ScopeFn A) (lines : List Str) (hm : ∀ l ∈ lines, MoustacheClosed l) (opened : Nat) (st : PState A)
    (ctx : PCtx A) : match pRun sc st ctx (lexFrom opened (unlines lines)) with
      | (cs, .more st' _) => lazyRun sc lines opened st ctx = (cs, (lazyEnd (openOf (lexFrom opened (unlines lines))) st').map some)
      | (cs, .err e _) => ∃ ds, ds <+: cs ∧ lazyRun sc lines opened st ctx = (ds, some (some e))
      | (cs, .panic _) => ∃ ds, ds <+: cs ∧ lazyRun sc lines opened st ctx = (ds, some none) := by
  induction lines generalizing opened st ctx with
  | nil =>
    have : lexFrom opened (unlines []) = if opened = 0 then [] else [.comment opened] := by
      cases opened <;> rfl
    rw [this]
    cases opened <;> rfl
  | cons line lines ih =>
    have ih' := ih (fun l hl => hm l (.tail _ hl)) (openOf (lexFrom opened line))
    rw [lexFrom_unlines _ _ _ (hm line (.head _)), pRun_append, pRun_filter, lazyRun,
      openOf_append _ _ (fun t ht => (List.mem_filter.1 ht).2)]
    cases pRun sc st ctx (lexFrom opened line) with
    | mk cs r =>
      cases r with
      | err e ctx' => exact ⟨[], List.nil_prefix, rfl⟩
      | panic ctx' => exact ⟨[], List.nil_prefix, rfl⟩
      | more st' ctx' =>
        have := ih' st' ctx'
        revert this
        simp only [PEnd.andThen]
        cases pRun sc st' ctx' (lexFrom (openOf (lexFrom opened line)) (unlines lines)) with
        | mk ds r =>
          cases r with
          | more st2 ctx2 => intro h; simp only at h ⊢; rw [h]
          | err e ctx2 =>
            rintro ⟨es, he, h⟩
            exact ⟨cs ++ es, (List.prefix_append_right_inj _).2 he, by rw [h]⟩
          | panic ctx2 =>
            rintro ⟨es, he, h⟩
            exact ⟨cs ++ es, (List.prefix_append_right_inj _).2 he, by rw [h]⟩

/-! ## The strict parser -/

/-- whether a token was seen since the last command, at the end of a run -/
def pSeen (sc : ScopeFn A) : Bool → PState A → PCtx A → List Token → Bool
  | seen, _, _, [] => seen
  | _, st, ctx, tok :: ts => if tok.plain then
      match pstep sc ctx st tok with
      | .more st ctx => pSeen sc true st ctx ts
      | .cmd _ ctx => pSeen sc false PState.new ctx ts
      | _ => false
    else true

theorem pItems_run (sc : ScopeFn A) (seen : Bool) (st : PState A) (ctx : PCtx A) (ts : List Token) (hc : CommentLast ts)
    (hp : ∀ o, .comment o ∈ ts → 0 < o) : match pRun sc st ctx ts with
      | (cs, .more _ _) => pItems sc seen st ctx ts = cs.map .ok ++ if pSeen sc seen st ctx ts then [.err .expectedInput] else []
      | (cs, .err e _) => ∃ rest, pItems sc seen st ctx ts = cs.map .ok ++ .err e :: rest
      | (cs, .panic _) => ∃ rest, pItems sc seen st ctx ts = cs.map .ok ++ .panic :: rest := by
  induction ts generalizing seen st ctx with
  | nil => cases seen <;> rfl
  | cons tok ts ih =>
    have ih' := fun seen st ctx => ih seen st ctx hc.tail fun o ho => hp o (.tail _ ho)
    rcases ht : tok.plain with _ | _
    · obtain ⟨o, rfl⟩ := Token.not_plain ht
      have h0 := hp o (.head _)
      simp only [CommentLast] at hc
      subst hc
      rw [pRun_comment]
      simp [pRun, pItems, h0, pSeen, Token.plain]
    · rw [pRun_cons _ _ _ _ _ ht, pItems_cons _ _ _ _ _ _ ht, pSeen]
      simp only [ht, if_true]
      cases hs : pstep sc ctx st tok with
      | more st1 ctx1 => exact ih' true st1 ctx1
      | cmd c ctx1 =>
        have := ih' false PState.new ctx1
        revert this
        simp only
        cases pRun sc PState.new ctx1 ts with
        | mk cs r =>
          cases r with
          | more st2 ctx2 => intro h; simp only at h ⊢; rw [h]; rfl
          | err e ctx2 => rintro ⟨rest, h⟩; exact ⟨rest, by rw [h]; rfl⟩
          | panic ctx2 => rintro ⟨rest, h⟩; exact ⟨rest, by rw [h]; rfl⟩
      | err e ctx1 => exact ⟨_, rfl⟩
      | panic ctx1 => exact ⟨_, rfl⟩

theorem pSeen_false (sc : ScopeFn A) (seen : Bool) (st : PState A) (ctx : PCtx A) (ts : List Token) (h0 : seen = false → st = PState.new)
    {cs : List (PCmd (PTerm A))} {st' : PState A} {ctx' : PCtx A} (hr : pRun sc st ctx ts = (cs, .more st' ctx'))
    (h : pSeen sc seen st ctx ts = false) : st' = PState.new ∧ openOf ts = 0 := by
  induction ts generalizing seen st ctx cs with
  | nil => cases hr; exact ⟨h0 h, rfl⟩
  | cons tok ts ih =>
    rw [pSeen] at h
    rcases ht : tok.plain with _ | _
    · simp [ht] at h
    · rw [pRun_cons _ _ _ _ _ ht] at hr
      rw [openOf_cons _ ht]
      simp only [ht, if_true] at h
      cases hs : pstep sc ctx st tok with
      | more st1 ctx1 =>
        rw [hs] at hr h
        exact ih true st1 ctx1 (fun h => nomatch h) hr h
      | cmd c ctx1 =>
        rw [hs] at hr h
        simp only [Prod.mk.injEq] at hr
        exact ih false PState.new ctx1 (fun _ => rfl) (Prod.ext rfl hr.2) h
      | err e ctx1 => rw [hs] at hr; cases hr
      | panic ctx1 => rw [hs] at hr; cases hr

theorem parse_pragma {Tm : Type} {st st' : CState Tm} {bound bound' : List Str} {tok : Token} (hs : st ≠ .pragma) (ht : tok ≠ .hash)
    (h : st.parse bound tok = (.ok st', bound')) : st' ≠ .pragma ∧ st' ≠ .init := by
  have hsymb : ∀ (s : PSymb) (st : CState Tm), (if s.path.isEmpty then (st.applyName s.name, bound) else (.err .unexpectedPath, bound))
      = (.ok st', bound') → st' ≠ .pragma ∧ st' ≠ .init := by
    intro s st
    split
    · rcases st with _ | _ | ⟨_, _, _, _ | _⟩ | ⟨_, _, _, _ | _⟩ | _ | ⟨_, _ | _⟩ | _ | _ | _ | _ <;> intro h <;> cases h <;>
        exact ⟨fun h => (by cases h), fun h => (by cases h)⟩
    · intro h; cases h
  rcases st with _ | _ | ⟨_ | _ | _ | _, _, _, _ | _ | _⟩ | ⟨_, _, _, _ | ⟨_, _ | _⟩⟩ | ⟨_ | _ | _ | _, _, _, _⟩ | ⟨_, _ | ⟨_, _ | _⟩⟩ | _ | _ | _ | _ <;> cases tok <;>
    first
    | exact absurd rfl hs
    | exact absurd rfl ht
    | exact hsymb _ _ h
    | (cases h; exact ⟨fun h => (by cases h), fun h => (by cases h)⟩)
    | cases h

theorem apply_pragma {Tm : Type} {st st' : CState Tm} {bound bound' : List Str} {tm : Tm} {tok : Token}
    (h : st.apply bound tm tok = (.ok st', bound')) : st' ≠ .pragma ∧ st' ≠ .init := by
  rcases st with _ | _ | ⟨_ | _ | _ | _, _, _, _ | _ | _⟩ | ⟨_, _, _, _ | ⟨_, _ | _⟩⟩ | ⟨_ | _ | _ | _, _, _, _⟩ | ⟨_, _ | ⟨_, _ | _⟩⟩ | _ | _ | _ | _ <;> cases tok <;>
    first
    | (cases h; exact ⟨fun h => (by cases h), fun h => (by cases h)⟩)
    | (cases bound <;> cases h <;> exact ⟨fun h => (by cases h), fun h => (by cases h)⟩)

theorem pstep_pragma {sc : ScopeFn A} {ctx ctx' : PCtx A} {st st' : PState A} {tok : Token} (hs : st.cmd ≠ .pragma) (ht : tok ≠ .hash)
    (hi : st.cmd.expectsTerm = false → st.trm = .init) (h : pstep sc ctx st tok = .more st' ctx') : st'.cmd ≠ .pragma ∧ st'.cmd ≠ .init := by
  have h1 : ∀ ctx r, (∀ st' bound', r = (.ok st', bound') → st' ≠ .pragma ∧ st' ≠ .init) → cmdRes ctx r = .more st' ctx' →
      st'.cmd ≠ .pragma ∧ st'.cmd ≠ .init := by
    rintro ctx ⟨r, b⟩ hr h
    cases r with
    | ok s =>
      cases s <;> cases h <;> exact hr _ _ rfl
    | err e => cases h
    | panic => cases h
  unfold pstep at h
  split at h
  · next he =>
    cases ht : tstep sc ctx tok st.trm with
    | more trm ctx1 =>
      rw [ht] at h
      cases h
      refine ⟨hs, fun hi => ?_⟩
      rw [show st.cmd = .init from hi] at he
      cases he
    | done t ctx1 =>
      rw [ht] at h
      exact h1 _ _ (fun _ _ h => apply_pragma h) h
    | err e ctx1 => rw [ht] at h; cases h
  · next he =>
    rw [hi (by simpa using he)] at h
    exact h1 _ _ (fun _ _ h => parse_pragma hs ht h) h

/-- without pragmas, the parser is at rest only after a command -/
theorem pSeen_true (sc : ScopeFn A) (seen : Bool) (st : PState A) (ctx : PCtx A) (ts : List Token) (h0 : seen = true → st.cmd ≠ .init)
    (h1 : st.cmd ≠ .pragma) (ho : st.Open) (hh : .hash ∉ ts) (hc : CommentLast ts) (hp : ∀ o, .comment o ∈ ts → 0 < o)
    {cs : List (PCmd (PTerm A))} {st' : PState A} {ctx' : PCtx A} (hr : pRun sc st ctx ts = (cs, .more st' ctx'))
    (h : pSeen sc seen st ctx ts = true) : st'.cmd ≠ .init ∨ 0 < openOf ts := by
  induction ts generalizing seen st ctx cs with
  | nil => cases hr; exact .inl (h0 h)
  | cons tok ts ih =>
    rw [pSeen] at h
    have ih' := fun seen st ctx h0 h1 ho => @ih seen st ctx h0 h1 ho (fun hm => hh (.tail _ hm)) hc.tail (fun o hm => hp o (.tail _ hm))
    rcases ht : tok.plain with _ | _
    · obtain ⟨o, rfl⟩ := Token.not_plain ht
      simp only [CommentLast] at hc
      subst hc
      exact .inr (hp o (.head _))
    · rw [pRun_cons _ _ _ _ _ ht] at hr
      rw [openOf_cons _ ht]
      simp only [ht, if_true] at h
      cases hs : pstep sc ctx st tok with
      | more st1 ctx1 =>
        rw [hs] at hr h
        have := pstep_pragma h1 (fun e => hh (e ▸ .head _)) ho.2 hs
        exact ih' true st1 ctx1 (fun _ => this.2) this.1 (pstep_open hs) hr h
      | cmd c ctx1 =>
        rw [hs] at hr h
        simp only [Prod.mk.injEq] at hr
        exact ih' false PState.new ctx1 (fun h => nomatch h) (fun h => nomatch h) PState.new_open (Prod.ext rfl hr.2) h
      | err e ctx1 => rw [hs] at hr; cases hr
      | panic ctx1 => rw [hs] at hr; cases hr

end Kontroli
