import Verif.Proofs.ParseLines

/-! # The context of the parser between commands -/

namespace Kontroli

variable {A : Type}

/-- the bound variables are those of the command being parsed -/
def CState.Clean {Tm : Type} (bound : List Str) : CState Tm → Prop
  | .init => bound = []
  | .prefix_ _ => bound = []
  | .pragma => bound = []
  | .command _ => bound = []
  | .args _ _ c _ => bound.length = c.length
  | .argsIn _ _ c _ => bound.length = c.length
  | .ofEq _ _ c _ => bound.length = c.length
  | .ruleCtx c _ => bound.length = c.vars.length
  | .ruleL c => ∃ b, bound = joker :: b ∧ b.length = c.vars.length
  | .ruleR c _ => bound.length = c.vars.length

theorem parse_clean {Tm : Type} {st st' : CState Tm} {bound bound' : List Str} {tok : Token} (hc : st.Clean bound)
    (h : st.parse bound tok = (.ok st', bound')) : st'.Clean bound' := by
  have hsymb : ∀ (s : PSymb) (st : CState Tm), st.Clean bound →
      (if s.path.isEmpty then (st.applyName s.name, bound) else (.err .unexpectedPath, bound)) = (.ok st', bound') → st'.Clean bound' := by
    intro s st hc
    split
    · rcases st with _ | _ | ⟨_, _, _, _ | _⟩ | ⟨_, _, _, _ | _⟩ | _ | ⟨_, _ | _⟩ | _ | _ | _ | _ <;> intro h <;> cases h <;>
        first
        | exact hc
        | (rw [show bound = [] from hc]; rfl)
    · intro h; cases h
  rcases st with _ | _ | ⟨_ | _ | _ | _, _, _, _ | _ | _⟩ | ⟨_, _, _, _ | ⟨_, _ | _⟩⟩ | ⟨_ | _ | _ | _, _, _, _⟩ | ⟨_, _ | ⟨_, _ | _⟩⟩ | _ | _ | _ | _ <;> cases tok <;>
    first
    | exact hsymb _ _ hc h
    | (cases h; exact hc)
    | (cases h; rw [show bound = [] from hc]; rfl)
    | (cases h; exact ⟨_, rfl, hc⟩)
    | (cases h; exact ⟨_, rfl, by simp only [RuleCtx.pushVar, List.length_append]; rw [show bound.length = _ from hc]; rfl⟩)
    | (cases h; show List.length _ = List.length _; simp only [RuleCtx.pushVar, List.length_append]; rw [show bound.length = _ from hc]; rfl)
    | cases h

theorem apply_clean {Tm : Type} {st st' : CState Tm} {bound bound' : List Str} {tm : Tm} {tok : Token} (hc : st.Clean bound)
    (h : st.apply bound tm tok = (.ok st', bound')) : st'.Clean bound' := by
  rcases st with _ | _ | ⟨_ | _ | _ | _, _, _, _ | _ | _⟩ | ⟨_, _, _, _ | ⟨_, _ | _⟩⟩ | ⟨_ | _ | _ | _, _, _, _⟩ | ⟨_, _ | ⟨_, _ | _⟩⟩ | _ | _ | _ | _ <;> cases tok <;>
    first
    | (cases h; exact hc)
    | (cases h; rfl)
    | (cases h; show List.length _ = List.length _; simp only [List.length_append]; rw [show bound.length = _ from hc]; rfl)
    | (cases h; show List.length _ = List.length _; simp only [RuleCtx.pushVar, List.length_append]; rw [show bound.length = _ from hc]; rfl)
    | (cases h; exact ⟨_, rfl, by simp only [RuleCtx.pushVar, List.length_append]; rw [show bound.length = _ from hc]; rfl⟩)
    | (obtain ⟨b, rfl, hb⟩ := hc; cases h; exact hb)
    | cases h

/-- the whole state: the bound variables are those of the command, and no construct is open if no term is being parsed -/
def PState.Clean (st : PState A) (ctx : PCtx A) : Prop := st.cmd.Clean ctx.bound ∧ (st.trm = .init ∧ st.cmd.expectsTerm = false → ctx.stack = [])

theorem PState.new_clean : (PState.new : PState A).Clean PCtx.new := ⟨rfl, fun _ => rfl⟩

theorem pstep_clean {sc : ScopeFn A} {ctx : PCtx A} {st : PState A} {tok : Token} (h : st.Clean ctx) :
    match pstep sc ctx st tok with
    | .more st' ctx' => st'.Clean ctx'
    | .cmd _ ctx' => ctx' = PCtx.new
    | _ => True := by
  have h1 : ∀ ctx r, ctx.stack = [] → (∀ st' bound', r = (.ok st', bound') → st'.Clean bound') → match cmdRes (A := A) ctx r with
    | .more st' ctx' => st'.Clean ctx'
    | .cmd _ ctx' => ctx' = PCtx.new
    | _ => True := by
    rintro ctx ⟨r, b⟩ hs hr
    cases r with
    | ok s =>
      have := hr s b rfl
      cases s with
      | command c =>
        show (⟨b, ctx.stack⟩ : PCtx A) = ⟨[], []⟩
        rw [hs, show b = [] from this]
      | _ => exact ⟨this, fun _ => hs⟩
    | err e => trivial
    | panic => trivial
  cases he : st.cmd.expectsTerm with
  | true =>
    have hb := tstep_bound sc ctx tok st.trm
    simp only [pstep, he, if_true]
    cases ht : tstep sc ctx tok st.trm with
    | more trm ctx1 =>
      rw [ht] at hb
      refine ⟨?_, fun hx => ?_⟩
      · have : ctx1.bound = ctx.bound := hb
        rw [this]; exact h.1
      · rw [he] at hx; simp at hx
    | done t ctx1 =>
      rw [ht] at hb
      have hb : ctx1.bound = ctx.bound := hb
      exact h1 _ _ (tstep_done ht) fun st' b' hr => apply_clean (by rw [hb]; exact h.1) hr
    | err e ctx1 => trivial
  | false =>
    simp only [pstep, he]
    cases hi : st.trm with
    | init => exact h1 _ _ (h.2 ⟨hi, he⟩) fun st' b' hr => parse_clean h.1 hr
    | _ => trivial

theorem pRun_clean (sc : ScopeFn A) (st : PState A) (ctx : PCtx A) (ts : List Token) (h : st.Clean ctx) {cs : List (PCmd (PTerm A))}
    {st' : PState A} {ctx' : PCtx A} (hr : pRun sc st ctx ts = (cs, .more st' ctx')) : st'.Clean ctx' := by
  induction ts generalizing st ctx cs with
  | nil => cases hr; exact h
  | cons tok ts ih =>
    rcases hp : tok.plain with _ | _
    · obtain ⟨o, rfl⟩ := Token.not_plain hp
      rw [pRun_comment] at hr
      exact ih _ _ h hr
    · rw [pRun_cons _ _ _ _ _ hp] at hr
      have hcl := pstep_clean (sc := sc) (tok := tok) h
      cases hs : pstep sc ctx st tok with
      | more st1 ctx1 =>
        rw [hs] at hr hcl
        exact ih _ _ hcl hr
      | cmd c ctx1 =>
        rw [hs] at hr hcl
        simp only [Prod.mk.injEq] at hr
        refine ih PState.new ctx1 ?_ (Prod.ext rfl hr.2)
        simp only at hcl
        rw [hcl]; exact PState.new_clean
      | err e ctx1 => rw [hs] at hr; cases hr
      | panic ctx1 => rw [hs] at hr; cases hr

/-! ## Commands end in a dot -/

theorem parse_command {Tm : Type} {st : CState Tm} {bound bound' : List Str} {tok : Token} {c : PCmd Tm} :
    st.parse bound tok ≠ (.ok (.command c), bound') := by
  have hsymb : ∀ (s : PSymb) (st : CState Tm),
      (if s.path.isEmpty then (st.applyName s.name, bound) else (.err .unexpectedPath, bound)) ≠ (.ok (.command c), bound') := by
    intro s st
    split
    · rcases st with _ | _ | ⟨_, _, _, _ | _⟩ | ⟨_, _, _, _ | _⟩ | _ | ⟨_, _ | _⟩ | _ | _ | _ | _ <;> intro h <;> cases h
    · intro h; cases h
  rcases st with _ | _ | ⟨_ | _ | _ | _, _, _, _ | _ | _⟩ | ⟨_, _, _, _ | ⟨_, _ | _⟩⟩ | ⟨_ | _ | _ | _, _, _, _⟩ | ⟨_, _ | ⟨_, _ | _⟩⟩ | _ | _ | _ | _ <;> cases tok <;>
    first
    | exact hsymb _ _
    | (intro h; cases h)

theorem apply_command {Tm : Type} {st : CState Tm} {bound bound' : List Str} {tm : Tm} {tok : Token} {c : PCmd Tm}
    (h : st.apply bound tm tok = (.ok (.command c), bound')) : tok = .dot := by
  rcases st with _ | _ | ⟨_ | _ | _ | _, _, _, _ | _ | _⟩ | ⟨_, _, _, _ | ⟨_, _ | _⟩⟩ | ⟨_ | _ | _ | _, _, _, _⟩ | ⟨_, _ | ⟨_, _ | _⟩⟩ | _ | _ | _ | _ <;> cases tok <;>
    first
    | rfl
    | cases h
    | (cases bound <;> cases h)

theorem pstep_dot {sc : ScopeFn A} {ctx ctx' : PCtx A} {st : PState A} {tok : Token} {c : PCmd (PTerm A)}
    (h : pstep sc ctx st tok = .cmd c ctx') : tok = .dot := by
  have h1 : ∀ (ctx : PCtx A) r, cmdRes ctx r = .cmd c ctx' → ∃ b, r = (.ok (.command c), b) := by
    rintro ctx ⟨r, b⟩ h
    cases r with
    | ok s => cases s <;> cases h; exact ⟨_, rfl⟩
    | err e => cases h
    | panic => cases h
  unfold pstep at h
  split at h
  · split at h
    · cases h
    · obtain ⟨b, hb⟩ := h1 _ _ h
      exact apply_command hb
    · cases h
  · split at h
    · obtain ⟨b, hb⟩ := h1 _ _ h
      exact absurd hb parse_command
    · cases h

theorem pRun_comments (sc : ScopeFn A) (st : PState A) (ctx : PCtx A) (ts : List Token) (h : ∀ t ∈ ts, ∃ n, t = .comment n) :
    pRun sc st ctx ts = ([], .more st ctx) := by
  induction ts with
  | nil => rfl
  | cons t ts ih =>
    obtain ⟨n, rfl⟩ := h t (.head _)
    rw [pRun_comment, ih fun t ht => h t (.tail _ ht)]

/-- if dots are found at the end only, no command precedes an error -/
theorem pRun_dots (sc : ScopeFn A) (st : PState A) (ctx : PCtx A) (ts : List Token)
    (hd : ∀ a b, ts = a ++ .dot :: b → ∀ t ∈ b, ∃ n, t = .comment n) {cs : List (PCmd (PTerm A))} {r : PEnd A}
    (hr : pRun sc st ctx ts = (cs, r)) (hm : ∀ st' ctx', r ≠ .more st' ctx') : cs = [] := by
  induction ts generalizing st ctx cs with
  | nil => cases hr; rfl
  | cons tok ts ih =>
    have ih' := fun st ctx => @ih st ctx fun a b h => hd (tok :: a) b (by rw [h]; rfl)
    rcases hp : tok.plain with _ | _
    · obtain ⟨o, rfl⟩ := Token.not_plain hp
      rw [pRun_comment] at hr
      exact ih' _ _ hr
    · rw [pRun_cons _ _ _ _ _ hp] at hr
      cases hs : pstep sc ctx st tok with
      | more st1 ctx1 =>
        rw [hs] at hr
        exact ih' _ _ hr
      | cmd c ctx1 =>
        rw [hs] at hr
        have := hd [] ts (by rw [pstep_dot hs]; rfl)
        simp only [Prod.mk.injEq, pRun_comments _ _ _ _ this] at hr
        exact absurd hr.2.symm (hm _ _)
      | err e ctx1 => rw [hs] at hr; cases hr; rfl
      | panic ctx1 => rw [hs] at hr; cases hr; rfl

/-- the lazy parser delivers everything that precedes the error, if commands end at the end of their line -/
theorem lazyRun_dots (sc : ScopeFn A) (lines : List Str) (hm : ∀ l ∈ lines, MoustacheClosed l)
    (hd : ∀ l ∈ lines, ∀ n a b, lexFrom n l = a ++ .dot :: b → ∀ t ∈ b, ∃ n, t = .comment n) (opened : Nat) (st : PState A)
    (ctx ctx' : PCtx A) (cs : List (PCmd (PTerm A))) (e : ParseError)
    (hr : pRun sc st ctx (lexFrom opened (unlines lines)) = (cs, .err e ctx')) : lazyRun sc lines opened st ctx = (cs, some (some e)) := by
  induction lines generalizing opened st ctx cs with
  | nil =>
    cases opened with
    | zero => cases hr
    | succ n => cases hr
  | cons line lines ih =>
    have ih' := fun st ctx cs => ih (fun l hl => hm l (.tail _ hl)) (fun l hl => hd l (.tail _ hl)) (openOf (lexFrom opened line)) st ctx cs
    rw [lexFrom_unlines _ _ _ (hm line (.head _)), pRun_append, pRun_filter] at hr
    rw [lazyRun]
    cases hp : pRun sc st ctx (lexFrom opened line) with
    | mk ds r =>
      rw [hp] at hr
      cases r with
      | err e' ctx1 =>
        cases hr
        rw [pRun_dots sc st ctx _ (hd line (.head _) opened) hp (fun _ _ h => nomatch h)]
      | panic ctx1 => cases hr
      | more st1 ctx1 =>
        simp only [PEnd.andThen, Prod.mk.injEq] at hr
        simp only [ih' st1 ctx1 _ (Prod.ext rfl hr.2), ← hr.1]

/-- the lazy parser after some lines that it accepts -/
theorem items_append (sc : ScopeFn A) (lines1 lines2 : List Str) (n opened : Nat) (st : PState A) (ctx : PCtx A) (ho : st.Open)
    (hc : st.Clean ctx) {cs : List (PCmd (PTerm A))} (hr : lazyRun sc lines1 opened st ctx = (cs, none)) :
    LazyP.items sc n ⟨lines1 ++ lines2, opened, st, ctx, []⟩ = (cs.map .ok).take n ++ LazyP.items sc (n - cs.length) (LazyP.new lines2) := by
  induction lines1 generalizing n opened st ctx cs with
  | nil =>
    simp only [lazyRun, Prod.mk.injEq] at hr
    obtain ⟨rfl, hr⟩ := hr
    have hs : st.cmd = .init ∧ opened = 0 := by
      unfold lazyEnd at hr
      cases hst : st.cmd with
      | init =>
        rw [hst] at hr
        by_cases h : opened > 0
        · simp [h] at hr
        · exact ⟨rfl, by omega⟩
      | _ => rw [hst] at hr; simp at hr
    have ht := ho.2 (by rw [hs.1]; rfl)
    have h1 := hc.1
    have h2 := hc.2 ⟨ht, by rw [hs.1]; rfl⟩
    rw [hs.1] at h1
    obtain ⟨cmd, trm⟩ := st
    obtain ⟨bound, stack⟩ := ctx
    simp only at ht h2
    obtain ⟨rfl, rfl⟩ := hs
    subst ht; subst h2
    rw [show bound = [] from h1]
    simp [LazyP.new, PState.new, PCtx.new]
  | cons line lines ih =>
    cases n with
    | zero => simp [LazyP.items]
    | succ n =>
    have hn : LazyP.next sc ⟨line :: lines ++ lines2, opened, st, ctx, []⟩ = lazyLines sc (line :: (lines ++ lines2)) opened st ctx [] := rfl
    rw [LazyP.items, hn, lazyLines_cons' _ _ _ _ _ _ ho]
    rw [lazyRun] at hr
    cases hp : pRun sc st ctx (lexFrom opened line) with
    | mk ds r =>
      rw [hp] at hr
      cases r with
      | err e ctx1 => cases hr
      | panic ctx1 => cases hr
      | more st1 ctx1 =>
        cases hq : lazyRun sc lines (openOf (lexFrom opened line)) st1 ctx1 with
        | mk es o =>
        simp only [hq, Prod.mk.injEq] at hr
        obtain ⟨rfl, rfl⟩ := hr
        have ih' := fun n => ih n (openOf (lexFrom opened line)) st1 ctx1 (pRun_open sc st ctx _ ho hp) (pRun_clean sc st ctx _ hc hp) hq
        cases ds with
        | nil =>
          have := ih' (n + 1)
          rw [LazyP.items] at this
          exact this
        | cons c ds =>
          simp only [items_buf, ih', List.map_append, List.map_cons, List.cons_append, List.take_succ_cons, List.length_cons,
            List.length_append, List.append_assoc, List.take_append, List.length_map]
          congr 4
          omega

theorem openOf_zero {ts : List Token} (hc : CommentLast ts) (hp : ∀ o, .comment o ∈ ts → 0 < o) (h : openOf ts = 0) (n : Nat) :
    .comment n ∉ ts := by
  induction ts with
  | nil => simp
  | cons t ts ih =>
    rcases ht : t.plain with _ | _
    · obtain ⟨o, rfl⟩ := Token.not_plain ht
      simp only [CommentLast] at hc
      subst hc
      have := hp o (.head _)
      simp only [openOf] at h
      omega
    · rw [openOf_cons _ ht] at h
      intro hm
      rcases List.mem_cons.1 hm with rfl | hm
      · simp [Token.plain] at ht
      · exact ih hc.tail (fun o ho => hp o (.tail _ ho)) h hm

theorem pItems_append (sc : ScopeFn A) (seen : Bool) (st st' : PState A) (ctx ctx' : PCtx A) (ts us : List Token)
    (hn : ∀ n, .comment n ∉ ts) (cs : List (PCmd (PTerm A))) (hr : pRun sc st ctx ts = (cs, .more st' ctx')) :
    pItems sc seen st ctx (ts ++ us) = cs.map .ok ++ pItems sc (pSeen sc seen st ctx ts) st' ctx' us := by
  induction ts generalizing seen st ctx cs with
  | nil => cases hr; rfl
  | cons tok ts ih =>
    have ih' := fun seen st ctx cs => ih seen st ctx (fun n h => hn n (.tail _ h)) cs
    have ht : tok.plain = true := by
      cases ht : tok.plain with
      | true => rfl
      | false => obtain ⟨o, rfl⟩ := Token.not_plain ht; exact absurd (.head _) (hn o)
    rw [pRun_cons _ _ _ _ _ ht] at hr
    rw [List.cons_append, pItems_cons _ _ _ _ _ _ ht, pSeen]
    simp only [ht, if_true]
    cases hs : pstep sc ctx st tok with
    | more st1 ctx1 => rw [hs] at hr; exact ih' true st1 ctx1 _ hr
    | cmd c ctx1 =>
      rw [hs] at hr
      simp only [Prod.mk.injEq] at hr
      obtain ⟨rfl, hr⟩ := hr
      simp only [ih' false PState.new ctx1 _ (Prod.ext rfl hr), List.map_cons, List.cons_append]
    | err e ctx1 => rw [hs] at hr; cases hr
    | panic ctx1 => rw [hs] at hr; cases hr

end Kontroli
