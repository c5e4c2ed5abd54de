import Verif.Spec.Viable
import Verif.Proofs.StrictGrammar

/-! # What is read without error can be continued to a text -/

namespace Kontroli

/-! ## Terms -/

/-- the number of open parentheses -/
def parens : List (Cont PSymb) → Nat
  | [] => 0
  | .lpar _ :: st => parens st + 1
  | _ :: st => parens st

theorem reduce_parens (st : List (Cont PSymb)) (t : PTerm PSymb) : match reduceStack st t with
    | (some _, _, st') => parens st = parens st' + 1
    | (none, _, _) => True := by
  induction st generalizing t with
  | nil => trivial
  | cons c st ih =>
    cases c with
    | lpar l => rfl
    | _ => exact ih _

/-- a qualified symbol -/
def qualTok : Token := .symb ⟨[[]], []⟩

/-- an application can be completed -/
theorem ready_complete (ctx : PCtx PSymb) (st : TState PSymb) : ∃ us t ctx', tMany ctx st us = some (.aterm none t, ctx') ∧
    ctx'.bound = ctx.bound ∧ parens ctx'.stack = parens ctx.stack := by
  cases st with
  | init => exact ⟨[qualTok], _, _, rfl, rfl, rfl⟩
  | symb s => exact ⟨[qualTok], _, _, rfl, rfl, rfl⟩
  | varof v => exact ⟨[qualTok, .arrow, qualTok], _, _, rfl, rfl, rfl⟩
  | aterm x t =>
    cases x with
    | none => exact ⟨[], _, _, rfl, rfl, rfl⟩
    | some x => exact ⟨[.arrow, qualTok], _, _, rfl, rfl, rfl⟩

/-- a term can be completed -/
theorem term_complete (n : Nat) (ctx : PCtx PSymb) (st : TState PSymb) (h : parens ctx.stack = n) : ∃ us t ctx' t',
    tMany ctx st us = some (.aterm none t, ctx') ∧ ctx'.bound = ctx.bound ∧ reduceStack ctx'.stack t = (none, t', []) := by
  induction n generalizing ctx st with
  | zero =>
    obtain ⟨us, t, ctx', h1, h2, h3⟩ := ready_complete ctx st
    refine ⟨us, t, ctx', ?_⟩
    have hr := reduce_parens ctx'.stack t
    cases hs : reduceStack ctx'.stack t with
    | mk l r =>
      obtain ⟨t', st'⟩ := r
      rw [hs] at hr
      cases l with
      | some l => simp only at hr; omega
      | none => obtain rfl := reduceStack_none hs; exact ⟨t', h1, h2, rfl⟩
  | succ n ih =>
    obtain ⟨us, t, ctx', h1, h2, h3⟩ := ready_complete ctx st
    have hr := reduce_parens ctx'.stack t
    cases hs : reduceStack ctx'.stack t with
    | mk l r =>
      obtain ⟨t', st'⟩ := r
      rw [hs] at hr
      cases l with
      | none => obtain rfl := reduceStack_none hs; exact ⟨us, t, ctx', t', h1, h2, hs⟩
      | some l =>
        simp only at hr
        obtain ⟨vs, u, ctx'', u', h4, h5, h6⟩ := ih { ctx' with stack := st' } (.aterm l.x (match l.app with
          | none => t'
          | some app => app.pushArg t')) (by simp only; omega)
        refine ⟨us ++ .rpar :: vs, u, ctx'', u', ?_, h5.trans h2, h6⟩
        rw [tMany_append h1, tMany_cons _ vs]
        · exact h4
        · simp only [tstep, atermStep, closeStep, hs, if_true]
          obtain ⟨x, _ | app⟩ := l <;> rfl

/-! ## Commands -/

/-- what is read can be continued to the end of a command -/
def Completes (st : PState PSymb) (ctx : PCtx PSymb) : Prop := ∃ us cs ctx', pRun scopeSymb st ctx us = (cs, .more PState.new ctx')

/-- the same after a step -/
def PRes.Completes : PRes PSymb → Prop
  | .more st ctx => Kontroli.Completes st ctx
  | .cmd _ _ => True
  | _ => False

theorem Completes.step {st : PState PSymb} {ctx : PCtx PSymb} (tok : Token) (hp : tok.plain = true) (h : (pstep scopeSymb ctx st tok).Completes) :
    Completes st ctx := by
  cases hs : pstep scopeSymb ctx st tok with
  | more st' ctx' =>
    rw [hs] at h
    obtain ⟨us, cs, ctx'', h⟩ := h
    exact ⟨tok :: us, cs, ctx'', by rw [pRun_cons _ _ _ _ _ hp, hs]; exact h⟩
  | cmd c ctx' => exact ⟨[tok], [c], ctx', by rw [pRun_cons _ _ _ _ _ hp, hs]; rfl⟩
  | err e ctx' => rw [hs] at h; exact h.elim
  | panic ctx' => rw [hs] at h; exact h.elim

theorem Completes.term {cmd : CState (PTerm PSymb)} {trm : TState PSymb} {ctx : PCtx PSymb} (hc : cmd.expectsTerm = true) (tok : Token)
    (hp : tok.follow = true) (h : ∀ t, (cmdRes (⟨ctx.bound, []⟩ : PCtx PSymb) (cmd.apply ctx.bound t tok)).Completes) :
    Completes ⟨cmd, trm⟩ ctx := by
  obtain ⟨us, t, ctx', t', h1, h2, h3⟩ := term_complete _ ctx trm rfl
  have : Completes ⟨cmd, .aterm none t⟩ ctx' := by
    refine .step tok (by cases tok <;> first | rfl | cases hp) ?_
    have h4 : tstep scopeSymb ctx' tok (.aterm none t) = .done t' ⟨ctx'.bound, []⟩ := by
      cases tok <;> first
        | exact absurd hp Bool.false_ne_true
        | simp only [tstep, atermStep, closeStep, h3]
    simp only [pstep, hc, if_true, h4]
    rw [h2]
    exact h t'
  obtain ⟨vs, cs, ctx'', h4⟩ := this
  exact ⟨us ++ vs, cs, ctx'', by rw [pRun_many hc _ _ h1]; exact h4⟩

theorem completes_new (ctx : PCtx PSymb) : Completes PState.new ctx := ⟨[], [], ctx, rfl⟩

theorem completes_ofEq {p : Option Prefix} (hp : p = some .def_ ∨ p = some .thm) (s : Str) (c : List (PTerm PSymb)) (ty : PTerm PSymb)
    (trm : TState PSymb) (ctx : PCtx PSymb) : Completes ⟨.ofEq p s c ty, trm⟩ ctx := by
  rcases hp with rfl | rfl <;> exact .term rfl .dot rfl fun t => trivial

theorem completes_of (p : Option Prefix) (s : Str) (c : List (PTerm PSymb)) (trm : TState PSymb) (ctx : PCtx PSymb) :
    Completes ⟨.args p s c (some .of), trm⟩ ctx := by
  rcases p with _ | _ | _ | _
  · exact .term rfl .dot rfl fun t => trivial
  · exact .term rfl .dot rfl fun t => trivial
  · exact .term rfl .colonEq rfl fun t => completes_ofEq (.inr rfl) _ _ _ _ _
  · exact .term rfl .dot rfl fun t => trivial

theorem completes_args (p : Option Prefix) (s : Str) (c : List (PTerm PSymb)) (ctx : PCtx PSymb) :
    Completes ⟨.args p s c none, .init⟩ ctx := by
  refine .step .colon rfl ?_
  rcases p with _ | _ | _ | _ <;> exact completes_of _ _ _ _ _

theorem completes_argsIn (p : Option Prefix) (s x : Str) (c : List (PTerm PSymb)) (trm : TState PSymb) (ctx : PCtx PSymb) :
    Completes ⟨.argsIn p s c (some (x, true)), trm⟩ ctx :=
  .term rfl .rpar rfl fun t => completes_args _ _ _ _

theorem completes_ruleR (c : RuleCtx (PTerm PSymb)) (l : PTerm PSymb) (trm : TState PSymb) (ctx : PCtx PSymb) :
    Completes ⟨.ruleR c l, trm⟩ ctx := .term rfl .dot rfl fun t => trivial

theorem completes_ruleL (c : RuleCtx (PTerm PSymb)) (trm : TState PSymb) (ctx : PCtx PSymb) (h : ctx.bound ≠ []) :
    Completes ⟨.ruleL c, trm⟩ ctx := by
  refine .term rfl .longArrow rfl fun t => ?_
  cases hb : ctx.bound with
  | nil => exact absurd hb h
  | cons b bs => exact completes_ruleR _ _ _ _

/-- what is read without error can be continued -/
theorem completes_safe {st : PState PSymb} {ctx : PCtx PSymb} (h : st.Safe ctx) : Completes st ctx := by
  obtain ⟨cmd, trm⟩ := st
  obtain ⟨⟨h1, h2⟩, h3⟩ := h
  have argsIn (p s c x ctx) : Completes ⟨.argsIn p s c (some (x, false)), .init⟩ ctx :=
    .step .colon rfl (completes_argsIn _ _ _ _ _ _)
  rcases cmd with _ | p | ⟨p, s, c, _ | _ | _⟩ | ⟨p, s, c, _ | ⟨x, _ | _⟩⟩ | ⟨p, s, c, ty⟩ | ⟨c, _ | ⟨x, _ | _⟩⟩ | c | ⟨c, l⟩ | _ | c
  · obtain rfl : trm = .init := h2 rfl
    exact completes_new _
  · obtain rfl : trm = .init := h2 rfl
    exact .step (nameTok []) rfl (completes_args _ _ _ _)
  · obtain rfl : trm = .init := h2 rfl
    exact completes_args _ _ _ _
  · exact completes_of _ _ _ _ _
  · obtain rfl : p = some .def_ := h3
    exact .term rfl .dot rfl fun t => trivial
  · obtain rfl : trm = .init := h2 rfl
    exact .step (nameTok []) rfl (argsIn _ _ _ _ _)
  · obtain rfl : trm = .init := h2 rfl
    exact argsIn _ _ _ _ _
  · exact completes_argsIn _ _ _ _ _ _
  · exact completes_ofEq h3 _ _ _ _ _
  · obtain rfl : trm = .init := h2 rfl
    exact .step .rbrk rfl (completes_ruleL _ _ _ (List.cons_ne_nil _ _))
  · obtain rfl : trm = .init := h2 rfl
    exact .step .rbrk rfl (completes_ruleL _ _ _ (List.cons_ne_nil _ _))
  · exact .term rfl .rbrk rfl fun t => completes_ruleL _ _ _ (List.cons_ne_nil _ _)
  · exact completes_ruleL _ _ _ h3
  · exact completes_ruleR _ _ _ _
  · obtain rfl : trm = .init := h2 rfl
    exact .step .dot rfl (completes_new _)
  · exact absurd rfl (h1 c)

/-! ## Texts -/

/-- a run does not end in an error -/
def goes (st : PState PSymb) (ctx : PCtx PSymb) (ts : List Token) : Bool := match (pRun scopeSymb st ctx ts).2 with
  | .more _ _ => true
  | _ => false

theorem viable_goes {ts : List Token} (h : Viable ts) : goes PState.new PCtx.new ts = true := by
  obtain ⟨us, cs, h⟩ := h
  have h := text_run h
  rw [pRun_append] at h
  unfold goes
  revert h
  cases pRun scopeSymb PState.new PCtx.new ts with
  | mk cs r => cases r <;> intro h <;> first | rfl | cases h

theorem goes_viable {ts : List Token} (h : goes PState.new PCtx.new ts = true) : Viable (ts.filter Token.plain) := by
  have hs := pRun_safe scopeSymb PState.new PCtx.new ts (PState.new_safe _)
  unfold goes at h
  cases hr : pRun scopeSymb PState.new PCtx.new ts with
  | mk cs r =>
    rw [hr] at h hs
    cases r with
    | err => cases h
    | panic => cases h
    | more st ctx =>
      obtain ⟨us, ds, ctx', hu⟩ := completes_safe hs
      refine ⟨us.filter Token.plain, cs ++ ds, ?_⟩
      rw [← List.filter_append]
      refine (pRun_iff _ _).1 ⟨PState.new, ctx', ?_, rfl⟩
      rw [pRun_append, hr]
      simp only [PEnd.andThen, hu]

theorem viable_iff {ts : List Token} (h : ts.filter Token.plain = ts) : Viable ts ↔ goes PState.new PCtx.new ts = true :=
  ⟨viable_goes, fun hg => h ▸ goes_viable hg⟩

/-- what may follow -/
theorem viable_append {pre : List Token} (hp : pre.filter Token.plain = pre) {cs : List (PCmd (PTerm PSymb))} {st : PState PSymb} {ctx : PCtx PSymb}
    (hr : pRun scopeSymb PState.new PCtx.new pre = (cs, .more st ctx)) {us : List Token} (hu : us.filter Token.plain = us) :
    Viable (pre ++ us) ↔ goes st ctx us = true := by
  rw [viable_iff (by rw [List.filter_append, hp, hu])]
  unfold goes
  rw [pRun_append, hr]
  rfl

end Kontroli
