import Verif.Proofs.ParseClean
import Verif.Spec.Scope

/-! # The scoping parser simulates the parser without scopes -/

namespace Kontroli

/-! ## Terms -/

section
variable {A : Type}

/-- the binders that are open -/
def stackEnv : List (Cont A) → List (Option Str)
  | [] => []
  | .abst x _ :: st => some x :: stackEnv st
  | .prod x _ :: st => x :: stackEnv st
  | .lpar _ :: st => stackEnv st

/-- the binders around the current position -/
def PCtx.env (ctx : PCtx A) : List (Option Str) := stackEnv ctx.stack ++ teleEnv ctx.bound

theorem findBound_eq (s : Str) (l : List Str) (i : Nat) : findBound s l i = ((l.map some).findIdx? (fun o => decide (o = some s))).map (· + i) := by
  induction l generalizing i with
  | nil => rfl
  | cons x l ih =>
    rw [findBound, List.map_cons, List.findIdx?_cons]
    by_cases h : x = s
    · simp [h]
    · simp only [h, if_false, ih, Option.some.injEq, decide_eq_true_eq, Option.map_map]
      congr 1
      funext n
      simp only [Function.comp]
      omega

theorem findStack_eq (s : Str) (st : List (Cont A)) (l : List Str) (i : Nat) : (match findStack s st i with
    | .inl i => some i
    | .inr i => findBound s l i) = ((stackEnv st ++ l.map some).findIdx? (fun o => decide (o = some s))).map (· + i) := by
  induction st generalizing i with
  | nil => exact findBound_eq s l i
  | cons c st ih =>
    have hs : ∀ (r : List (Option Str)), (Option.map (fun i => i + 1) (r.findIdx? (fun o => decide (o = some s)))).map (· + i) =
        (r.findIdx? (fun o => decide (o = some s))).map (· + (i + 1)) := by
      intro r
      rw [Option.map_map]
      congr 1
      funext n
      simp only [Function.comp]
      omega
    have hx : ∀ x, (match (if x = s then Sum.inl i else findStack s st (i + 1)) with
        | .inl i => some i
        | .inr i => findBound s l i) = ((some x :: (stackEnv st ++ l.map some)).findIdx? (fun o => decide (o = some s))).map (· + i) := by
      intro x
      rw [List.findIdx?_cons]
      by_cases h : x = s
      · simp [h]
      · simp only [h, if_false, Option.some.injEq, decide_eq_true_eq, hs]
        exact ih (i + 1)
    cases c with
    | abst x ty => exact hx x
    | prod x ty =>
      cases x with
      | some x => exact hx x
      | none =>
        refine (ih (i + 1)).trans ?_
        show _ = ((none :: (stackEnv st ++ l.map some)).findIdx? (fun o => decide (o = some s))).map (· + i)
        rw [List.findIdx?_cons, ← hs]
        rfl
    | lpar l' => exact ih i

theorem find_env (ctx : PCtx A) (s : Str) : ctx.find s = binderOf ctx.env s := by
  have := findStack_eq s ctx.stack ctx.bound.reverse 0
  rw [PCtx.find, binderOf, PCtx.env, teleEnv, ← List.map_reverse]
  have h0 : ∀ o : Option Nat, o.map (· + 0) = o := fun o => by cases o <;> rfl
  rw [h0] at this
  rw [← this]
  cases findStack s ctx.stack 0 <;> rfl

end

/-- the names in an open construct resolved -/
def Cont.scope (env : List (Option Str)) : Cont PSymb → Cont Atom
  | .abst x ty => .abst x (ty.map (PTerm.scope env))
  | .prod x ty => .prod x (ty.scope env)
  | .lpar l => .lpar ⟨l.x, l.app.map (PTerm.scope env)⟩

/-- the names in the open constructs resolved -/
def scopeStack (b : List (Option Str)) : List (Cont PSymb) → List (Cont Atom)
  | [] => []
  | c :: st => c.scope (stackEnv st ++ b) :: scopeStack b st

theorem stackEnv_scope (b : List (Option Str)) (st : List (Cont PSymb)) : stackEnv (scopeStack b st) = stackEnv st := by
  induction st with
  | nil => rfl
  | cons c st ih => cases c <;> simp [scopeStack, Cont.scope, stackEnv, ih]

/-- the context with its names resolved -/
def PCtx.scope (ctx : PCtx PSymb) : PCtx Atom := ⟨ctx.bound, scopeStack (teleEnv ctx.bound) ctx.stack⟩

theorem env_scope (ctx : PCtx PSymb) : ctx.scope.env = ctx.env := by
  simp only [PCtx.env, PCtx.scope, stackEnv_scope]

/-- the term being parsed with its names resolved -/
def TState.scope (env : List (Option Str)) : TState PSymb → TState Atom
  | .init => .init
  | .symb s => .symb s
  | .varof v => .varof v
  | .aterm x t => .aterm x (t.scope env)

/-- the result of a step with its names resolved -/
def TRes.scope : TRes PSymb → TRes Atom
  | .more st ctx => .more (st.scope ctx.env) ctx.scope
  | .done t ctx => .done (t.scope ctx.env) ctx.scope
  | .err e ctx => .err e ctx.scope

theorem scopeAtom_eq (s : PSymb) (ctx : PCtx PSymb) : scopeAtom s ctx.scope = resolve ctx.env s := by
  rw [scopeAtom, resolve, find_env, env_scope]
  cases s.path <;> rfl

theorem scopeGo_eq (s : PSymb) (ctx : PCtx PSymb) : scopeGo scopeAtom s ctx.scope = (scopeGo scopeSymb s ctx).scope ctx.env := by
  rw [scopeGo, scopeAtom_eq]
  rfl

theorem scopeArgs_append (env : List (Option Str)) (as bs : List (PTerm PSymb)) : scopeArgs env (as ++ bs) = scopeArgs env as ++ scopeArgs env bs := by
  induction as with
  | nil => rfl
  | cons a as ih => simp [scopeArgs, ih]

theorem scope_pushArg (env : List (Option Str)) (t u : PTerm PSymb) : (t.pushArg u).scope env = (t.scope env).pushArg (u.scope env) := by
  cases t with
  | app h args => simp [PTerm.pushArg, PTerm.scope, scopeArgs_append, scopeArgs]

theorem scope_abst (env : List (Option Str)) (x : Str) (ty : Option (PTerm PSymb)) (t : PTerm PSymb) :
    (PTerm.new (.abst x ty t)).scope env = .new (.abst x (ty.map (PTerm.scope env)) (t.scope (some x :: env))) := by
  cases ty <;> rfl

theorem reduce_scope (b : List (Option Str)) (st : List (Cont PSymb)) (t : PTerm PSymb) :
    reduceStack (scopeStack b st) (t.scope (stackEnv st ++ b)) = match reduceStack st t with
      | (l, t', st') => (l.map fun l => ⟨l.x, l.app.map (PTerm.scope (stackEnv st' ++ b))⟩, t'.scope (stackEnv st' ++ b), scopeStack b st') := by
  induction st generalizing t with
  | nil => rfl
  | cons c st ih =>
    cases c with
    | abst x ty =>
      simp only [scopeStack, Cont.scope, reduceStack, stackEnv, List.cons_append]
      rw [← scope_abst]
      exact ih _
    | prod x ty =>
      simp only [scopeStack, Cont.scope, reduceStack, stackEnv, List.cons_append]
      exact ih (.new (.prod x ty t))
    | lpar l => rfl

theorem closeStep_scope (app : PTerm PSymb) (ctx : PCtx PSymb) (tok : Token) :
    closeStep (app.scope ctx.env) ctx.scope tok = (closeStep app ctx tok).scope := by
  have h := reduce_scope (teleEnv ctx.bound) ctx.stack app
  rw [closeStep, closeStep]
  have e : ctx.scope.stack = scopeStack (teleEnv ctx.bound) ctx.stack := rfl
  have e2 : ctx.env = stackEnv ctx.stack ++ teleEnv ctx.bound := rfl
  rw [e, e2, h]
  cases hr : reduceStack ctx.stack app with
  | mk l p =>
    obtain ⟨t', st'⟩ := p
    cases l with
    | none => rfl
    | some l =>
      simp only [Option.map_some]
      split
      · simp only [TRes.scope, TState.scope, PCtx.env]
        obtain ⟨x, _ | app⟩ := l
        · rfl
        · simp only [Option.map_some, scope_pushArg]
          rfl
      · rfl

theorem push_scope (ctx : PCtx PSymb) (c : Cont PSymb) : (ctx.push c).scope = ctx.scope.push (c.scope ctx.env) := rfl

theorem atermStep_scope (x : Option Str) (app : PTerm PSymb) (ctx : PCtx PSymb) (tok : Token) :
    atermStep scopeAtom x (app.scope ctx.env) ctx.scope tok = (atermStep scopeSymb x app ctx tok).scope := by
  have hc := closeStep_scope app ctx
  cases tok with
  | symb s => simp only [atermStep, scopeGo_eq, TRes.scope, TState.scope, scope_pushArg]
  | arrow => rfl
  | fatArrow => cases x <;> rfl
  | lpar => rfl
  | _ =>
    cases x with
    | some x => rfl
    | none => exact hc _

theorem tstep_symb {A : Type} (sc : ScopeFn A) (ctx : PCtx A) (tok : Token) (s : Str) (h1 : tok ≠ .fatArrow) (h2 : tok ≠ .colon) :
    tstep sc ctx tok (.symb s) = atermStep sc none (scopeGo sc (PSymb.new s) ctx) ctx tok := by
  cases tok <;> first | rfl | (exact absurd rfl h1) | (exact absurd rfl h2)

theorem tstep_scope (ctx : PCtx PSymb) (tok : Token) (st : TState PSymb) :
    tstep scopeAtom ctx.scope tok (st.scope ctx.env) = (tstep scopeSymb ctx tok st).scope := by
  cases st with
  | init =>
    cases tok with
    | symb s =>
      simp only [TState.scope, tstep, symbState, scopeGo_eq]
      split <;> rfl
    | _ => rfl
  | symb s =>
    have h := fun tok => atermStep_scope none (scopeGo scopeSymb (PSymb.new s) ctx) ctx tok
    simp only [← scopeGo_eq] at h
    by_cases h1 : tok = .fatArrow
    · subst h1; rfl
    by_cases h2 : tok = .colon
    · subst h2; rfl
    rw [TState.scope, tstep_symb _ _ _ _ h1 h2, tstep_symb _ _ _ _ h1 h2]
    exact h tok
  | varof v =>
    cases tok with
    | symb s => simp only [TState.scope, tstep, scopeGo_eq, TRes.scope]
    | _ => rfl
  | aterm x app => exact atermStep_scope x app ctx tok

/-! ## Commands -/

/-- the types of variables, with their names resolved -/
def scopeTys {T T' : Type} (f : List (Option Str) → T → T') (names : List Str) (tys : List T) : List T' :=
  (scopeTele f [] (names.zip tys)).map Prod.snd

/-- the rules being parsed, with their names resolved -/
def RuleCtx.scope (bound : List Str) (c : RuleCtx (PTerm PSymb)) : RuleCtx (PTerm Atom) :=
  ⟨c.rules.map PRule.scope, scopeTys (fun env ty => ty.map (PTerm.scope env)) bound c.vars⟩

/-- the command being parsed, with its names resolved -/
def CState.scope (bound : List Str) : CState (PTerm PSymb) → CState (PTerm Atom)
  | .init => .init
  | .prefix_ p => .prefix_ p
  | .args p s c o => .args p s (scopeTys PTerm.scope bound c) o
  | .argsIn p s c x => .argsIn p s (scopeTys PTerm.scope bound c) x
  | .ofEq p s c ty => .ofEq p s (scopeTys PTerm.scope bound c) (ty.scope (teleEnv bound))
  | .ruleCtx c x => .ruleCtx (c.scope bound) x
  | .ruleL c => .ruleL (c.scope bound.tail)
  | .ruleR c lhs => .ruleR (c.scope bound) (lhs.scope (teleEnv bound ++ [some (str "_")]))
  | .pragma => .pragma
  | .command c => .command c.scope

theorem scopeTele_append {T T' : Type} (f : List (Option Str) → T → T') (env : List (Option Str)) (l : List (Str × T)) (x : Str) (t : T) :
    scopeTele f env (l ++ [(x, t)]) = scopeTele f env l ++ [(x, f (teleEnv (l.map Prod.fst) ++ env) t)] := by
  induction l generalizing env with
  | nil => rfl
  | cons a l ih =>
    obtain ⟨y, u⟩ := a
    simp only [List.cons_append, scopeTele, ih, teleEnv, List.map_cons, List.reverse_cons, List.append_assoc, List.nil_append]

theorem zip_append_one {α β : Type} {l : List α} {m : List β} (h : l.length = m.length) (a : α) (b : β) :
    (l ++ [a]).zip (m ++ [b]) = l.zip m ++ [(a, b)] := by
  rw [List.zip_append h]; rfl

theorem scopeTys_append {T T' : Type} (f : List (Option Str) → T → T') {b : List Str} {c : List T} (h : b.length = c.length) (x : Str) (t : T) :
    scopeTys f (b ++ [x]) (c ++ [t]) = scopeTys f b c ++ [f (teleEnv b) t] := by
  rw [scopeTys, zip_append_one h, scopeTele_append, List.map_append, List.map_fst_zip (by omega), List.append_nil]
  rfl

theorem scopeTele_fst {T T' : Type} (f : List (Option Str) → T → T') (env : List (Option Str)) (l : List (Str × T)) :
    (scopeTele f env l).map Prod.fst = l.map Prod.fst := by
  induction l generalizing env with
  | nil => rfl
  | cons a l ih => simp [scopeTele, ih]

theorem zip_scopeTys {T T' : Type} (f : List (Option Str) → T → T') {b : List Str} {c : List T} (h : b.length = c.length) :
    b.zip (scopeTys f b c) = scopeTele f [] (b.zip c) := by
  have hz : ∀ l : List (Str × T'), (l.map Prod.fst).zip (l.map Prod.snd) = l := by
    intro l
    induction l with
    | nil => rfl
    | cons a l ih => rw [List.map_cons, List.map_cons, List.zip_cons_cons, ih]
  have h1 := hz (scopeTele f [] (b.zip c))
  rw [scopeTele_fst, List.map_fst_zip (by omega)] at h1
  exact h1

theorem pushVar_scope {b : List Str} {c : RuleCtx (PTerm PSymb)} (h : b.length = c.vars.length) (x : Str) (ty : Option (PTerm PSymb)) :
    (c.pushVar ty).scope (b ++ [x]) = (c.scope b).pushVar (ty.map (PTerm.scope (teleEnv b))) := by
  simp only [RuleCtx.pushVar, RuleCtx.scope, scopeTys_append _ h]

theorem add_scope {b : List Str} {c : RuleCtx (PTerm PSymb)} (h : b.length = c.vars.length) (lhs rhs : PTerm PSymb) :
    (c.scope b).add b (lhs.scope (teleEnv b ++ [some (str "_")])) (rhs.scope (teleEnv b)) = (c.add b lhs rhs).scope [] := by
  simp only [RuleCtx.add, RuleCtx.scope, zip_scopeTys _ h, List.map_append, List.map_cons, List.map_nil, PRule.scope,
    List.map_fst_zip (show b.length ≤ c.vars.length by omega)]
  rfl

/-- the outcome of a step with its names resolved -/
def scopeOut : POut CmdError (CState (PTerm PSymb)) × List Str → POut CmdError (CState (PTerm Atom)) × List Str
  | (.ok st, b) => (.ok (st.scope b), b)
  | (.err e, b) => (.err e, b)
  | (.panic, b) => (.panic, b)

theorem applyName_scope (st : CState (PTerm PSymb)) (b : List Str) (n : Str) (h : st.Clean b) :
    ((st.scope b).applyName n, b) = scopeOut (st.applyName n, b) := by
  rcases st with _ | _ | ⟨_, _, _, _ | _⟩ | ⟨_, _, _, _ | _⟩ | _ | ⟨_, _ | _⟩ | _ | _ | _ | _ <;>
    first | rfl | (have h : b = [] := h; subst h; rfl)

theorem parse_scope (st : CState (PTerm PSymb)) (b : List Str) (tok : Token) (h : st.Clean b) :
    (st.scope b).parse b tok = scopeOut (st.parse b tok) := by
  have hs : ∀ s : PSymb, (if s.path.isEmpty then ((st.scope b).applyName s.name, b) else (.err .unexpectedPath, b)) =
      scopeOut (if s.path.isEmpty then (st.applyName s.name, b) else (.err .unexpectedPath, b)) := by
    intro s
    split
    · exact applyName_scope st b _ h
    · rfl
  rcases st with _ | _ | ⟨_ | _ | _ | _, _, _, _ | _ | _⟩ | ⟨_, _, _, _ | ⟨_, _ | _⟩⟩ | ⟨_ | _ | _ | _, _, _, _⟩ | ⟨c, _ | ⟨x, _ | _⟩⟩ | _ | _ | _ | _ <;> cases tok <;>
    first
    | rfl
    | exact hs _
    | (have h : b = [] := h; subst h; rfl)
    | (have h : b.length = c.vars.length := h
       simp only [CState.parse, CState.scope, scopeOut, rulel, List.tail_cons, pushVar_scope h]
       rfl)

theorem teleEnv_cons (x : Str) (b : List Str) : teleEnv (x :: b) = teleEnv b ++ [some x] := by simp [teleEnv]

theorem teleEnv_zip {T : Type} {b : List Str} {c : List T} (h : b.length = c.length) : teleEnv ((b.zip c).map Prod.fst) = teleEnv b := by
  rw [List.map_fst_zip (by omega)]

theorem apply_scope (st : CState (PTerm PSymb)) (b : List Str) (tm : PTerm PSymb) (tok : Token) (h : st.Clean b) :
    (st.scope b).apply b (tm.scope (teleEnv b)) tok = scopeOut (st.apply b tm tok) := by
  rcases st with _ | _ | ⟨_ | _ | _ | _, _, c, _ | _ | _⟩ | ⟨_, _, c, _ | ⟨_, _ | _⟩⟩ | ⟨_ | _ | _ | _, _, c, _⟩ | ⟨c, _ | ⟨x, _ | _⟩⟩ | c | ⟨c, _⟩ | _ | _ <;> cases tok <;>
    first
    | rfl
    | (have h : b.length = c.length := h
       simp only [CState.apply, CState.close, CState.scope, scopeOut, scopeTys_append _ h, zip_scopeTys _ h, PCmd.scope, Intro.scope, teleEnv_zip h,
         Option.map_some, Option.map_none])
    | (have h : b.length = c.vars.length := h
       simp only [CState.apply, CState.close, CState.scope, scopeOut, add_scope h, rulel, List.tail_cons, pushVar_scope h, Option.map_some]; done)
    | (have h : b.length = c.vars.length := h
       simp only [CState.apply, CState.close, CState.scope, scopeOut, add_scope h, PCmd.scope]
       rfl)
    | (obtain ⟨b', rfl, h⟩ := h
       simp only [CState.apply, CState.scope, scopeOut, teleEnv_cons, List.tail_cons]
       done)
    | (obtain ⟨b', rfl, h⟩ := h
       simp only [CState.apply, CState.scope, scopeOut, teleEnv_cons, List.tail_cons]
       rfl)

/-- a state of the parser with its names resolved -/
def PState.scope (ctx : PCtx PSymb) (st : PState PSymb) : PState Atom := ⟨st.cmd.scope ctx.bound, st.trm.scope ctx.env⟩

/-- the result of a step with its names resolved -/
def PRes.scope : PRes PSymb → PRes Atom
  | .more st ctx => .more (st.scope ctx) ctx.scope
  | .cmd c ctx => .cmd c.scope ctx.scope
  | .err e ctx => .err e ctx.scope
  | .panic ctx => .panic ctx.scope

theorem expectsTerm_scope (b : List Str) (st : CState (PTerm PSymb)) : (st.scope b).expectsTerm = st.expectsTerm := by
  rcases st with _ | _ | ⟨_, _, _, _ | _⟩ | ⟨_, _, _, _ | ⟨_, _ | _⟩⟩ | _ | ⟨_, _ | ⟨_, _ | _⟩⟩ | _ | _ | _ | _ <;> rfl

theorem scope_empty (b : List Str) : (⟨b, []⟩ : PCtx PSymb).scope = ⟨b, []⟩ := rfl

theorem env_empty (b : List Str) : (⟨b, []⟩ : PCtx PSymb).env = teleEnv b := rfl

theorem cmdRes_scope {ctx : PCtx PSymb} (h : ctx.stack = []) (r : POut CmdError (CState (PTerm PSymb)) × List Str) :
    cmdRes ctx.scope (scopeOut r) = (cmdRes ctx r).scope := by
  obtain ⟨bound, stack⟩ := ctx
  have h : stack = [] := h
  subst h
  obtain ⟨r, b⟩ := r
  cases r with
  | ok st => cases st <;> rfl
  | err e => rfl
  | panic => rfl

theorem pstep_scope (ctx : PCtx PSymb) (st : PState PSymb) (tok : Token) (h : st.Clean ctx) :
    pstep scopeAtom ctx.scope (st.scope ctx) tok = (pstep scopeSymb ctx st tok).scope := by
  unfold pstep
  simp only [PState.scope, expectsTerm_scope]
  cases he : st.cmd.expectsTerm with
  | true =>
    simp only [if_true]
    rw [tstep_scope]
    have hb := tstep_bound scopeSymb ctx tok st.trm
    cases ht : tstep scopeSymb ctx tok st.trm with
    | more trm ctx' =>
      rw [ht] at hb
      have hb : ctx'.bound = ctx.bound := hb
      simp only [TRes.scope, PRes.scope, PState.scope, hb]
    | done t ctx' =>
      rw [ht] at hb
      have hb : ctx'.bound = ctx.bound := hb
      have hst := tstep_done ht
      obtain ⟨b', st'⟩ := ctx'
      have hst : st' = [] := hst
      subst hst
      simp only [TRes.scope]
      have hb : b' = ctx.bound := hb
      subst hb
      rw [← cmdRes_scope rfl, ← apply_scope _ _ _ _ h.1]
      rfl
    | err e ctx' => rfl
  | false =>
    cases hi : st.trm with
    | init =>
      simp only [Bool.false_eq_true, if_false, TState.scope]
      rw [← cmdRes_scope (h.2 ⟨hi, he⟩), ← parse_scope _ _ _ h.1]
      rfl
    | _ => rfl

/-- the end of a run with its names resolved -/
def PEnd.scope : PEnd PSymb → PEnd Atom
  | .more st ctx => .more (st.scope ctx) ctx.scope
  | .err e ctx => .err e ctx.scope
  | .panic ctx => .panic ctx.scope

theorem pRun_scope (st : PState PSymb) (ctx : PCtx PSymb) (ts : List Token) (h : st.Clean ctx) :
    pRun scopeAtom (st.scope ctx) ctx.scope ts = ((pRun scopeSymb st ctx ts).1.map PCmd.scope, (pRun scopeSymb st ctx ts).2.scope) := by
  induction ts generalizing st ctx with
  | nil => rfl
  | cons tok ts ih =>
    rcases hp : tok.plain with _ | _
    · obtain ⟨o, rfl⟩ := Token.not_plain hp
      rw [pRun_comment, pRun_comment]
      exact ih st ctx h
    · rw [pRun_cons _ _ _ _ _ hp, pRun_cons _ _ _ _ _ hp, pstep_scope _ _ _ h]
      have hc := pstep_clean (sc := scopeSymb) (tok := tok) h
      cases hs : pstep scopeSymb ctx st tok with
      | more st1 ctx1 =>
        rw [hs] at hc
        exact ih st1 ctx1 hc
      | cmd c ctx1 =>
        rw [hs] at hc
        simp only at hc
        subst hc
        have := ih PState.new PCtx.new PState.new_clean
        rw [show (PState.new : PState PSymb).scope PCtx.new = PState.new from rfl] at this
        simp only [PRes.scope, this, List.map_cons]
      | err e ctx1 => rfl
      | panic ctx1 => rfl

theorem upToError_ok {ε C : Type} (cs : List C) (l : List (POut ε C)) : upToError (cs.map .ok ++ l) = cs.map .ok ++ upToError l := by
  induction cs with
  | nil => rfl
  | cons c cs ih => simp [upToError, ih]

theorem pItems_scope (seen : Bool) (st : PState PSymb) (ctx : PCtx PSymb) (ts : List Token) (h : st.Clean ctx) :
    upToError (pItems scopeAtom seen (st.scope ctx) ctx.scope ts) = (upToError (pItems scopeSymb seen st ctx ts)).map scopeItem := by
  induction ts generalizing seen st ctx with
  | nil => cases seen <;> rfl
  | cons tok ts ih =>
    rcases hp : tok.plain with _ | _
    · obtain ⟨o, rfl⟩ := Token.not_plain hp
      rw [pItems, pItems]
      split
      · rfl
      · exact ih true st ctx h
    · rw [pItems_cons _ _ _ _ _ _ hp, pItems_cons _ _ _ _ _ _ hp, pstep_scope _ _ _ h]
      have hc := pstep_clean (sc := scopeSymb) (tok := tok) h
      cases hs : pstep scopeSymb ctx st tok with
      | more st1 ctx1 =>
        rw [hs] at hc
        exact ih true st1 ctx1 hc
      | cmd c ctx1 =>
        rw [hs] at hc
        simp only at hc
        subst hc
        have := ih false PState.new PCtx.new PState.new_clean
        rw [show (PState.new : PState PSymb).scope PCtx.new = PState.new from rfl, show (PCtx.new : PCtx PSymb).scope = PCtx.new from rfl] at this
        simp only [PRes.scope, upToError, List.map_cons, scopeItem]
        rw [← this]
        rfl
      | err e ctx1 => rfl
      | panic ctx1 => rfl

theorem lazyRun_scope (lines : List Str) (opened : Nat) (st : PState PSymb) (ctx : PCtx PSymb) (h : st.Clean ctx) :
    lazyRun scopeAtom lines opened (st.scope ctx) ctx.scope =
      ((lazyRun scopeSymb lines opened st ctx).1.map PCmd.scope, (lazyRun scopeSymb lines opened st ctx).2) := by
  induction lines generalizing opened st ctx with
  | nil =>
    simp only [lazyRun, List.map_nil, lazyEnd, PState.scope]
    rcases st with ⟨_ | _ | _ | _ | _ | _ | _ | _ | _ | _, _⟩ <;> rfl
  | cons line lines ih =>
    rw [lazyRun, lazyRun, pRun_scope _ _ _ h]
    cases hr : pRun scopeSymb st ctx (lexFrom opened line) with
    | mk cs e =>
      cases e with
      | more st' ctx' =>
        have := ih (openOf (lexFrom opened line)) st' ctx' (pRun_clean _ _ _ _ h hr)
        simp only [PEnd.scope, this, List.map_append]
      | err e ctx' => rfl
      | panic ctx' => rfl

theorem upToError_take {ε C : Type} {l : List (POut ε C)} {cs : List C} {e : POut ε C} {n : Nat} (he : ∀ c, e ≠ .ok c) (hn : l.length ≤ n)
    (h : l.take (cs.length + 1) = (cs.map POut.ok ++ [e]).take n) : upToError l = (cs.map POut.ok ++ [e]).take n := by
  induction cs generalizing l n with
  | nil =>
    cases n with
    | zero =>
      cases l with
      | nil => rfl
      | cons a l => simp at hn
    | succ n =>
      cases l with
      | nil => simp at h
      | cons a l =>
        simp at h ⊢
        subst h
        cases a with
        | ok c => exact absurd rfl (he c)
        | err e => rfl
        | panic => rfl
  | cons c cs ih =>
    cases n with
    | zero =>
      cases l with
      | nil => rfl
      | cons a l => simp at hn
    | succ n =>
      cases l with
      | nil => simp at h
      | cons a l =>
        simp only [List.length_cons, List.take_succ_cons, List.map_cons, List.cons_append, List.cons.injEq] at h ⊢
        obtain ⟨rfl, h⟩ := h
        simp only [upToError, List.cons.injEq, true_and]
        exact ih (by simpa using hn) h

theorem items_scope (lines : List Str) (n : Nat) : upToError ((LazyP.new lines).items scopeAtom n) =
    (upToError ((LazyP.new lines).items scopeSymb n)).map scopeItem := by
  have h1 := items_run scopeAtom lines n 0 PState.new PCtx.new PState.new_open
  have h2 := items_run scopeSymb lines n 0 PState.new PCtx.new PState.new_open
  have h3 := lazyRun_scope lines 0 PState.new PCtx.new PState.new_clean
  rw [show (PState.new : PState PSymb).scope PCtx.new = PState.new from rfl, show (PCtx.new : PCtx PSymb).scope = PCtx.new from rfl] at h3
  have l1 := items_length scopeAtom n (LazyP.new lines)
  have l2 := items_length scopeSymb n (LazyP.new lines)
  have hm : ∀ cs : List (PCmd (PTerm PSymb)), ((cs.map POut.ok).map scopeItem) = (cs.map PCmd.scope).map POut.ok := by
    intro cs
    rw [List.map_map, List.map_map]
    rfl
  cases hr : lazyRun scopeSymb lines 0 PState.new PCtx.new with
  | mk cs e =>
    rw [hr] at h2 h3
    rw [h3] at h1
    cases e with
    | none =>
      simp only at h1 h2
      have e1 : (LazyP.new lines).items scopeAtom n = _ := h1
      have e2 : (LazyP.new lines).items scopeSymb n = _ := h2
      have hk : ∀ {ε C : Type} (cs : List C), upToError (cs.map (POut.ok (ε := ε))) = cs.map .ok := fun cs => by
        induction cs with
        | nil => rfl
        | cons c cs ih => simp [upToError, ih]
      rw [e1, e2]
      simp only [← List.map_take, hk, hm]
    | some e =>
      simp only at h1 h2
      have he : ∀ {A : Type} (c : PCmd (PTerm A)), failOut e ≠ .ok c := by
        intro A c
        cases e <;> intro h <;> cases h
      have e1 := upToError_take he l1 h1
      have e2 := upToError_take he l2 h2
      rw [e1, e2, List.map_take, List.map_append, hm]
      cases e <;> rfl

end Kontroli
