import Verif.Model.Lex

/-!
# The parser (`dedukti-parse/src/{term,cmd,lib}.rs`)

`Vec`s that serve as stacks of open constructs are lists whose head is the last element; the vector of bound variables is a list in
the order of the vector.  `&mut` parameters are returned, also in case of error, since parsing goes on after an error.
An iterator over tokens is the list of the tokens to come.  The parser is parametric in the type `A` of atoms and in the scoping
function `Scope::scope`.
-/

namespace Kontroli

/-- `dedukti-parse/src/term.rs` L78-84 (`Error`). -/
inductive TermError where
  | expectedIdentOrLPar
  | anonymousLambda
  | abstWithoutRhs
  | unclosedLPar
  deriving Repr, DecidableEq

/-- `dedukti-parse/src/cmd.rs` L154-165 (`Error`). -/
inductive CmdError where
  | expectedColon
  | expectedColonEq
  | expectedColonOrColonEq
  | expectedLongArrow
  | expectedIdent
  | expectedCommaOrRBrk
  | expectedRPar
  | expectedCmd
  | unexpectedPath
  | unexpectedToken
  deriving Repr, DecidableEq

/-- `dedukti-parse/src/lib.rs` L115-119 (`Error`). -/
inductive ParseError where
  | command (e : CmdError)
  | term (e : TermError)
  | expectedInput
  deriving Repr, DecidableEq

/-- The outcome of a parser function. -/
inductive POut (ε α : Type) where
  | ok (a : α)
  | err (e : ε)
  | panic

/-! ## Terms (`dedukti-parse/src/term.rs`) -/

section Terms
variable {A : Type}

/-- `dedukti-parse/src/term.rs` L100-103 (`LPar`). -/
structure LPar (A : Type) where
  x : Option Str
  app : Option (PTerm A)

/-- `dedukti-parse/src/term.rs` L107-116 (`State`). -/
inductive TState (A : Type) where
  | init
  | symb (s : Str)
  | varof (v : Str)
  | aterm (x : Option Str) (t : PTerm A)

/-- `dedukti-parse/src/term.rs` L135-146 (`Cont`). -/
inductive Cont (A : Type) where
  | abst (x : Str) (ty : Option (PTerm A))
  | prod (x : Option Str) (ty : PTerm A)
  | lpar (l : LPar A)

/-- `dedukti-parse/src/term.rs` L150-155 (`Ctx`). -/
structure PCtx (A : Type) where
  bound : List Str
  stack : List (Cont A)

/-- `Ctx::default` (`dedukti-parse/src/term.rs` L204-211). -/
def PCtx.new : PCtx A := ⟨[], []⟩

/-- push on the stack of open constructs -/
def PCtx.push (ctx : PCtx A) (c : Cont A) : PCtx A := { ctx with stack := c :: ctx.stack }

/-- the loop over the stack in `Ctx::find` (`dedukti-parse/src/term.rs` L180-192): the index, or the counter after the stack -/
def findStack (s : Str) : List (Cont A) → Nat → Nat ⊕ Nat
  | [], i => .inr i
  | .abst x _ :: st, i => if x = s then .inl i else findStack s st (i + 1)
  | .prod (some x) _ :: st, i => if x = s then .inl i else findStack s st (i + 1)
  | .prod none _ :: st, i => findStack s st (i + 1)
  | .lpar _ :: st, i => findStack s st i

/-- the loop over the bound variables in `Ctx::find` (`dedukti-parse/src/term.rs` L193-199), on the reversed vector -/
def findBound (s : Str) : List Str → Nat → Option Nat
  | [], _ => none
  | x :: xs, i => if x = s then some i else findBound s xs (i + 1)

/-- `Ctx::find` (`dedukti-parse/src/term.rs` L175-201). -/
def PCtx.find (ctx : PCtx A) (s : Str) : Option Nat :=
  match findStack s ctx.stack 0 with
  | .inl i => some i
  | .inr i => findBound s ctx.bound.reverse i

/-- `Scope::scope` (`dedukti-parse/src/term.rs` L219). -/
abbrev ScopeFn (A : Type) := PSymb → PCtx A → A

/-- the trivial scoper (`dedukti-parse/src/term.rs` L228-232) -/
def scopeSymb : ScopeFn PSymb := fun s _ => s

/-- the scoper that distinguishes constants and variables (`dedukti-parse/src/term.rs` L235-246) -/
def scopeAtom : ScopeFn Atom := fun s ctx =>
  if s.path.isEmpty then
    match ctx.find s.name with
    | some v => .var v
    | none => if s.name = str "Type" then .type else .const s
  else .const s

/-- `Scope::go` (`dedukti-parse/src/term.rs` L222-224). -/
def scopeGo (sc : ScopeFn A) (s : PSymb) (ctx : PCtx A) : PTerm A := .new (.atom (sc s ctx))

/-- `Term::reduce` (`dedukti-parse/src/term.rs` L249-258) on the stack: the parenthesis found, the term and the rest of the stack -/
def reduceStack : List (Cont A) → PTerm A → Option (LPar A) × PTerm A × List (Cont A)
  | [], t => (none, t, [])
  | .abst x ty :: st, t => reduceStack st (.new (.abst x ty t))
  | .prod x ty :: st, t => reduceStack st (.new (.prod x ty t))
  | .lpar l :: st, t => (some l, t, st)

/-- the value of `ControlFlow` (`dedukti-parse/src/term.rs` L262) -/
inductive Loop (A : Type) where
  | continue_
  | break_ (st : TState A) (tok : Option Token)

/-- `State::aterm` (`dedukti-parse/src/term.rs` L343-388). -/
def pAterm (sc : ScopeFn A) : Option Str → PTerm A → PCtx A → List Token → POut TermError (Loop A) × PCtx A × List Token
  | x, app, ctx, [] => (.ok (.break_ (.aterm x app) none), ctx, [])
  | x, app, ctx, .comment o :: ts => (.ok (.break_ (.aterm x app) (some (.comment o))), ctx, ts)
  | x, app, ctx, .symb s :: ts => pAterm sc x (app.pushArg (scopeGo sc s ctx)) ctx ts
  | x, app, ctx, .arrow :: ts => (.ok .continue_, ctx.push (.prod x app), ts)
  | none, _, ctx, .fatArrow :: ts => (.err .anonymousLambda, ctx, ts)
  | some x, app, ctx, .fatArrow :: ts => (.ok .continue_, ctx.push (.abst x (some app)), ts)
  | x, app, ctx, .lpar :: ts => (.ok .continue_, ctx.push (.lpar ⟨x, some app⟩), ts)
  | some _, _, ctx, _ :: ts => (.err .abstWithoutRhs, ctx, ts)
  | none, app, ctx, tok :: ts =>
    match reduceStack ctx.stack app with
    | (some l, tm, st) =>
      if tok = .rpar then
        pAterm sc l.x (match l.app with
          | none => tm
          | some app => app.pushArg tm) { ctx with stack := st } ts
      else (.err .unclosedLPar, { ctx with stack := st }, ts)
    | (none, tm, st) => (.ok (.break_ (.aterm none tm) (some tok)), { ctx with stack := st }, ts)

/-- `State::varof` (`dedukti-parse/src/term.rs` L327-341). -/
def pVarof (sc : ScopeFn A) (v : Str) (ctx : PCtx A) : List Token → POut TermError (Loop A) × PCtx A × List Token
  | [] => (.ok (.break_ (.varof v) none), ctx, [])
  | .comment o :: ts => (.ok (.break_ (.varof v) (some (.comment o))), ctx, ts)
  | .symb s :: ts => pAterm sc (some v) (scopeGo sc s ctx) ctx ts
  | .lpar :: ts => (.ok .continue_, ctx.push (.lpar ⟨some v, none⟩), ts)
  | _ :: ts => (.err .expectedIdentOrLPar, ctx, ts)

/-- `State::symb` (`dedukti-parse/src/term.rs` L306-325). -/
def pSymb (sc : ScopeFn A) (s : PSymb) (ctx : PCtx A) (ts : List Token) : POut TermError (Loop A) × PCtx A × List Token :=
  if s.path.isEmpty then
    match ts with
    | [] => (.ok (.break_ (.symb s.name) none), ctx, [])
    | .comment o :: ts => (.ok (.break_ (.symb s.name) (some (.comment o))), ctx, ts)
    | .fatArrow :: ts => (.ok .continue_, ctx.push (.abst s.name none), ts)
    | .colon :: ts => pVarof sc s.name ctx ts
    | tok :: ts => pAterm sc none (scopeGo sc s ctx) ctx (tok :: ts)
  else pAterm sc none (scopeGo sc s ctx) ctx ts

/-- `State::init` (`dedukti-parse/src/term.rs` L289-304), with fuel. -/
def pInit (sc : ScopeFn A) : Nat → PCtx A → List Token → POut TermError (TState A × Option Token) × PCtx A × List Token
  | 0, ctx, ts => (.panic, ctx, ts)
  | n + 1, ctx, ts =>
    match ts with
    | [] => (.ok (.init, none), ctx, [])
    | .comment o :: ts => (.ok (.init, some (.comment o)), ctx, ts)
    | .symb s :: ts =>
      match pSymb sc s ctx ts with
      | (.ok .continue_, ctx, ts) => pInit sc n ctx ts
      | (.ok (.break_ st tok), ctx, ts) => (.ok (st, tok), ctx, ts)
      | (.err e, ctx, ts) => (.err e, ctx, ts)
      | (.panic, ctx, ts) => (.panic, ctx, ts)
    | .lpar :: ts => pInit sc n (ctx.push (.lpar ⟨none, none⟩)) ts
    | _ :: ts => (.err .expectedIdentOrLPar, ctx, ts)

/-- `State::resume` (`dedukti-parse/src/term.rs` L277-287). -/
def pResume (sc : ScopeFn A) : TState A → PCtx A → List Token → POut TermError (Loop A) × PCtx A × List Token
  | .init, ctx, ts => (.ok .continue_, ctx, ts)
  | .symb s, ctx, ts => pSymb sc (PSymb.new s) ctx ts
  | .varof v, ctx, ts => pVarof sc v ctx ts
  | .aterm x app, ctx, ts => pAterm sc x app ctx ts

/-- `State::parse` (`dedukti-parse/src/term.rs` L267-275).  The fuel suffices as every round of the loop of `init` consumes a
token. -/
def pTerm (sc : ScopeFn A) (st : TState A) (ctx : PCtx A) (ts : List Token) :
    POut TermError (TState A × Option Token) × PCtx A × List Token :=
  match pResume sc st ctx ts with
  | (.ok .continue_, ctx, ts) => pInit sc (ts.length + 1) ctx ts
  | (.ok (.break_ st tok), ctx, ts) => (.ok (st, tok), ctx, ts)
  | (.err e, ctx, ts) => (.err e, ctx, ts)
  | (.panic, ctx, ts) => (.panic, ctx, ts)

end Terms

/-! ## Commands (`dedukti-parse/src/cmd.rs`) -/

section Commands
variable {Tm : Type}

/-- `dedukti-parse/src/cmd.rs` L116-120 (`Prefix`). -/
inductive Prefix where
  | def_
  | thm
  | inj
  deriving Repr, DecidableEq

/-- `dedukti-parse/src/cmd.rs` L123-126 (`OfEq`). -/
inductive OfEq where
  | of
  | eq
  deriving Repr, DecidableEq

/-- `dedukti-parse/src/cmd.rs` L129-132 (`RuleCtx`). -/
structure RuleCtx (Tm : Type) where
  rules : List (PRule Tm)
  vars : List (Option Tm)

/-- `dedukti-parse/src/cmd.rs` L134-141 (`RuleCtx::default`). -/
def RuleCtx.new : RuleCtx Tm := ⟨[], []⟩

/-- `dedukti-parse/src/cmd.rs` L144-149 (`RuleCtx::add`); the bound variables are drained. -/
def RuleCtx.add (c : RuleCtx Tm) (bound : List Str) (lhs rhs : Tm) : RuleCtx Tm :=
  ⟨c.rules ++ [⟨bound.zip c.vars, lhs, rhs⟩], []⟩

/-- `ctx.vars.push(ty)` -/
def RuleCtx.pushVar (c : RuleCtx Tm) (ty : Option Tm) : RuleCtx Tm := { c with vars := c.vars ++ [ty] }

/-- `dedukti-parse/src/cmd.rs` L171-203 (`State`). -/
inductive CState (Tm : Type) where
  | init
  | prefix_ (p : Prefix)
  | args (p : Option Prefix) (s : Str) (ctx : List Tm) (o : Option OfEq)
  | argsIn (p : Option Prefix) (s : Str) (ctx : List Tm) (x : Option (Str × Bool))
  | ofEq (p : Option Prefix) (s : Str) (ctx : List Tm) (ty : Tm)
  | ruleCtx (c : RuleCtx Tm) (x : Option (Str × Bool))
  | ruleL (c : RuleCtx Tm)
  | ruleR (c : RuleCtx Tm) (lhs : Tm)
  | pragma
  | command (c : PCmd Tm)

/-- `Joker::joker` (`dedukti-parse/src/cmd.rs` L211-225). -/
def joker : Str := ['_']

/-- `State::rulel` (`dedukti-parse/src/cmd.rs` L320-323): the new state and the bound variables. -/
def rulel (bound : List Str) (c : RuleCtx Tm) : CState Tm × List Str := (.ruleL c, joker :: bound)

/-- `State::apply_name` (`dedukti-parse/src/cmd.rs` L295-306). -/
def CState.applyName (name : Str) : CState Tm → POut CmdError (CState Tm)
  | .init => .ok (.args none name [] none)
  | .prefix_ p => .ok (.args (some p) name [] none)
  | .argsIn p s c none => .ok (.argsIn p s c (some (name, false)))
  | .ruleCtx c none => .ok (.ruleCtx c (some (name, false)))
  | _ => .err .unexpectedToken

/-- `State::parse` (`dedukti-parse/src/cmd.rs` L228-293); the clauses are tried in the order of the code. -/
def CState.parse (st : CState Tm) (bound : List Str) (tok : Token) : POut CmdError (CState Tm) × List Str :=
  match st, tok with
  | .pragma, .dot => (.ok .init, bound)
  | .pragma, _ => (.ok .pragma, bound)
  | st, .symb s => if s.path.isEmpty then (st.applyName s.name, bound) else (.err .unexpectedPath, bound)
  | .init, .def_ => (.ok (.prefix_ .def_), bound)
  | .init, .thm => (.ok (.prefix_ .thm), bound)
  | .init, .inj => (.ok (.prefix_ .inj), bound)
  | .init, .lbrk => (.ok (.ruleCtx RuleCtx.new none), bound)
  | .init, .hash => (.ok .pragma, bound)
  | .init, _ => (.err .expectedCmd, bound)
  | .prefix_ _, _ => (.err .expectedIdent, bound)
  | .args p s c none, .lpar => (.ok (.argsIn p s c none), bound)
  | .args p s c none, .colon => (.ok (.args p s c (some .of)), bound)
  | .args (some .def_) s c none, .colonEq => (.ok (.args (some .def_) s c (some .eq)), bound)
  | .args (some .def_) _ _ none, _ => (.err .expectedColonOrColonEq, bound)
  | .args _ _ _ none, _ => (.err .expectedColon, bound)
  | .argsIn _ _ _ none, _ => (.err .expectedIdent, bound)
  | .argsIn p s c (some (x, false)), .colon => (.ok (.argsIn p s c (some (x, true))), bound)
  | .argsIn _ _ _ (some (_, false)), _ => (.err .expectedColon, bound)
  | .ruleCtx c none, .rbrk => (.ok (rulel bound c).1, (rulel bound c).2)
  | .ruleCtx _ none, _ => (.err .expectedCommaOrRBrk, bound)
  | .ruleCtx c (some (x, false)), .colon => (.ok (.ruleCtx c (some (x, true))), bound)
  | .ruleCtx c (some (x, false)), .comma => (.ok (.ruleCtx (c.pushVar none) none), bound ++ [x])
  | .ruleCtx c (some (x, false)), .rbrk => (.ok (rulel (bound ++ [x]) (c.pushVar none)).1, (rulel (bound ++ [x]) (c.pushVar none)).2)
  | .ruleCtx _ (some (_, false)), _ => (.err .expectedCommaOrRBrk, bound)
  | _, _ => (.err .unexpectedToken, bound)

/-- `State::expects_term` (`dedukti-parse/src/cmd.rs` L308-318). -/
def CState.expectsTerm : CState Tm → Bool
  | .args _ _ _ (some _) => true
  | .ofEq _ _ _ _ => true
  | .argsIn _ _ _ (some (_, true)) => true
  | .ruleCtx _ (some (_, true)) => true
  | .ruleL _ => true
  | .ruleR _ _ => true
  | _ => false

/-- `State::close` (`dedukti-parse/src/cmd.rs` L365-395); the assertion and `unreachable!` are panics. -/
def CState.close (bound : List Str) (tm : Tm) : CState Tm → POut CmdError (PCmd Tm) × List Str
  | .args (some .def_) x ctx (some .eq) => (.ok (.intro x (bound.zip ctx) (.definition none (some tm))), [])
  | .args _ _ _ (some .eq) => (.panic, bound)
  | .args none x ctx (some .of) => (.ok (.intro x (bound.zip ctx) (.declaration false tm)), [])
  | .args (some .inj) x ctx (some .of) => (.ok (.intro x (bound.zip ctx) (.declaration true tm)), [])
  | .args (some .def_) x ctx (some .of) => (.ok (.intro x (bound.zip ctx) (.definition (some tm) none)), [])
  | .args (some .thm) _ _ (some .of) => (.panic, bound)
  | .ofEq (some .thm) x ctx ty => (.ok (.intro x (bound.zip ctx) (.theorem_ ty tm)), [])
  | .ofEq (some .def_) x ctx ty => (.ok (.intro x (bound.zip ctx) (.definition (some ty) (some tm))), [])
  | .ofEq _ _ _ _ => (.panic, bound)
  | .ruleR c lhs => (.ok (.rules (c.add bound lhs tm).rules), [])
  | _ => (.err .expectedCmd, bound)

/-- `State::apply` (`dedukti-parse/src/cmd.rs` L325-363); `bound.remove(0)` panics if there is no bound variable. -/
def CState.apply (st : CState Tm) (bound : List Str) (tm : Tm) (tok : Token) : POut CmdError (CState Tm) × List Str :=
  match st, tok with
  | .argsIn p s ctx (some (x, true)), .rpar => (.ok (.args p s (ctx ++ [tm]) none), bound ++ [x])
  | .ruleL c, .longArrow => match bound with
    | [] => (.panic, [])
    | _ :: bound => (.ok (.ruleR c tm), bound)
  | .ruleL _, _ => (.err .expectedLongArrow, bound)
  | .ruleR c lhs, .lbrk => (.ok (.ruleCtx (c.add bound lhs tm) none), [])
  | .ruleCtx c (some (x, true)), .rbrk =>
    (.ok (rulel (bound ++ [x]) (c.pushVar (some tm))).1, (rulel (bound ++ [x]) (c.pushVar (some tm))).2)
  | .ruleCtx c (some (x, true)), .comma => (.ok (.ruleCtx (c.pushVar (some tm)) none), bound ++ [x])
  | .args (some .def_) x ctx (some .of), .colonEq => (.ok (.ofEq (some .def_) x ctx tm), bound)
  | .args (some .thm) x ctx (some .of), .colonEq => (.ok (.ofEq (some .thm) x ctx tm), bound)
  | .args (some .thm) _ _ (some _), _ => (.err .expectedColonEq, bound)
  | .argsIn _ _ _ (some (_, true)), _ => (.err .expectedRPar, bound)
  | cur, .dot => match cur.close bound tm with
    | (.ok c, bound) => (.ok (.command c), bound)
    | (.err e, bound) => (.err e, bound)
    | (.panic, bound) => (.panic, bound)
  | _, _ => (.err .unexpectedToken, bound)

end Commands

/-! ## The whole parser (`dedukti-parse/src/lib.rs`) -/

section Whole
variable {A : Type}

/-- `dedukti-parse/src/lib.rs` L165-168 (`State`). -/
structure PState (A : Type) where
  cmd : CState (PTerm A)
  trm : TState A

/-- `State::default` (`dedukti-parse/src/lib.rs` L179-186). -/
def PState.new : PState A := ⟨.init, .init⟩

/-- `State::feed` (`dedukti-parse/src/lib.rs` L191-228): the new state and the number of open comments; the context; the tokens not
yet consumed. -/
def PState.feed (sc : ScopeFn A) (st : PState A) (ctx : PCtx A) (tok : Token) (ts : List Token) :
    POut ParseError (PState A × Nat) × PCtx A × List Token :=
  if st.cmd.expectsTerm then
    match pTerm sc st.trm ctx (tok :: ts) with
    | (.ok (trm, none), ctx, ts) => (.ok (⟨st.cmd, trm⟩, 0), ctx, ts)
    | (.ok (trm, some (.comment o)), ctx, ts) => (.ok (⟨st.cmd, trm⟩, o), ctx, ts)
    | (.ok (.aterm none tm, some tok), ctx, ts) =>
      match st.cmd.apply ctx.bound tm tok with
      | (.ok cmd, bound) => (.ok (⟨cmd, .init⟩, 0), { ctx with bound := bound }, ts)
      | (.err e, bound) => (.err (.command e), { ctx with bound := bound }, ts)
      | (.panic, bound) => (.panic, { ctx with bound := bound }, ts)
    | (.ok (_, some _), ctx, ts) => (.panic, ctx, ts)
    | (.err e, ctx, ts) => (.err (.term e), ctx, ts)
    | (.panic, ctx, ts) => (.panic, ctx, ts)
  else
    match st.trm with
    | .init =>
      match tok with
      | .comment o => (.ok (st, o), ctx, ts)
      | tok => match st.cmd.parse ctx.bound tok with
        | (.ok cmd, bound) => (.ok (⟨cmd, st.trm⟩, 0), { ctx with bound := bound }, ts)
        | (.err e, bound) => (.err (.command e), { ctx with bound := bound }, ts)
        | (.panic, bound) => (.panic, { ctx with bound := bound }, ts)
    | _ => (.panic, ctx, ts)

/-- The loop of `Strict::next` (`dedukti-parse/src/lib.rs` L239-250), with fuel; `none` is the end of the loop. -/
def strictLoop (sc : ScopeFn A) : Nat → PState A → PCtx A → List Token →
    POut ParseError (Option (PCmd (PTerm A))) × PCtx A × List Token
  | 0, _, ctx, ts => (.panic, ctx, ts)
  | n + 1, st, ctx, ts =>
    match ts with
    | [] => (.ok none, ctx, [])
    | tok :: ts =>
      match st.feed sc ctx tok ts with
      | (.err e, ctx, ts) => (.err e, ctx, ts)
      | (.panic, ctx, ts) => (.panic, ctx, ts)
      | (.ok (st, o), ctx, ts) =>
        match st.cmd with
        | .command c => (.ok (some c), ctx, ts)
        | _ => if o > 0 then (.ok none, ctx, ts) else strictLoop sc n st ctx ts

/-- `Strict::next` (`dedukti-parse/src/lib.rs` L235-252): an item, if any; the context and the tokens to come. -/
def strictNext (sc : ScopeFn A) (ctx : PCtx A) (ts : List Token) :
    Option (POut ParseError (PCmd (PTerm A))) × PCtx A × List Token :=
  match strictLoop sc (ts.length + 1) PState.new ctx ts with
  | (.ok (some c), ctx, ts) => (some (.ok c), ctx, ts)
  | (.ok none, ctx, ts') => (if ts.isEmpty then none else some (.err .expectedInput), ctx, ts')
  | (.err e, ctx, ts) => (some (.err e), ctx, ts)
  | (.panic, ctx, ts) => (some .panic, ctx, ts)

/-- The items of a strict parser until it answers `None`, with fuel. -/
def strictItems (sc : ScopeFn A) : Nat → PCtx A → List Token → List (POut ParseError (PCmd (PTerm A)))
  | 0, _, _ => []
  | n + 1, ctx, ts =>
    match strictNext sc ctx ts with
    | (none, _, _) => []
    | (some i, ctx, ts) => i :: strictItems sc n ctx ts

/-- All items of `Strict::new(text)` (`dedukti-parse/src/lib.rs` L142-147).  The fuel suffices as every item consumes a token. -/
def strict (sc : ScopeFn A) (text : Str) : List (POut ParseError (PCmd (PTerm A))) :=
  strictItems sc ((lex text).length + 1) PCtx.new (lex text)

/-- `dedukti-parse/src/lib.rs` L131-138 (`Lazy`); `last` only serves to keep a string alive.  `buf` is in the order of the vector. -/
structure LazyP (A : Type) where
  lines : List Str
  openComments : Nat
  state : PState A
  ctx : PCtx A
  buf : List (PCmd (PTerm A))

/-- `Lazy::new` (`dedukti-parse/src/lib.rs` L152-161). -/
def LazyP.new (lines : List Str) : LazyP A := ⟨lines, 0, PState.new, PCtx.new, []⟩

/-- The loop over the tokens of a line in `Lazy::next` (`dedukti-parse/src/lib.rs` L282-295), with fuel. -/
def lazyLine (sc : ScopeFn A) : Nat → PState A → PCtx A → List (PCmd (PTerm A)) → Nat → List Token →
    POut ParseError (PState A) × PCtx A × List (PCmd (PTerm A)) × Nat
  | 0, _, ctx, buf, opened, _ => (.panic, ctx, buf, opened)
  | n + 1, st, ctx, buf, opened, ts =>
    match ts with
    | [] => (.ok st, ctx, buf, opened)
    | tok :: ts =>
      match st.feed sc ctx tok ts with
      | (.err e, ctx, _) => (.err e, ctx, buf, opened)
      | (.panic, ctx, _) => (.panic, ctx, buf, opened)
      | (.ok (st, o), ctx, ts) =>
        match st.cmd with
        | .command c => lazyLine sc n PState.new ctx (buf ++ [c]) o ts
        | _ => lazyLine sc n st ctx buf o ts

/-- The loop over the lines in `Lazy::next` (`dedukti-parse/src/lib.rs` L267-303), and what follows it. -/
def lazyLines (sc : ScopeFn A) : List Str → Nat → PState A → PCtx A → List (PCmd (PTerm A)) →
    Option (POut ParseError (PCmd (PTerm A))) × LazyP A
  | [], opened, st, ctx, buf =>
    (match st.cmd with
      | .init => if opened > 0 then some (.err .expectedInput) else none
      | _ => some (.err .expectedInput), ⟨[], opened, st, ctx, buf⟩)
  | line :: lines, opened, st, ctx, buf =>
    match comment opened line with
    | (o + 1, _) => lazyLines sc lines (o + 1) st ctx buf
    | (0, rest) =>
      match lazyLine sc ((lex rest).length + 1) st ctx buf 0 (lex rest) with
      | (.err e, ctx, buf, o) => (some (.err e), ⟨lines, o, PState.new, ctx, buf⟩)
      | (.panic, ctx, buf, o) => (some .panic, ⟨lines, o, PState.new, ctx, buf⟩)
      | (.ok st, ctx, buf, o) =>
        match buf with
        | [] => lazyLines sc lines o st ctx []
        | c :: cs => (some (.ok c), ⟨lines, o, st, ctx, cs.reverse⟩)

/-- `Lazy::next` (`dedukti-parse/src/lib.rs` L262-310). -/
def LazyP.next (sc : ScopeFn A) (p : LazyP A) : Option (POut ParseError (PCmd (PTerm A))) × LazyP A :=
  match p.buf.getLast? with
  | some c => (some (.ok c), { p with buf := p.buf.dropLast })
  | none => lazyLines sc p.lines p.openComments p.state p.ctx p.buf

/-- The first `n` items of a lazy parser (fewer if it answers `None`). -/
def LazyP.items (sc : ScopeFn A) : Nat → LazyP A → List (POut ParseError (PCmd (PTerm A)))
  | 0, _ => []
  | n + 1, p => match p.next sc with
    | (none, _) => []
    | (some i, p) => i :: LazyP.items sc n p

end Whole

end Kontroli
