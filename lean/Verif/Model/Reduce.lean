import Verif.Model.GCtx
import Verif.Model.Subst

/-!
# Evaluation to weak-head normal form, matching and conversion
(`kontroli/src/kernel/reduce.rs`, `kontroli/src/kernel/convertible.rs`)

The Rust functions are mutually recursive and need not terminate.  Every function below takes the functions it calls
recursively as a parameter (`Ops`); `ops gc n` ties the knot `n` times and answers `timeout` below.
-/

namespace Kontroli

/-- The recursive entry points of the evaluator. -/
structure Ops where
  /-- `State::whnf` -/
  wh : State → M State
  /-- the loop of `STerm::convertible` on a vector of constraints (head of the list = last element) -/
  cv : List (STerm × STerm) → M Bool
  /-- `From<State> for STerm` -/
  rd : State → M STerm

/-- `From<RState> for STerm` (`kontroli/src/kernel/reduce.rs` L87-91). The shared borrow lives during the call of `rd`, which
does no mutable borrow; hence only the test that the cell is not mutably borrowed matters. -/
def readR (rd : State → M STerm) (r : Nat) : M STerm := M.bind (borrowState r) rd

/-- `state.stack.0.into_iter().rev().map(Self::from)` (`kontroli/src/kernel/reduce.rs` L97). -/
def readArgs (rd : State → M STerm) : List Nat → M (List STerm)
  | [] => M.pure []
  | r :: rs =>
    M.bind (readR rd r) fun t =>
    M.bind (readArgs rd rs) fun ts =>
    M.pure (t :: ts)

/-- `RTTerm::force` (`kontroli/src/kernel/reduce.rs` L57-59) with `Evaluate for RState` (L81-85):
evaluates the thunk once; re-entering a thunk under evaluation is a panic in `lazy_st`. -/
def force (rd : State → M STerm) (a : Nat) : M STerm :=
  M.bind (getThunk a) fun
    | .done t => M.pure t
    | .busy => M.panic
    | .todo r =>
      M.bind (setThunk a .busy) fun _ =>
      M.bind (readR rd r) fun t =>
      M.bind (setThunk a (.done t)) fun _ =>
      M.pure t

/-- The closure `psubst` (`kontroli/src/kernel/reduce.rs` L112-117); subtractions panic on underflow. -/
def psubst (rd : State → M STerm) (ctx : List Nat) (n k : Nat) : M STerm :=
  if n < k then M.panic
  else match ctx[n - k]? with
    | some a => M.bind (force rd a) fun t => shift t k
    | none => if n < ctx.length then M.panic else M.pure (.var (n - ctx.length))

/-- `STerm::psubst` (`kontroli/src/kernel/reduce.rs` L105-109). -/
def psubstTerm (rd : State → M STerm) (t : STerm) (ctx : List Nat) : M STerm :=
  if ctx.isEmpty then M.pure t
  else M.bind (applySubst (psubst rd ctx) t 0) fun r => M.pure r.1

/-- `From<State> for STerm` (`kontroli/src/kernel/reduce.rs` L93-102). -/
def readBody (rd : State → M STerm) (st : State) : M STerm :=
  M.bind (psubstTerm rd st.term st.ctx) fun term =>
  if st.stack.isEmpty then M.pure term
  else M.bind (readArgs rd st.stack) fun args => applyArgs term args

/-- `RState::whnf` (`kontroli/src/kernel/reduce.rs` L142-144) with `WState::whnf` (L132-137). -/
def rwhnf (o : Ops) (r : Nat) : M Unit :=
  M.bind (lockState r) fun w =>
  M.bind (if w.whnfed then M.pure w
          else M.bind (o.wh w.state) fun st => M.pure { w with state := st, whnfed := true }) fun w =>
  unlockState r w

/-- The assignment of machine states to rule variables built by `match_rule`; `sub[m]` are those of variable `m`. -/
abbrev Sub := List (List Nat)

/-- `subst.get_mut(m)?.push(st1)` (`kontroli/src/kernel/reduce.rs` L317). -/
def pushSub (sub : Sub) (m r : Nat) : Option Sub :=
  match sub[m]? with
  | some l => some (sub.set m (l ++ [r]))
  | none => none

mutual
  /-- `RState::match_pat` (`kontroli/src/kernel/reduce.rs` L324-346) together with the consumption of the resulting iterator
  by the loop of `match_rule` (L312-318).  The iterators are lazy, so elements are consumed in the order produced and
  nothing is evaluated after the first `None`. -/
  def matchPat (wr : Nat → M Unit) : Pattern → Nat → Sub → M (Option Sub)
    | .symb sp pats, r, sub =>
      M.bind (wr r) fun _ =>
      M.bind (borrowState r) fun st =>
      match st.term with
      | .const s =>
        if sp = s ∧ st.stack.length = pats.length then matchPats wr pats st.stack sub
        else M.pure none
      | _ => M.pure none
    | .mvar m, r, sub => M.pure (pushSub sub m r)
    | .joker, _, sub => M.pure (some sub)
  /-- `Stack::match_pats`, `into_match_pats` (`kontroli/src/kernel/reduce.rs` L282-296): zip of the stack from its top with the
  patterns. -/
  def matchPats (wr : Nat → M Unit) : List Pattern → List Nat → Sub → M (Option Sub)
    | p :: ps, r :: rs, sub =>
      M.bind (matchPat wr p r sub) fun
        | none => M.pure none
        | some sub => matchPats wr ps rs sub
    | _, _, sub => M.pure (some sub)
end

/-- `Stack::match_rule` (`kontroli/src/kernel/reduce.rs` L310-320) with `match_top` (L298-308). -/
def matchRule (wr : Nat → M Unit) (rule : Rule) (stack : List Nat) : M (Option Sub) :=
  if stack.length < rule.lhs.args.length then M.pure none
  else matchPats wr rule.lhs.args stack (List.replicate rule.ctx.length [])

/-- The loop of `all_convertible` (`kontroli/src/kernel/reduce.rs` L256-262). -/
def allConvRest (o : Ops) (a : Nat) : List Nat → M (Option Nat)
  | [] => M.pure (some a)
  | r :: rs =>
    M.bind (force o.rd a) fun t =>
    M.bind (readR o.rd r) fun u =>
    M.bind (o.cv [(t, u)]) fun b =>
    if b then allConvRest o a rs else M.pure none

/-- `all_convertible` (`kontroli/src/kernel/reduce.rs` L250-263). -/
def allConv (o : Ops) : List Nat → M (Option Nat)
  | [] => M.pure none
  | r :: rs => M.bind (newThunk r) fun a => allConvRest o a rs

/-- `.into_iter().map(all_convertible).rev().collect::<Option<_>>()` (`kontroli/src/kernel/reduce.rs` L271-275): the reversed iterator
starts at the last variable and stops at the first `None`. The collected vector is the reverse of the variables,
hence in the reversed representation of `State.ctx` it is in the order of the variables. -/
def flattenSub (o : Ops) : Sub → M (Option (List Nat))
  | [] => M.pure (some [])
  | l :: ls =>
    M.bind (flattenSub o ls) fun
      | none => M.pure none
      | some cs =>
        M.bind (allConv o l) fun
          | none => M.pure none
          | some c => M.pure (some (c :: cs))

/-- `Stack::match_flatten` (`kontroli/src/kernel/reduce.rs` L269-276). -/
def matchFlatten (o : Ops) (rule : Rule) (stack : List Nat) : M (Option (List Nat)) :=
  M.bind (matchRule (rwhnf o) rule stack) fun
    | none => M.pure none
    | some sub => flattenSub o sub

/-- `rules.iter().filter_map(..).next()` (`kontroli/src/kernel/reduce.rs` L177-180): the first rule that matches. -/
def firstMatch (o : Ops) (stack : List Nat) : List Rule → M (Option (List Nat × Rule))
  | [] => M.pure none
  | r :: rs =>
    M.bind (matchFlatten o r stack) fun
      | some ctx => M.pure (some (ctx, r))
      | none => firstMatch o stack rs

/-- `tail.into_iter().rev().map(|tm| RState::from_ctx_term(ctx.clone(), tm))` (`kontroli/src/kernel/reduce.rs` L206-208, L75-78):
closures are created from the last argument to the first; the first argument ends on top of the stack. -/
def newStates (ctx : List Nat) : List STerm → M (List Nat)
  | [] => M.pure []
  | t :: ts =>
    M.bind (newStates ctx ts) fun rs =>
    M.bind (newState { ctx := ctx, term := t, stack := [] }) fun r =>
    M.pure (r :: rs)

/-- The assertion after the loop of `State::whnf` (`kontroli/src/kernel/reduce.rs` L214-216). -/
def finish (st : State) : M State :=
  match st.term with
  | .var _ => if st.ctx.isEmpty then M.pure st else M.panic
  | _ => M.pure st

/-- The second half of the loop body of `State::whnf` (`kontroli/src/kernel/reduce.rs` L197-211). -/
def stepComb (o : Ops) (st : State) : SComb → M State
  | .prod _ _ _ => M.panic
  | .abst _ _ t =>
    match st.stack with
    | [] => M.panic
    | r :: rest => M.bind (newThunk r) fun a => o.wh { ctx := a :: st.ctx, term := t, stack := rest }
  | .appl head tail =>
    M.bind (newStates st.ctx tail) fun rs => o.wh { ctx := st.ctx, term := head, stack := rs ++ st.stack }

/-- One iteration of the loop of `State::whnf` (`kontroli/src/kernel/reduce.rs` L154-217), continuing by `o.wh`. -/
def whnfBody (gc : GCtx) (o : Ops) (st : State) : M State :=
  match st.term with
  | .type => finish st
  | .kind => finish st
  | .var x =>
    match st.ctx[x]? with
    | some a => M.bind (force o.rd a) fun t => o.wh { ctx := [], term := t, stack := st.stack }
    | none =>
      if st.ctx.isEmpty then finish st
      else if x < st.ctx.length then M.panic
      else finish { ctx := [], term := .var (x - st.ctx.length), stack := st.stack }
  | .const s =>
    match gc.getRules s with
    | none => finish st
    | some rules =>
      M.bind (firstMatch o st.stack rules) fun
        | none => finish st
        | some (ctx, rule) =>
          if st.stack.length < rule.lhs.args.length then M.panic
          else o.wh { ctx := ctx, term := STerm.ofL rule.rhs, stack := st.stack.drop rule.lhs.args.length }
  | .lcomb c => if c.isWhnf st.stack.isEmpty then finish st else stepComb o st (SComb.ofL c)
  | .scomb c => if c.isWhnf st.stack.isEmpty then finish st else stepComb o st c

/-- `STerm::whnf` (`kontroli/src/kernel/reduce.rs` L222-227). -/
def whnfTerm (o : Ops) (t : STerm) : M STerm :=
  M.bind (o.wh { ctx := [], term := t, stack := [] }) o.rd

/-- `shift_app` (`kontroli/src/kernel/convertible.rs` L54-57). -/
def shiftApp (t : STerm) : M STerm := M.bind (shiftMut t 1) fun t => applyArgs t [.var 0]

/-- `step2` (`kontroli/src/kernel/convertible.rs` L28-43); `none` is `false`, `some` the new constraints (head = last of the vector). -/
def step2 (eta : Bool) (cns : List (STerm × STerm)) : SComb → SComb → M (Option (List (STerm × STerm)))
  | .abst _ _ t1, .abst _ _ t2 => M.pure (some ((t1, t2) :: cns))
  | .prod _ ty1 tm1, .prod _ ty2 tm2 => M.pure (some ((tm1, tm2) :: (ty1, ty2) :: cns))
  | .appl f1 args1, .appl f2 args2 =>
    if args1.length = args2.length then
      M.pure (some ((args1.zip args2).reverse ++ (f1, f2) :: cns))
    else M.pure none
  | .abst _ _ b, a =>
    if eta then M.bind (shiftApp (.scomb a)) fun a => M.pure (some ((b, a) :: cns)) else M.pure none
  | a, .abst _ _ b =>
    if eta then M.bind (shiftApp (.scomb a)) fun a => M.pure (some ((b, a) :: cns)) else M.pure none
  | _, _ => M.pure none

/-- `step1` (`kontroli/src/kernel/convertible.rs` L45-52). -/
def step1 (cns : List (STerm × STerm)) (c : SComb) (tm : STerm) : M (Option (List (STerm × STerm))) :=
  match c with
  | .abst _ _ b => M.bind (shiftApp tm) fun a => M.pure (some ((b, a) :: cns))
  | _ => M.pure none

/-- `step` (`kontroli/src/kernel/convertible.rs` L11-26). -/
def step (eta : Bool) (cns : List (STerm × STerm)) (t1 t2 : STerm) : M (Option (List (STerm × STerm))) :=
  match t1, t2 with
  | .kind, .kind => M.pure (some cns)
  | .type, .type => M.pure (some cns)
  | .const s1, .const s2 => if s1 = s2 then M.pure (some cns) else M.pure none
  | .var v1, .var v2 => if v1 = v2 then M.pure (some cns) else M.pure none
  | .lcomb c1, .lcomb c2 => step2 eta cns (SComb.ofL c1) (SComb.ofL c2)
  | .lcomb c1, .scomb c2 => step2 eta cns (SComb.ofL c1) c2
  | .scomb c1, .lcomb c2 => step2 eta cns c1 (SComb.ofL c2)
  | .scomb c1, .scomb c2 => step2 eta cns c1 c2
  | .scomb b, a => if eta then step1 cns b a else M.pure none
  | a, .scomb b => if eta then step1 cns b a else M.pure none
  | .lcomb b, a => if eta then step1 cns (SComb.ofL b) a else M.pure none
  | a, .lcomb b => if eta then step1 cns (SComb.ofL b) a else M.pure none
  | _, _ => M.pure none

/-- One iteration of the loop of `STerm::convertible` (`kontroli/src/kernel/reduce.rs` L232-239), continuing by `o.cv`. -/
def cvBody (gc : GCtx) (o : Ops) : List (STerm × STerm) → M Bool
  | [] => M.pure true
  | (cn1, cn2) :: cns =>
    if STerm.beq cn1 cn2 then o.cv cns
    else
      M.bind (whnfTerm o cn1) fun w1 =>
      M.bind (whnfTerm o cn2) fun w2 =>
      M.bind (step gc.eta cns w1 w2) fun
        | none => M.pure false
        | some cns => o.cv cns

/-- The evaluator with recursion depth bounded by `n`. -/
def ops (gc : GCtx) : Nat → Ops
  | 0 => { wh := fun _ => M.timeout, cv := fun _ => M.timeout, rd := fun _ => M.timeout }
  | n + 1 => { wh := whnfBody gc (ops gc n), cv := cvBody gc (ops gc n), rd := readBody (ops gc n).rd }

/-- `STerm::whnf` (`kontroli/src/kernel/reduce.rs` L222-227). -/
def whnf (n : Nat) (gc : GCtx) (t : STerm) : M STerm := whnfTerm (ops gc n) t

/-- `STerm::convertible` (`kontroli/src/kernel/reduce.rs` L230-240). -/
def convertible (n : Nat) (gc : GCtx) (t1 t2 : STerm) : M Bool := (ops gc n).cv [(t1, t2)]

end Kontroli
