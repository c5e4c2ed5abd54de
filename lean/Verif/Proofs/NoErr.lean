import Verif.Model.Reduce
import Verif.Proofs.SubstEq

/-!
# Evaluation and conversion return no errors

Only inference and checking do.
-/

namespace Kontroli

/-- the computation does not return an error -/
def NoErr {α : Type} (m : M α) : Prop := ∀ s e, m s ≠ .err e

section
variable {α β : Type}

theorem NoErr.pure (a : α) : NoErr (M.pure a) := by intro s e h; cases h
theorem NoErr.timeout : NoErr (M.timeout : M α) := by intro s e h; cases h
theorem NoErr.panic : NoErr (M.panic : M α) := by intro s e h; cases h

theorem NoErr.bind {m : M α} {f : α → M β} (h : NoErr m) (h' : ∀ a, NoErr (f a)) : NoErr (M.bind m f) := by
  intro s e he
  unfold M.bind at he
  split at he
  · exact h' _ _ _ he
  · next e' he' => exact h _ _ he'
  · cases he
  · cases he

theorem NoErr.ite {c : Prop} [Decidable c] {m m' : M α} (h : NoErr m) (h' : NoErr m') : NoErr (if c then m else m') := by
  split
  · exact h
  · exact h'

theorem NoErr.total {m : M α} (h : Total m) : NoErr m := by
  intro s e he
  obtain ⟨a, s', h⟩ := h s
  rw [h] at he
  cases he

theorem NoErr.tick : NoErr tick := .total .tick

theorem NoErr.newState (st : State) : NoErr (newState st) := by intro s e h; cases h
theorem NoErr.newThunk (r : Nat) : NoErr (newThunk r) := by intro s e h; cases h
theorem NoErr.unlockState (r : Nat) (w : WState) : NoErr (unlockState r w) := by intro s e h; cases h
theorem NoErr.setThunk (r : Nat) (w : Thunk) : NoErr (setThunk r w) := by intro s e h; cases h
theorem NoErr.borrowState (r : Nat) : NoErr (borrowState r) := by
  intro s e h
  unfold Kontroli.borrowState at h
  split at h
  · cases h
  · split at h <;> cases h
theorem NoErr.lockState (r : Nat) : NoErr (lockState r) := by
  intro s e h
  unfold Kontroli.lockState at h
  split at h
  · cases h
  · split at h <;> cases h
theorem NoErr.getThunk (r : Nat) : NoErr (getThunk r) := by
  intro s e h
  unfold Kontroli.getThunk at h
  split at h <;> cases h

end

/-- go through a computation -/
macro "noerr" : tactic => `(tactic|
  repeat' first
    | exact NoErr.pure _
    | exact NoErr.timeout
    | exact NoErr.panic
    | exact NoErr.tick
    | exact NoErr.newState _
    | exact NoErr.newThunk _
    | exact NoErr.unlockState _ _
    | exact NoErr.setThunk _ _
    | exact NoErr.borrowState _
    | exact NoErr.lockState _
    | exact NoErr.getThunk _
    | assumption
    | apply NoErr.bind
    | apply NoErr.ite
    | split
    | intro _)

section
variable {S : Nat → Nat → M STerm} (hS : ∀ n k, NoErr (S n k))
include hS

mutual
  theorem NoErr.applySubstL (t : LTerm) (k : Nat) : NoErr (applySubstL S t k) := by
    have h := hS
    cases t with
    | comb c => unfold Kontroli.applySubstL; have := NoErr.applySubstLC c k; noerr
    | var n => unfold Kontroli.applySubstL; have := hS n k; noerr
    | _ => exact NoErr.pure _
  theorem NoErr.applySubstLC (c : Comb Str LTerm) (k : Nat) : NoErr (applySubstLC S c k) := by
    cases c with
    | appl f args =>
      unfold Kontroli.applySubstLC
      have h1 := NoErr.applySubstL f k
      have h2 := NoErr.applySubstLList args k
      noerr
    | abst id ty f =>
      unfold Kontroli.applySubstLC
      have h1 := NoErr.applySubstL f (k + 1)
      have h2 := NoErr.applySubstLOpt ty k
      noerr
    | prod id ty f =>
      unfold Kontroli.applySubstLC
      have h1 := NoErr.applySubstL f (k + 1)
      have h2 := NoErr.applySubstL ty k
      noerr
  theorem NoErr.applySubstLList (ts : List LTerm) (k : Nat) : NoErr (applySubstLList S ts k) := by
    cases ts with
    | nil => exact NoErr.pure _
    | cons t ts =>
      unfold Kontroli.applySubstLList
      have h1 := NoErr.applySubstL t k
      have h2 := NoErr.applySubstLList ts k
      noerr
  theorem NoErr.applySubstLOpt (t : Option LTerm) (k : Nat) : NoErr (applySubstLOpt S t k) := by
    cases t with
    | none => exact NoErr.pure _
    | some t =>
      unfold Kontroli.applySubstLOpt
      have h1 := NoErr.applySubstL t k
      noerr
end

mutual
  theorem NoErr.applySubst (t : STerm) (k : Nat) : NoErr (applySubst S t k) := by
    cases t with
    | lcomb c => unfold Kontroli.applySubst; have := NoErr.applySubstLC hS c k; noerr
    | scomb c => unfold Kontroli.applySubst; have := NoErr.applySubstC c k; noerr
    | var n => unfold Kontroli.applySubst; have := hS n k; noerr
    | _ => exact NoErr.pure _
  theorem NoErr.applySubstC (c : Comb Str STerm) (k : Nat) : NoErr (applySubstC S c k) := by
    cases c with
    | appl f args =>
      unfold Kontroli.applySubstC
      have h1 := NoErr.applySubst f k
      have h2 := NoErr.applySubstList args k
      noerr
    | abst id ty f =>
      unfold Kontroli.applySubstC
      have h1 := NoErr.applySubst f (k + 1)
      have h2 := NoErr.applySubstOpt ty k
      noerr
    | prod id ty f =>
      unfold Kontroli.applySubstC
      have h1 := NoErr.applySubst f (k + 1)
      have h2 := NoErr.applySubst ty k
      noerr
  theorem NoErr.applySubstList (ts : List STerm) (k : Nat) : NoErr (applySubstList S ts k) := by
    cases ts with
    | nil => exact NoErr.pure _
    | cons t ts =>
      unfold Kontroli.applySubstList
      have h1 := NoErr.applySubst t k
      have h2 := NoErr.applySubstList ts k
      noerr
  theorem NoErr.applySubstOpt (t : Option STerm) (k : Nat) : NoErr (applySubstOpt S t k) := by
    cases t with
    | none => exact NoErr.pure _
    | some t =>
      unfold Kontroli.applySubstOpt
      have h1 := NoErr.applySubst t k
      noerr
end

end

theorem NoErr.shiftMut (t : STerm) (k : Nat) : NoErr (shiftMut t k) := by
  unfold Kontroli.shiftMut
  have := NoErr.applySubst (S := fun n _ => M.pure (.var (n + k))) (fun _ _ => NoErr.pure _) t 0
  noerr

theorem NoErr.shift (t : STerm) (k : Nat) : NoErr (shift t k) := by
  unfold Kontroli.shift
  have := NoErr.shiftMut t k
  noerr

theorem NoErr.psubstSingle (u : STerm) (n k : Nat) : NoErr (psubstSingle u n k) := by
  unfold Kontroli.psubstSingle
  have := NoErr.shift u k
  noerr

theorem NoErr.subst (t u : STerm) : NoErr (subst t u) := by
  unfold Kontroli.subst
  have := NoErr.applySubst (NoErr.psubstSingle u) t 0
  noerr

theorem NoErr.applyArgs (t : STerm) (as : List STerm) : NoErr (applyArgs t as) := by
  unfold Kontroli.applyArgs
  noerr

/-- the recursive entry points return no errors -/
structure OpsNE (o : Ops) : Prop where
  wh : ∀ st, NoErr (o.wh st)
  cv : ∀ cns, NoErr (o.cv cns)
  rd : ∀ st, NoErr (o.rd st)

section
variable {rd : State → M STerm} (hrd : ∀ st, NoErr (rd st))
include hrd

theorem NoErr.readR (r : Nat) : NoErr (readR rd r) := .bind (.borrowState r) hrd

theorem NoErr.readArgs (rs : List Nat) : NoErr (readArgs rd rs) := by
  induction rs with
  | nil => exact NoErr.pure _
  | cons r rs ih =>
    unfold Kontroli.readArgs
    have := NoErr.readR hrd r
    noerr

theorem NoErr.force (a : Nat) : NoErr (force rd a) := by
  unfold Kontroli.force
  refine .bind (.getThunk a) fun t => ?_
  cases t with
  | done t => exact .pure _
  | busy => exact .panic
  | todo r =>
    have := NoErr.readR hrd r
    noerr

theorem NoErr.psubst (ctx : List Nat) (n k : Nat) : NoErr (psubst rd ctx n k) := by
  unfold Kontroli.psubst
  refine .ite .panic ?_
  split
  · next a _ => exact .bind (NoErr.force hrd a) fun t => NoErr.shift t k
  · noerr

theorem NoErr.psubstTerm (t : STerm) (ctx : List Nat) : NoErr (psubstTerm rd t ctx) := by
  unfold Kontroli.psubstTerm
  have := NoErr.applySubst (NoErr.psubst hrd ctx) t 0
  noerr

theorem NoErr.readBody (st : State) : NoErr (readBody rd st) := by
  unfold Kontroli.readBody
  refine .bind (NoErr.psubstTerm hrd _ _) fun t => .ite (.pure _) ?_
  exact .bind (NoErr.readArgs hrd _) fun as => NoErr.applyArgs t as

end

section
variable {o : Ops} (ho : OpsNE o)
include ho

theorem NoErr.rwhnf (r : Nat) : NoErr (rwhnf o r) := by
  unfold Kontroli.rwhnf
  refine .bind (.lockState r) fun w => .bind ?_ fun w => .unlockState r w
  exact .ite (.pure _) (.bind (ho.wh _) fun _ => .pure _)

theorem NoErr.allConvRest (a : Nat) (rs : List Nat) : NoErr (allConvRest o a rs) := by
  induction rs with
  | nil => exact .pure _
  | cons r rs ih =>
    unfold Kontroli.allConvRest
    exact .bind (NoErr.force ho.rd a) fun t => .bind (NoErr.readR ho.rd r) fun u => .bind (ho.cv _) fun b =>
      .ite ih (.pure _)

theorem NoErr.allConv (rs : List Nat) : NoErr (allConv o rs) := by
  cases rs with
  | nil => exact .pure _
  | cons r rs => exact .bind (.newThunk r) fun a => NoErr.allConvRest ho a rs

theorem NoErr.flattenSub (sub : Sub) : NoErr (flattenSub o sub) := by
  induction sub with
  | nil => exact .pure _
  | cons l ls ih =>
    unfold Kontroli.flattenSub
    refine .bind ih fun r => ?_
    cases r with
    | none => exact .pure _
    | some cs =>
      refine .bind (NoErr.allConv ho l) fun r => ?_
      cases r <;> exact .pure _

end

mutual
  theorem NoErr.matchPat {wr : Nat → M Unit} (hw : ∀ r, NoErr (wr r)) (p : Pattern) (r : Nat) (sub : Sub) :
      NoErr (matchPat wr p r sub) := by
    cases p with
    | symb sp pats =>
      unfold Kontroli.matchPat
      refine .bind (hw r) fun _ => .bind (.borrowState r) fun st => ?_
      split
      · exact .ite (NoErr.matchPats hw pats _ sub) (.pure _)
      · exact .pure _
    | mvar m => unfold Kontroli.matchPat; exact .pure _
    | joker => unfold Kontroli.matchPat; exact .pure _
  theorem NoErr.matchPats {wr : Nat → M Unit} (hw : ∀ r, NoErr (wr r)) (ps : List Pattern) (rs : List Nat) (sub : Sub) :
      NoErr (matchPats wr ps rs sub) := by
    cases ps with
    | nil => cases rs <;> exact .pure _
    | cons p ps =>
      cases rs with
      | nil => exact .pure _
      | cons r rs =>
        unfold Kontroli.matchPats
        refine .bind (NoErr.matchPat hw p r sub) fun x => ?_
        cases x with
        | none => exact .pure _
        | some sub => exact NoErr.matchPats hw ps rs sub
end

section
variable {o : Ops} (ho : OpsNE o)
include ho

theorem NoErr.matchFlatten (r : Rule) (stack : List Nat) : NoErr (matchFlatten o r stack) := by
  unfold Kontroli.matchFlatten Kontroli.matchRule
  refine .bind (.ite (.pure _) (NoErr.matchPats (NoErr.rwhnf ho) _ _ _)) fun x => ?_
  cases x with
  | none => exact .pure _
  | some sub => exact NoErr.flattenSub ho sub

theorem NoErr.firstMatch (stack : List Nat) (rs : List Rule) : NoErr (firstMatch o stack rs) := by
  induction rs with
  | nil => exact .pure _
  | cons r rs ih =>
    unfold Kontroli.firstMatch
    refine .bind (NoErr.matchFlatten ho r stack) fun x => ?_
    cases x with
    | none => exact ih
    | some ctx => exact .pure _

omit ho in
theorem NoErr.newStates (ctx : List Nat) (ts : List STerm) : NoErr (newStates ctx ts) := by
  induction ts with
  | nil => exact .pure _
  | cons t ts ih => exact .bind ih fun _ => .bind (.newState _) fun _ => .pure _

omit ho in
theorem NoErr.finish (st : State) : NoErr (finish st) := by
  unfold Kontroli.finish
  noerr

theorem NoErr.stepComb (st : State) (c : SComb) : NoErr (stepComb o st c) := by
  unfold Kontroli.stepComb
  split
  · exact .panic
  · split
    · exact .panic
    · exact .bind (.newThunk _) fun _ => ho.wh _
  · exact .bind (NoErr.newStates _ _) fun _ => ho.wh _

theorem NoErr.whnfBody (gc : GCtx) (st : State) : NoErr (whnfBody gc o st) := by
  unfold Kontroli.whnfBody
  split
  · exact NoErr.finish _
  · exact NoErr.finish _
  · split
    · exact .bind (NoErr.force ho.rd _) fun _ => ho.wh _
    · exact .ite (NoErr.finish _) (.ite .panic (NoErr.finish _))
  · split
    · exact NoErr.finish _
    · refine .bind (NoErr.firstMatch ho _ _) fun x => ?_
      cases x with
      | none => exact NoErr.finish _
      | some p => exact .ite .panic (ho.wh _)
  · exact .ite (NoErr.finish _) (NoErr.stepComb ho _ _)
  · exact .ite (NoErr.finish _) (NoErr.stepComb ho _ _)

theorem NoErr.whnfTerm (t : STerm) : NoErr (whnfTerm o t) := .bind (ho.wh _) ho.rd

omit ho in
theorem NoErr.shiftApp (t : STerm) : NoErr (shiftApp t) := .bind (NoErr.shiftMut t 1) fun t => NoErr.applyArgs t _

omit ho in
theorem NoErr.step2 (eta : Bool) (cns : List (STerm × STerm)) (c c' : SComb) : NoErr (step2 eta cns c c') := by
  unfold Kontroli.step2
  split
  · exact .pure _
  · exact .pure _
  · exact .ite (.pure _) (.pure _)
  · exact .ite (.bind (NoErr.shiftApp _) fun _ => .pure _) (.pure _)
  · exact .ite (.bind (NoErr.shiftApp _) fun _ => .pure _) (.pure _)
  · exact .pure _

omit ho in
theorem NoErr.step1 (cns : List (STerm × STerm)) (c : SComb) (t : STerm) : NoErr (step1 cns c t) := by
  unfold Kontroli.step1
  split
  · exact .bind (NoErr.shiftApp _) fun _ => .pure _
  · exact .pure _

omit ho in
theorem NoErr.step (eta : Bool) (cns : List (STerm × STerm)) (t t' : STerm) : NoErr (step eta cns t t') := by
  unfold Kontroli.step
  split <;> first
    | exact .pure _
    | exact NoErr.step2 _ _ _ _
    | exact .ite (.pure _) (.pure _)
    | exact .ite (NoErr.step1 _ _ _) (.pure _)

theorem NoErr.cvBody (gc : GCtx) (cns : List (STerm × STerm)) : NoErr (cvBody gc o cns) := by
  unfold Kontroli.cvBody
  split
  · exact .pure _
  · refine .ite (ho.cv _) (.bind (NoErr.whnfTerm ho _) fun _ => .bind (NoErr.whnfTerm ho _) fun _ =>
      .bind (NoErr.step _ _ _ _) fun x => ?_)
    cases x with
    | none => exact .pure _
    | some cns => exact ho.cv _

end

theorem opsNE (gc : GCtx) (n : Nat) : OpsNE (ops gc n) := by
  induction n with
  | zero => exact ⟨fun _ => .timeout, fun _ => .timeout, fun _ => .timeout⟩
  | succ n ih => exact ⟨NoErr.whnfBody ih gc, NoErr.cvBody ih gc, NoErr.readBody ih.rd⟩

end Kontroli
