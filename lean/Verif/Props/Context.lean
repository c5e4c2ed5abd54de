import Verif.Proofs.Driver
import Verif.Proofs.Static
import Verif.Spec.Nat

/-!
# C10–C14: the global context

The commands are run by the driver (`inferWith`) with arbitrary kernel functions `k` and an arbitrary treatment `f` of the
checks; this covers sequential and concurrent checking, with or without omitted stages.
-/

namespace Kontroli

/-! ## C12 -/

/-- C12. A successful command keeps all types and all rules in place; rules are only appended. -/
theorem C12_grows (k : Kern) {τ : Type} (f : τ → Check → GCtx → Out τ) (gc gc' : GCtx) (t t' : τ) (cmd : Cmd)
    (h : inferWith k f gc t cmd = (gc', .ok t')) : gc.Grows gc' := inferWith_grows h

/-- C12 for whole histories. -/
theorem C12_grows_history (k : Kern) (opt : Opt) (gc gc' : GCtx) (cmds : List (Out Cmd))
    (h : inferChecksSeq k opt gc cmds = (gc', .ok ())) : gc.Grows gc' := seqLoop_grows h

/-- C12, exactly: a successful introduction adds one new symbol, and changes nothing else. -/
theorem C12_intro_exact (k : Kern) {τ : Type} (f : τ → Check → GCtx → Out τ) (gc gc' : GCtx) (t t' : τ) (s : Sym)
    (it : Intro LTerm) (h : inferWith k f gc t (.intro s it) = (gc', .ok t')) :
    gc.types s = none ∧ (gc'.types s).isSome ∧
    (∀ s', s' ≠ s → gc'.types s' = gc.types s' ∧ gc'.rules s' = gc.rules s') := by
  obtain ⟨ty, chk, -, -, h⟩ := inferWith_intro_ok h
  obtain ⟨h1, h2, rfl⟩ := GCtx.insert_ok h
  refine ⟨h1, by simp [mapInsert], fun s' hs => ⟨by simp [mapInsert, hs], ?_⟩⟩
  simp only
  split <;> simp [mapInsert, hs]

/-- C12, exactly: a successful addition of rules appends to every symbol its rules, in the given order. -/
theorem C12_rules_exact (k : Kern) {τ : Type} (f : τ → Check → GCtx → Out τ) (gc gc' : GCtx) (t t' : τ) (rs : List Rule)
    (h : inferWith k f gc t (.rules rs) = (gc', .ok t')) :
    gc'.types = gc.types ∧
    ∀ s, gc'.rules s = (gc.rules s).map (· ++ rs.filter fun r => r.lhs.symbol = s) :=
  have h := GCtx.addRules_ok (inferWith_rules_ok h).2
  ⟨h.1, h.2.2.1⟩

/-- the driver with the modelled kernel accepts a definition and then the two rules of addition -/
example : (inferChecksSeq (Kern.std 40 fun _ => true) ⟨false, none, false⟩
    { Example.gc with
      rules := fun _ => none, types := fun s => if s = Example.plus then none else Example.gc.types s }
    [.ok (.intro Example.plus (.definition (some (Example.arrow (.const Example.nat)
      (Example.arrow (.const Example.nat) (.const Example.nat)))) none)),
     .ok (.rules [Example.plusZero, Example.plusSucc])]).2.isOk = true := by decide +kernel

/-! ## C11, C10 -/

/-- C11. A symbol with a type and without list of rules never acquires a rule, whatever commands are accepted or refused. -/
theorem C11_static_forever (k : Kern) {τ : Type} (f : τ → Check → GCtx → Out τ) (gc : GCtx) (t : τ) (cmd : Cmd) (s : Sym)
    (h : gc.Static s) : (inferWith k f gc t cmd).1.Static s := inferWith_static k f t cmd h

/-- C11. Exactly the symbols introduced by a definition or an injective declaration can have rules:
after a successful introduction of `s`, it is static iff it was introduced by a theorem or by a plain declaration. -/
theorem C11_static_iff (k : Kern) {τ : Type} (f : τ → Check → GCtx → Out τ) (gc gc' : GCtx) (t t' : τ) (s : Sym)
    (it : Intro LTerm) (hr : gc.rules s = none) (h : inferWith k f gc t (.intro s it) = (gc', .ok t')) :
    gc'.Static s ↔ (∃ ty, it = .declaration false ty) ∨ ∃ ty tm, it = .theorem_ ty tm := by
  obtain ⟨ty, chk, -, -, h⟩ := inferWith_intro_ok h
  obtain ⟨h1, h2, rfl⟩ := GCtx.insert_ok h
  unfold GCtx.Static
  cases it with
  | definition oty otm => simp [Intro.rewritable, mapInsert]
  | theorem_ ty tm => simp [Intro.rewritable, mapInsert, hr]
  | declaration inj ty => cases inj <;> simp [Intro.rewritable, mapInsert, hr]

/-- C11. Only symbols with a type have rules, in every history (accepted or not) from the empty context. -/
theorem C11_rules_typed (k : Kern) {τ : Type} (f : τ → Check → GCtx → Out τ) (gc : GCtx) (t : τ) (cmd : Cmd)
    (h : ∀ s, (gc.rules s).isSome → (gc.types s).isSome) :
    ∀ s, ((inferWith k f gc t cmd).1.rules s).isSome → ((inferWith k f gc t cmd).1.types s).isSome := by
  intro s
  rcases inferWith_effect k f gc t cmd with e | ⟨s', it, ty, -, e⟩ | ⟨rs, -, e⟩
  · rw [e]; exact h s
  · rw [e, GCtx.insert_effect]
    simp only [mapInsert]
    by_cases hs : s = s'
    · simp [hs]
    · simp only [hs, if_false]
      split <;> simpa [mapInsert, hs] using h s
  · rw [e]
    obtain ⟨pre, post, -, h3, -, h4, -⟩ := GCtx.addRules_effect gc rs
    rw [h3, h4]
    simpa using h s

/-- C11. A term headed by a static symbol evaluates to itself up to evaluation of its arguments: the head stays, the number
of arguments stays. -/
theorem C11_static_stuck (gc : GCtx) (s : Sym) (hs : gc.rules s = none) (n : Nat) (rc : Nat → Bool) (t u : STerm)
    (args : List Tm) (st : St) (ht : t.den = Tm.apps (.const s) args)
    (h : whnf n gc t (St.init rc) = .ok (u, st)) :
    ∃ args', u.den = Tm.apps (.const s) args' ∧ List.Forall₂ (Red gc.rules gc.eta) args args' := by
  have := TriG.ok (Tri.whnf gc n t) h
  rw [ht] at this
  exact this.1.static hs

/-- `S (1 + 1)` evaluates in the example, and `S` is static -/
example : Example.gc.Static Example.succ ∧
    ∃ u s, whnf 30 Example.gc (STerm.ofL (Example.app Example.succ [Example.onePlusOne])) (St.init fun _ => true) =
      .ok (u, s) ∧ true = true :=
  ⟨by simp [GCtx.Static, Example.gc, Example.succ], Example.okAnd_elim (p := fun _ => true) (by decide +kernel)⟩

/-- C10. A theorem is opaque: its symbol is static after its introduction (hence, by `C11_static_forever`, for ever), and the
resulting context does not depend on the proof, so neither does anything computed from it. -/
theorem C10_theorem_opaque (k : Kern) (hk : k.Real) {τ : Type} (f : τ → Check → GCtx → Out τ) (gc gc1 gc2 : GCtx)
    (t t1 t2 : τ) (s : Sym) (ty tm1 tm2 : LTerm) (hr : gc.rules s = none)
    (h1 : inferWith k f gc t (.intro s (.theorem_ ty tm1)) = (gc1, .ok t1))
    (h2 : inferWith k f gc t (.intro s (.theorem_ ty tm2)) = (gc2, .ok t2)) :
    gc1 = gc2 ∧ gc1.Static s ∧ gc1.types s = some ty := by
  have key : ∀ gc' tm (t' : τ), inferWith k f gc t (.intro s (.theorem_ ty tm)) = (gc', .ok t') →
      gc' = { gc with types := mapInsert gc.types s ty } := by
    intro gc' tm t' h
    obtain ⟨ty', chk, h3, -, h4⟩ := inferWith_intro_ok h
    obtain ⟨n, rc, st, h5⟩ := hk.intro _ _ _ h3
    have hp := TriG.ok (Tri.intro n _) h5
    obtain ⟨-, -, rfl⟩ := GCtx.insert_ok h4
    have : ty'.ty = ty := hp.given ty (.inr (.inr (.inr ⟨_, rfl⟩)))
    simp [Intro.rewritable, this]
  rw [key _ _ _ h1, key _ _ _ h2]
  exact ⟨rfl, ⟨by simp [mapInsert], hr⟩, by simp [mapInsert]⟩

/-- two different proofs of the same theorem are accepted -/
example : (inferChecksSeq (Kern.std 40 fun _ => true) ⟨false, none, false⟩ Example.gc
      [.ok (.intro 7 (.theorem_ (.const Example.nat) Example.one))]).2.isOk = true ∧
    (inferChecksSeq (Kern.std 40 fun _ => true) ⟨false, none, false⟩ Example.gc
      [.ok (.intro 7 (.theorem_ (.const Example.nat) Example.onePlusOne))]).2.isOk = true := by
  constructor <;> decide +kernel

/-! ## C13 -/

/-- C13 is false of the code: a refused introduction overwrites the type of the existing symbol. -/
theorem C13_false : ∃ (gc gc' : GCtx) (s : Sym) (t : Typing) (rw : Bool) (e : GError),
    gc.insert s t rw = (gc', .error e) ∧ gc'.types s ≠ gc.types s :=
  ⟨Example.gc, _, Example.zero, ⟨[], .type, none⟩, false, .reintroduction, rfl, by
    simp [mapInsert, Example.gc, Example.zero]⟩

/-- C13 (partial: the type of the symbol itself is overwritten, see `C13_false`). A refused introduction changes neither types
nor rules of other symbols; and it changes no rules at all if rules belong to typed symbols (which holds in every history,
`C11_rules_typed`). -/
theorem C13_refused_partial (gc gc' : GCtx) (s : Sym) (t : Typing) (rw : Bool) (e : GError)
    (h : gc.insert s t rw = (gc', .error e)) :
    (∀ s', s' ≠ s → gc'.types s' = gc.types s' ∧ gc'.rules s' = gc.rules s') ∧
    ((∀ s, (gc.rules s).isSome → (gc.types s).isSome) → gc'.rules = gc.rules ∧ (gc.types s).isSome) := by
  have e1 := GCtx.insert_effect gc s t rw
  rw [h] at e1
  simp only at e1
  subst e1
  constructor
  · intro s' hs
    refine ⟨by simp [mapInsert, hs], ?_⟩
    simp only
    split <;> simp [mapInsert, hs]
  · intro hr
    cases ht : gc.types s with
    | some A => simp
    | none =>
      exfalso
      have hrs : gc.rules s = none := by
        cases hx : gc.rules s with
        | none => rfl
        | some l => have := hr s (by simp [hx]); simp [ht] at this
      unfold GCtx.insert GCtx.introType GCtx.introRules at h
      cases rw <;> simp [ht, hrs] at h

/-! ## C14 -/

/-- The rules of a list are refused one after the other on the stack, the heap going from `s` to `s'`. -/
inductive RefusedAll (o : Ops) (stack : List Nat) : List Rule → St → St → Prop
  | nil {s : St} : RefusedAll o stack [] s s
  | cons {r : Rule} {rs : List Rule} {s s1 s' : St} :
      matchFlatten o r stack s = .ok (none, s1) → RefusedAll o stack rs s1 s' → RefusedAll o stack (r :: rs) s s'

/-- C14. The rule that is applied is the first in the list that matches; all before it were tried and refused. -/
theorem C14_first_match (o : Ops) (stack : List Nat) (rules : List Rule) (s s' : St) (ctx : List Nat) (r : Rule) :
    firstMatch o stack rules s = .ok (some (ctx, r), s') ↔
      ∃ pre post s1, rules = pre ++ r :: post ∧ RefusedAll o stack pre s s1 ∧
        matchFlatten o r stack s1 = .ok (some ctx, s') := by
  induction rules generalizing s with
  | nil =>
    constructor
    · intro h; simp [firstMatch, M.pure] at h
    · rintro ⟨pre, post, s1, h, -⟩; simp at h
  | cons r' rs ih =>
    constructor
    · intro h
      rw [firstMatch] at h
      obtain ⟨o1, s1, h1, h2⟩ := bind_ok' h
      cases o1 with
      | some c =>
        simp only [M.pure, Res.ok.injEq, Prod.mk.injEq, Option.some.injEq] at h2
        obtain ⟨⟨rfl, rfl⟩, rfl⟩ := h2
        exact ⟨[], rs, s, rfl, .nil, h1⟩
      | none =>
        obtain ⟨pre, post, s2, h3, h4, h5⟩ := (ih s1).1 h2
        exact ⟨r' :: pre, post, s2, by rw [h3]; rfl, .cons h1 h4, h5⟩
    · rintro ⟨pre, post, s1, h1, h2, h3⟩
      cases h2 with
      | nil =>
        simp at h1
        obtain ⟨rfl, rfl⟩ := h1
        simp [firstMatch, M.bind, h3, M.pure]
      | cons h4 h5 =>
        simp at h1
        obtain ⟨rfl, rfl⟩ := h1
        simp only [firstMatch, M.bind, h4]
        exact (ih _).2 ⟨_, post, s1, rfl, h5, h3⟩

/-- C14. No rule applies iff all are tried in order and refused. -/
theorem C14_no_match (o : Ops) (stack : List Nat) (rules : List Rule) (s s' : St) :
    firstMatch o stack rules s = .ok (none, s') ↔ RefusedAll o stack rules s s' := by
  induction rules generalizing s with
  | nil =>
    constructor
    · intro h; simp [firstMatch, M.pure] at h; subst h; exact .nil
    · intro h; cases h; rfl
  | cons r' rs ih =>
    constructor
    · intro h
      rw [firstMatch] at h
      obtain ⟨o1, s1, h1, h2⟩ := bind_ok' h
      cases o1 with
      | some c => simp [M.pure] at h2
      | none => exact .cons h1 ((ih s1).1 h2)
    · intro h
      cases h with
      | cons h4 h5 =>
        simp only [firstMatch, M.bind, h4]
        exact (ih _).2 h5

/-- C14. Adding a list of rules appends exactly the prefix before the first rule for a symbol without list of rules, to each
symbol in the given order; it succeeds iff there is no such rule. -/
theorem C14_add_rules (gc : GCtx) (rs : List Rule) :
    ∃ pre post, rs = pre ++ post ∧ (∀ r ∈ pre, (gc.rules r.lhs.symbol).isSome) ∧
      (addRules gc rs).1.types = gc.types ∧
      (∀ s, (addRules gc rs).1.rules s = (gc.rules s).map (· ++ pre.filter fun r => r.lhs.symbol = s)) ∧
      ((post = [] ∧ (addRules gc rs).2 = .ok ()) ∨
        ∃ r rest, post = r :: rest ∧ gc.rules r.lhs.symbol = none ∧ (addRules gc rs).2 = .error .nonRewritable) := by
  obtain ⟨pre, post, h1, h2, -, h4, h5, h6⟩ := GCtx.addRules_effect gc rs
  exact ⟨pre, post, h1, h5, h2, h4, h6⟩

/-- the second rule of addition is the one that matches on `1 + 1` -/
example : (match firstMatch (ops Example.gc 20) [0, 1] [Example.plusZero, Example.plusSucc]
      ⟨[⟨⟨[], STerm.ofL Example.one, []⟩, false, false⟩, ⟨⟨[], STerm.ofL Example.one, []⟩, false, false⟩], [],
        fun _ => true⟩ with
    | .ok (some (_, r), _) => r.ctx.length == 2
    | _ => false) = true := by decide +kernel

#print axioms C12_grows
#print axioms C12_grows_history
#print axioms C12_intro_exact
#print axioms C12_rules_exact
#print axioms C11_static_forever
#print axioms C11_static_iff
#print axioms C11_rules_typed
#print axioms C11_static_stuck
#print axioms C10_theorem_opaque
#print axioms C13_false
#print axioms C13_refused_partial
#print axioms C14_first_match
#print axioms C14_no_match
#print axioms C14_add_rules

end Kontroli
