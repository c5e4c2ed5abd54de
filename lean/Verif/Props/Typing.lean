import Verif.Proofs.Adequacy
import Verif.Spec.Nat
import Verif.Spec.History

/-!
# C04, C05, C06, C32, C35, C40: typing

The declarative system is `HasType` (`Spec/Typing.lean`).
`Kind` is not a term of the surface language: the contexts and types that reach the kernel from outside are long terms
(`LTerm`), in which it cannot be written.  Where arbitrary short terms are handed in, its absence is assumed.
-/

namespace Kontroli

open Example (okAnd okAnd_elim)

/-! ## C04, C05 -/

/-- C04. The inferred type is derivable. -/
theorem C04_infer_sound (gc : GCtx) (n : Nat) (rc : Nat → Bool) (lc lc' : LCtx) (t A : STerm) (s : St)
    (hk : ∀ e ∈ lc, e.den.NoKind) (h : infer n gc lc t (St.init rc) = .ok ((A, lc'), s)) :
    HasType gc.theory (lc.map STerm.den) t.den A.den :=
  ((TriG.ok (Tri.infer gc n lc t) h).2 hk).1.hasType

/-- C04 for contexts of long terms (`kernel::rewrite` and `Check::check` build these), without condition. -/
theorem C04_infer_sound_long (gc : GCtx) (n : Nat) (rc : Nat → Bool) (lc : List LTerm) (lc' : LCtx) (t A : STerm) (s : St)
    (h : infer n gc (lctxOf lc) t (St.init rc) = .ok ((A, lc'), s)) :
    HasType gc.theory (lc.map LTerm.den).reverse t.den A.den := by
  have := ((TriG.ok (Tri.infer gc n _ t) h).2 (lctxOf_nk lc)).1.hasType
  rwa [lctxOf_den] at this

/-- C05. A positive answer of the check is derivable. -/
theorem C05_check_sound (gc : GCtx) (n : Nat) (rc : Nat → Bool) (lc lc' : LCtx) (t A : STerm) (s : St)
    (hk : ∀ e ∈ lc, e.den.NoKind) (hA : A.den.NoKind)
    (h : check n gc lc t A (St.init rc) = .ok ((true, lc'), s)) :
    HasType gc.theory (lc.map STerm.den) t.den A.den :=
  ((TriG.ok (Tri.check gc n lc t A) h).2 hk hA rfl).hasType

/-- C05 for `Check::check`, without condition. -/
theorem C05_check_sound_long (gc : GCtx) (n : Nat) (rc : Nat → Bool) (c : Check) (s : St)
    (h : Check.check n gc c (St.init rc) = .ok ((), s)) :
    HasType gc.theory (c.lc.map LTerm.den).reverse c.tm.den c.ty.den :=
  (TriG.ok (Tri.checkCheck n c) h).hasType

/-- `x : Nat => S x` is inferred to have a product type, in a non-empty context -/
example : ∃ r s, infer 30 Example.gc (lctxOf [.const Example.nat])
    (STerm.ofL (.comb (.abst ['x'] (some (.const Example.nat)) (Example.app Example.plus [.var 0, .var 1]))))
    (St.init fun _ => true) = .ok (r, s) ∧ r.1.getProd.isSome = true :=
  okAnd_elim (p := fun r : STerm × LCtx => r.1.getProd.isSome) (by decide +kernel)

/-- `x => S x` is checked against `Nat -> Nat` -/
example : ∃ r s, check 30 Example.gc []
    (STerm.ofL (.comb (.abst ['x'] none (Example.app Example.succ [.var 0]))))
    (STerm.ofL (Example.arrow (.const Example.nat) (.const Example.nat)))
    (St.init fun _ => true) = .ok (r, s) ∧ r.1 = true :=
  okAnd_elim (p := fun r : Bool × LCtx => r.1) (by decide +kernel)

/-! ## C35 -/

/-- C35. Inference and checking hand back the local context as they found it. -/
theorem C35_context_restored (gc : GCtx) (n : Nat) (rc : Nat → Bool) (lc : LCtx) :
    (∀ t A lc' s, infer n gc lc t (St.init rc) = .ok ((A, lc'), s) → lc' = lc) ∧
    (∀ t A b lc' s, check n gc lc t A (St.init rc) = .ok ((b, lc'), s) → lc' = lc) :=
  ⟨fun t _ _ _ h => (TriG.ok (Tri.infer gc n lc t) h).1,
    fun t A _ _ _ h => (TriG.ok (Tri.check gc n lc t A) h).1⟩

/-! ## C06, C40 -/

/-- C06. If an introduction succeeds then the recorded type is typable, or it is the inferred type of the body; it has no
local context; and if moreover the returned check (if any) succeeds, a given body has the recorded type.  The recorded type is the given
one, if there is one; without a body, it has a sort. -/
theorem C06_intro_sound (gc : GCtx) (n n' : Nat) (rc rc' : Nat → Bool) (i : Intro LTerm) (ty : Typing) (chk : Option Check)
    (s : St) (h : intro n gc i (St.init rc) = .ok ((ty, chk), s))
    (hc : ∀ c, chk = some c → ∃ s', Check.check n' gc c (St.init rc') = .ok ((), s')) :
    ty.lc = [] ∧
    ((∃ A, HasType gc.theory [] ty.ty.den A) ∨ ∃ tm, i = .definition none (some tm)) ∧
    (∀ tm, i.body = some tm → HasType gc.theory [] tm.den ty.ty.den) ∧
    (∀ A, i.given = some A → ty.ty = A) ∧
    (i.body = none → ∃ s, IsSort s ∧ HasType gc.theory [] ty.ty.den s) := by
  have hp := TriG.ok (Tri.intro n i) h
  refine ⟨hp.lc, hp.ty.imp (fun ⟨A, h⟩ => ⟨A, h.hasType⟩) (fun ⟨tm, h, _⟩ => ⟨tm, h⟩), fun tm htm => ?_, ?_, ?_⟩
  rotate_left
  · intro A hA
    apply hp.given
    cases i with
    | declaration inj ty => cases hA; cases inj <;> simp
    | definition oty otm => cases hA; simp
    | theorem_ ty tm => cases hA; simp
  · intro hb
    obtain ⟨s, hs, hI⟩ := hp.decl (by rintro tm oty rfl; simp [Intro.body] at hb) (by rintro ty tm rfl; simp [Intro.body] at hb)
    exact ⟨s, hs, hI.hasType⟩
  have hchk := hp.chk
  have key : ∀ ty' tm', chk = some ⟨[], ty', tm'⟩ → ty.ty = ty' → HasType gc.theory [] tm'.den ty.ty.den := by
    intro ty' tm' e1 e2
    obtain ⟨s', hs'⟩ := hc _ e1
    have := C05_check_sound_long gc n' rc' _ s' hs'
    rw [e2]; exact this
  cases i with
  | declaration inj ty => simp [Intro.body] at htm
  | theorem_ ty' tm' =>
    simp only [Intro.body, Option.some.injEq] at htm
    subst htm
    exact key _ _ hchk (hp.given _ (.inr (.inr (.inr ⟨_, rfl⟩))))
  | definition oty otm =>
    simp only [Intro.body] at htm
    subst htm
    cases oty with
    | some ty' => exact key _ _ hchk (hp.given _ (.inr (.inr (.inl ⟨_, rfl⟩))))
    | none => exact (hp.infd _ rfl).hasType

/-- a definition with annotation is introduced and its check succeeds: `def two : Nat := 1 + 1` -/
example : ∃ r s, intro 30 Example.gc (.definition (some (.const Example.nat)) (some Example.onePlusOne))
    (St.init fun _ => true) = .ok (r, s) ∧
    (r.2.isSome && okAnd (Check.check 30 Example.gc ⟨[], .const Example.nat, Example.onePlusOne⟩
      (St.init fun _ => false)) fun _ => true) = true :=
  okAnd_elim (p := fun r : Typing × Option Check => r.2.isSome && okAnd (Check.check 30 Example.gc ⟨[], .const Example.nat, Example.onePlusOne⟩
      (St.init fun _ => false)) fun _ => true) (by decide +kernel)

/-- C40 (partial: only for introductions without body; see `C40_false`). The recorded type has a sort as type. -/
theorem C40_sort_partial (gc : GCtx) (n : Nat) (rc : Nat → Bool) (i : Intro LTerm) (ty : Typing) (chk : Option Check)
    (s : St) (hb : i.body = none) (h : intro n gc i (St.init rc) = .ok ((ty, chk), s)) :
    HasType gc.theory [] ty.ty.den .type ∨ HasType gc.theory [] ty.ty.den .kind := by
  have hp := TriG.ok (Tri.intro n i) h
  obtain ⟨s, hs, hI⟩ := hp.decl (by rintro tm oty rfl; simp [Intro.body] at hb) (by rintro tm oty rfl; simp [Intro.body] at hb)
  cases hs with
  | type => exact .inl hI.hasType
  | kind => exact .inr hI.hasType

example : ∃ r s, intro 30 Example.gc (.declaration false (Example.arrow (.const Example.nat) .type))
    (St.init fun _ => true) = .ok (r, s) ∧ true = true :=
  okAnd_elim (p := fun _ => true) (by decide +kernel)

/-- a context with `f : Nat -> Nat` and the unchecked rule `[x] f x --> Nat` (the variable has no annotation) -/
def Example.gcBad : GCtx :=
  { Example.gc with
    types := mapInsert Example.gc.types 5 (Example.arrow (.const Example.nat) (.const Example.nat))
    rules := mapInsert Example.gc.rules 5
      [{ ctx := [(['x'], none)], lhs := { symbol := 5, args := [.mvar 0] }, rhs := .const Example.nat }] }

/-- C40 is false of the code for definitions with annotation (and theorems): `def y : f 0 := 0` is introduced and its check
succeeds, but the inferred type of the recorded type `f 0` is `Nat`, which is no sort. -/
theorem C40_false : ∃ (gc : GCtx) (i : Intro LTerm) (n : Nat) (rc : Nat → Bool) (r : Typing × Option Check) (s : St),
    intro n gc i (St.init rc) = .ok (r, s) ∧
    ((match r.2 with
      | none => true
      | some c => okAnd (Check.check n gc c (St.init rc)) fun _ => true) &&
    okAnd (infer n gc [] (STerm.ofL r.1.ty) (St.init rc)) fun q => q.1.beq (.const Example.nat)) = true :=
  ⟨Example.gcBad, .definition (some (Example.app 5 [.const Example.zero])) (some (.const Example.zero)), 40, fun _ => true,
    okAnd_elim (p := fun r : Typing × Option Check => (match r.2 with
      | none => true
      | some c => okAnd (Check.check 40 Example.gcBad c (St.init fun _ => true)) fun _ => true) &&
      okAnd (infer 40 Example.gcBad [] (STerm.ofL r.1.ty) (St.init fun _ => true)) fun q => q.1.beq (.const Example.nat))
      (by decide +kernel)⟩

/-! ## C32 -/

/-- C32. For a rule whose variables are all annotated and without wildcards, if the rule is accepted then both sides have a
common type. -/
theorem C32_rule_sound (gc : GCtx) (n n' : Nat) (rc rc' : Nat → Bool) (r : Rule) (t : TRule) (c : Check) (s s' : St)
    (ht : r.toT = some t) (h : rewrite n gc t (St.init rc) = .ok (c, s))
    (hc : Check.check n' gc c (St.init rc') = .ok ((), s')) :
    ∃ A, HasType gc.theory (t.ctx.map LTerm.den).reverse t.lhs.den A ∧
      HasType gc.theory (t.ctx.map LTerm.den).reverse r.rhs.den A := by
  obtain ⟨h1, h2, h3⟩ := TriG.ok (Tri.rewrite n t) h
  have h4 := C05_check_sound_long gc n' rc' c s' hc
  have hr : t.rhs = r.rhs := by
    unfold Rule.toT at ht
    split at ht
    · simp at ht
    · split at ht
      · simp at ht
      · simp at ht; rw [← ht]
  rw [h1, h2, hr] at h4
  exact ⟨_, h3.hasType, h4⟩

/-- the rule `plus (S m) n --> S (plus m n)` is accepted -/
example : ∃ t, Example.plusSucc.toT = some t ∧
    (okAnd (rewrite 30 Example.gc t (St.init fun _ => true)) fun c =>
      okAnd (Check.check 60 Example.gc c (St.init fun _ => true)) fun _ => true) = true :=
  ⟨_, rfl, by decide +kernel⟩

#print axioms C04_infer_sound
#print axioms C04_infer_sound_long
#print axioms C05_check_sound
#print axioms C05_check_sound_long
#print axioms C35_context_restored
#print axioms C06_intro_sound
#print axioms C40_sort_partial
#print axioms C40_false
#print axioms C32_rule_sound

end Kontroli
