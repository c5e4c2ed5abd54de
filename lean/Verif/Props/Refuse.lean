import Verif.Proofs.Known
import Verif.Proofs.Adequacy
import Verif.Props.Confluence

/-!
# C44: refusals are justified

The declarative systems are `WellTyped` and the textbook system `Strict` (`Spec/Typing.lean`).
-/

namespace Kontroli

open Example (okAnd okAnd_elim)

section
variable {gc : GCtx} {α : Type} {m : M α} {φ : α → Prop} {E : KError → Prop} {rc : Nat → Bool}

theorem TriX.err (h : TriX gc Ghost.empty 0 m φ E) {e : KError} (he : m (St.init rc) = .err e) : E e :=
  h.2 _ (World.init _ _ rc) e he

end

/-- C44. If inference returns an error then the term has no type, unless the error is that the type of an abstraction without annotation would
have to be inferred. -/
theorem C44_infer_refuses (gc : GCtx) (hC : gc.Apt) (hL : gc.Levelled) (n : Nat) (rc : Nat → Bool) (lc : LCtx)
    (hlc : ∀ A ∈ lc, A.den.Small) (hΓ : gc.eta = true → WfCtx gc.theory (lc.map STerm.den)) (t : STerm) (e : KError) (he : e ≠ .domainFreeAbstraction)
    (h : infer n gc lc t (St.init rc) = .err e) (A : Tm) : ¬ WellTyped gc.theory (lc.map STerm.den) t.den A :=
  TriX.err ((iopsRef hC hL n).inf _ _ lc t ⟨hlc, hΓ⟩) h he _ A (.refl _)

/-- C44. If checking answers no, or returns an error, then the term does not have the type, with the same exception. -/
theorem C44_check_refuses (gc : GCtx) (hC : gc.Apt) (hL : gc.Levelled) (n : Nat) (rc : Nat → Bool) (lc : LCtx)
    (hlc : ∀ A ∈ lc, A.den.Small) (hΓ : gc.eta = true → WfCtx gc.theory (lc.map STerm.den)) (t A : STerm) (hA : A.den.Small ∨ A.den.IsKind)
    (hA' : gc.eta = true → ∃ s, IsSort s ∧ Strict gc.theory (lc.map STerm.den) A.den s)
    (h : (∃ lc' s, check n gc lc t A (St.init rc) = .ok ((false, lc'), s)) ∨
      ∃ e, e ≠ .domainFreeAbstraction ∧ check n gc lc t A (St.init rc) = .err e) :
    ¬ WellTyped gc.theory (lc.map STerm.den) t.den A.den := by
  have hX := (iopsRef hC hL n).chk Ghost.empty 0 lc t A ⟨hlc, hΓ⟩ ⟨hA, hA'⟩
  rcases h with ⟨lc', s, h⟩ | ⟨e, he, h⟩
  · exact (TriG.ok hX.1 h).2.2 rfl _ _ (.refl _) (.refl _)
  · exact TriX.err hX h he _ _ (.refl _) (.refl _)

/-- C44. The exception occurs only for terms with abstractions that have no annotation. -/
theorem C44_annotated (gc : GCtx) (n : Nat) (rc : Nat → Bool) (lc : LCtx) (t : STerm) (ht : t.den.Annotated) :
    infer n gc lc t (St.init rc) ≠ .err .domainFreeAbstraction ∧
    ∀ A, check n gc lc t A (St.init rc) ≠ .err .domainFreeAbstraction :=
  ⟨(iopsDfa gc n).inf lc t ht _, fun A => (iopsDfa gc n).chk lc t A ht _⟩

/-- C44. If a term whose abstractions are annotated has a type in the textbook system then inference, if it ends, infers a type, and that
type is convertible with it. -/
theorem C44_infer_complete (gc : GCtx) (hC : gc.Apt) (hL : gc.Levelled) (n : Nat) (rc : Nat → Bool) (lc : LCtx)
    (hlc : ∀ A ∈ lc, A.den.Small) (hΓ : gc.eta = true → WfCtx gc.theory (lc.map STerm.den)) (t : STerm) (ht : t.den.Annotated) (A : Tm)
    (h : Strict gc.theory (lc.map STerm.den) t.den A) :
    infer n gc lc t (St.init rc) = .timeout ∨
    ∃ B lc' s, infer n gc lc t (St.init rc) = .ok ((B, lc'), s) ∧ gc.theory.Conv B.den A := by
  have hw := h.wellTyped hL.theory hC.church (LCtx.Small.den hlc)
  have hX := (iopsRef hC hL n).inf Ghost.empty 0 lc t ⟨hlc, hΓ⟩
  cases hr : infer n gc lc t (St.init rc) with
  | ok r =>
    obtain ⟨⟨B, lc'⟩, s⟩ := r
    exact .inr ⟨B, lc', s, rfl, (TriG.ok hX.1 hr).2.1.unique hC.church (.refl _) hw⟩
  | err e =>
    by_cases he : e = .domainFreeAbstraction
    · subst he
      exact absurd hr (C44_annotated gc n rc lc t ht).1
    · exact absurd hw (C44_infer_refuses gc hC hL n rc lc hlc hΓ t e he hr A)
  | panic => exact absurd hr (TriG.noPanic hX.1)
  | timeout => exact .inl rfl

/-- C44. If a term whose abstractions are annotated has a type (that is small or a kind) in the textbook system then the check against it, if it ends,
answers yes. -/
theorem C44_check_complete (gc : GCtx) (hC : gc.Apt) (hL : gc.Levelled) (n : Nat) (rc : Nat → Bool) (lc : LCtx)
    (hlc : ∀ A ∈ lc, A.den.Small) (hΓ : gc.eta = true → WfCtx gc.theory (lc.map STerm.den)) (t A : STerm) (ht : t.den.Annotated) (hA : A.den.Small ∨ A.den.IsKind)
    (hA' : gc.eta = true → ∃ s, IsSort s ∧ Strict gc.theory (lc.map STerm.den) A.den s)
    (h : Strict gc.theory (lc.map STerm.den) t.den A.den) :
    check n gc lc t A (St.init rc) = .timeout ∨ ∃ lc' s, check n gc lc t A (St.init rc) = .ok ((true, lc'), s) := by
  have hw := h.wellTyped hL.theory hC.church (LCtx.Small.den hlc)
  have hX := (iopsRef hC hL n).chk Ghost.empty 0 lc t A ⟨hlc, hΓ⟩ ⟨hA, hA'⟩
  have hno := C44_check_refuses gc hC hL n rc lc hlc hΓ t A hA hA'
  cases hr : check n gc lc t A (St.init rc) with
  | ok r =>
    obtain ⟨⟨b, lc'⟩, s⟩ := r
    cases b with
    | true => exact .inr ⟨lc', s, rfl⟩
    | false => exact absurd hw (hno (.inl ⟨lc', s, hr⟩))
  | err e =>
    by_cases he : e = .domainFreeAbstraction
    · subst he
      exact absurd hr ((C44_annotated gc n rc lc t ht).2 A)
    · exact absurd hw (hno (.inr ⟨e, he, hr⟩))
  | panic => exact absurd hr (TriG.noPanic hX.1)
  | timeout => exact .inl rfl

/-- C44. The exception occurs exactly where it has to: inference succeeds only if every abstraction without a type stands where its type is known, a
check says yes only then, and for such terms the exception does not occur. -/
theorem C44_known (gc : GCtx) (n : Nat) (rc : Nat → Bool) (lc : LCtx) (t : STerm) :
    (∀ r, infer n gc lc t (St.init rc) = .ok r → t.den.Known false) ∧
    (∀ A lc' s, check n gc lc t A (St.init rc) = .ok ((true, lc'), s) → t.den.Known true) ∧
    (t.Proper → t.den.Known false → infer n gc lc t (St.init rc) ≠ .err .domainFreeAbstraction) ∧
    (t.Proper → t.den.Known true → ∀ A, check n gc lc t A (St.init rc) ≠ .err .domainFreeAbstraction) :=
  ⟨fun r h => (iopsFound gc n).inf lc t _ r.1 r.2 h, fun A _ _ h => (iopsFound gc n).chk lc t A _ _ _ h rfl,
    fun hp h => (iopsKnown gc n).inf lc t hp h _, fun hp h A => (iopsKnown gc n).chk lc t A hp h _⟩

/-- C44. A term that has a type in the textbook system, and in which only constants may be applied to no arguments: inference, if it ends, infers a
type convertible with it if every abstraction without a type stands where its type is known, and else complains about such an abstraction. -/
theorem C44_infer_typed (gc : GCtx) (hC : gc.Apt) (hL : gc.Levelled) (n : Nat) (rc : Nat → Bool) (lc : LCtx)
    (hlc : ∀ A ∈ lc, A.den.Small) (hΓ : gc.eta = true → WfCtx gc.theory (lc.map STerm.den)) (t : STerm) (hp : t.Proper) (A : Tm) (h : Strict gc.theory (lc.map STerm.den) t.den A) :
    infer n gc lc t (St.init rc) = .timeout ∨
    (t.den.Known false ∧ ∃ B lc' s, infer n gc lc t (St.init rc) = .ok ((B, lc'), s) ∧ gc.theory.Conv B.den A) ∨
    (¬ t.den.Known false ∧ infer n gc lc t (St.init rc) = .err .domainFreeAbstraction) := by
  have hw := h.wellTyped hL.theory hC.church (LCtx.Small.den hlc)
  have hX := (iopsRef hC hL n).inf Ghost.empty 0 lc t ⟨hlc, hΓ⟩
  obtain ⟨k1, -, k2, -⟩ := C44_known gc n rc lc t
  cases hr : infer n gc lc t (St.init rc) with
  | ok r =>
    obtain ⟨⟨B, lc'⟩, s⟩ := r
    exact .inr (.inl ⟨k1 _ hr, B, lc', s, rfl, (TriG.ok hX.1 hr).2.1.unique hC.church (.refl _) hw⟩)
  | err e =>
    by_cases he : e = .domainFreeAbstraction
    · subst he
      exact .inr (.inr ⟨fun hk => k2 hp hk hr, rfl⟩)
    · exact absurd hw (C44_infer_refuses gc hC hL n rc lc hlc hΓ t e he hr A)
  | panic => exact absurd hr (TriG.noPanic hX.1)
  | timeout => exact .inl rfl

/-- C44. The same for checks: the answer is yes, or the complaint. -/
theorem C44_check_typed (gc : GCtx) (hC : gc.Apt) (hL : gc.Levelled) (n : Nat) (rc : Nat → Bool) (lc : LCtx)
    (hlc : ∀ A ∈ lc, A.den.Small) (hΓ : gc.eta = true → WfCtx gc.theory (lc.map STerm.den)) (t A : STerm) (hp : t.Proper) (hA : A.den.Small ∨ A.den.IsKind)
    (hA' : gc.eta = true → ∃ s, IsSort s ∧ Strict gc.theory (lc.map STerm.den) A.den s)
    (h : Strict gc.theory (lc.map STerm.den) t.den A.den) :
    check n gc lc t A (St.init rc) = .timeout ∨
    (t.den.Known true ∧ ∃ lc' s, check n gc lc t A (St.init rc) = .ok ((true, lc'), s)) ∨
    (¬ t.den.Known true ∧ check n gc lc t A (St.init rc) = .err .domainFreeAbstraction) := by
  have hw := h.wellTyped hL.theory hC.church (LCtx.Small.den hlc)
  have hX := (iopsRef hC hL n).chk Ghost.empty 0 lc t A ⟨hlc, hΓ⟩ ⟨hA, hA'⟩
  have hno := C44_check_refuses gc hC hL n rc lc hlc hΓ t A hA hA'
  obtain ⟨-, k1, -, k2⟩ := C44_known gc n rc lc t
  cases hr : check n gc lc t A (St.init rc) with
  | ok r =>
    obtain ⟨⟨b, lc'⟩, s⟩ := r
    cases b with
    | true => exact .inr (.inl ⟨k1 _ _ _ hr, lc', s, rfl⟩)
    | false => exact absurd hw (hno (.inl ⟨lc', s, hr⟩))
  | err e =>
    by_cases he : e = .domainFreeAbstraction
    · subst he
      exact .inr (.inr ⟨fun hk => k2 hp hk A hr, rfl⟩)
    · exact absurd hw (hno (.inr ⟨e, he, hr⟩))
  | panic => exact absurd hr (TriG.noPanic hX.1)
  | timeout => exact .inl rfl

/-- C44. All types of a term for which a type is inferred are convertible with the inferred type. -/
theorem C44_unique (gc : GCtx) (hC : gc.theory.Church) (n : Nat) (rc : Nat → Bool)
    (lc lc' : LCtx) (hlc : ∀ A ∈ lc, A.den.NoKind) (t B : STerm) (s : St) (h : infer n gc lc t (St.init rc) = .ok ((B, lc'), s))
    (A : Tm) (hA : WellTyped gc.theory (lc.map STerm.den) t.den A) : gc.theory.Conv B.den A :=
  ((TriG.ok (Tri.infer gc n lc t) h).2 hlc).1.unique hC (.refl _) hA

/-- the context of natural numbers is levelled -/
theorem Example.levelled : Example.gc.Levelled where
  types := by
    intro c t h
    simp only [Example.gc] at h
    split at h
    · cases h; exact .inr ⟨trivial, trivial⟩
    all_goals first
      | cases h; exact .inl (by simp [Example.arrow, LTerm.den, LComb.den, Tm.Small])
      | cases h
  rules := by
    intro s rs r h hr
    simp only [Example.gc] at h
    split at h
    · cases h
      simp only [List.mem_cons, List.not_mem_nil, or_false] at hr
      rcases hr with rfl | rfl
      · trivial
      · simp [Example.plusSucc, Example.app, LTerm.den, LComb.den, LTerm.denList, Tm.apps, Tm.Small]
    · cases h

/-- the outcome is this error -/
def Example.isErr {α : Type} (e : KError) (r : Res (α × St)) : Bool :=
  match r with
  | .err e' => e' = e
  | _ => false

theorem Example.isErr_elim {α : Type} {e : KError} {r : Res (α × St)} (h : Example.isErr e r = true) : r = .err e := by
  unfold Example.isErr at h
  split at h
  · simpa using h
  · cases h

/-- `S Nat` has no type -/
example (A : Tm) : ¬ WellTyped Example.gc.theory [] (.app (.const Example.succ) (.const Example.nat)) A :=
  C44_infer_refuses Example.gc (.plain rfl Example.orthogonal.confluent) Example.levelled 30 (fun _ => true) [] (by simp) nofun
    (STerm.ofL (Example.app Example.succ [.const Example.nat])) .unconvertible (by decide)
    (Example.isErr_elim (by decide +kernel)) A

/-- `x => x` does not have type `Nat` -/
example : ¬ WellTyped Example.gc.theory [] (.dlam (.var 0)) (.const Example.nat) :=
  C44_check_refuses Example.gc (.plain rfl Example.orthogonal.confluent) Example.levelled 30 (fun _ => true) [] (by simp) nofun
    (STerm.ofL (.comb (.abst ['x'] none (.var 0)))) (.const Example.nat) (.inl trivial) nofun
    (.inr ⟨.productExpected, by decide, Example.isErr_elim (by decide +kernel)⟩)

/-- a constant `F : Type` with a rule `F --> Type`, and a constant `c : F` -/
def Example.levelGc : GCtx :=
  { types := fun s => match s with
      | 0 => some .type
      | 1 => some (.const 0)
      | _ => none
    rules := fun s => match s with
      | 0 => some [{ ctx := [], lhs := { symbol := 0, args := [] }, rhs := .type }]
      | _ => none
    eta := false }

theorem Example.levelOrth : Orthogonal Example.levelGc.rules := by
  have hR : ∀ {s rs r}, Example.levelGc.rules s = some rs → r ∈ rs →
      s = 0 ∧ r = { ctx := [], lhs := { symbol := 0, args := [] }, rhs := .type } := by
    intro s rs r h1 h2
    simp only [Example.levelGc] at h1
    split at h1
    · cases h1
      exact ⟨rfl, by simpa using h2⟩
    · cases h1
  refine ⟨?_, ?_, ?_, ?_⟩
  · intro s rs r h1 h2
    rw [(hR h1 h2).2]
    decide
  · intro s rs r h1 h2
    rw [(hR h1 h2).2]
    trivial
  · intro s rs r r' h1 h2 h3
    left
    rw [(hR h1 h2).2, (hR h1 h3).2]
  · intro s rs r s' ps rs' r' us bs h1 h2 h3
    rw [(hR h1 h2).2] at h3
    cases h3

/-- C44. The levels are needed: a rule may make a small type equal to `Type`, which the code does not see because it compares with `Type` before
evaluation.  Then `x : c => x` is refused although it is typable. -/
theorem C44_levels_needed : ∃ (gc : GCtx) (t : STerm) (A : Tm), gc.eta = false ∧ Confluent gc.rules ∧ t.den.Annotated ∧
    infer 30 gc [] t (St.init fun _ => true) = .err .bindNoType ∧ Strict gc.theory [] t.den A := by
  refine ⟨Example.levelGc, STerm.ofL (.comb (.abst ['x'] (some (.const 1)) (.var 0))), .pi (.const 1) (.const 1), rfl,
    Example.levelOrth.confluent, ⟨trivial, trivial⟩, Example.isErr_elim (by decide +kernel), ?_⟩
  have hc : Example.levelGc.theory.Conv (.const 0) .type := by
    have h5 : ∃ r, Example.levelGc.rules 0 = some [r] ∧ r.ctx = [] ∧ r.lhs.args = [] ∧ r.rhs = .type := ⟨_, rfl, rfl, rfl, rfl⟩
    obtain ⟨r, h0, c1, a1, e1⟩ := h5
    have k := Conv.rule (eta := false) (r := r) (σ := .var) (ts := []) h0 (by simp)
      (by intro m; rw [c1, a1]; simp [Pattern.varsList]) (by rw [a1]; exact .nil)
    rw [e1] at k
    exact k
  have h1 : ∀ Γ, Strict Example.levelGc.theory Γ (.const 1) .type :=
    fun Γ => .conv (.const rfl) hc .type .kind
  exact .lam (h1 []) (.var (A := .const 1) rfl) (h1 _) .type

/-- `1 + 1`, `S` and a kind: instances of the completeness theorems -/
example : Strict Example.gc.theory [] Example.onePlusOne.den (.const Example.nat) := by
  have one : Strict Example.gc.theory [] Example.one.den (.const Example.nat) :=
    .app (A := .const Example.nat) (B := .const Example.nat) (.const rfl) (.const rfl)
  exact .app (A := .const Example.nat) (B := .const Example.nat)
    (.app (A := .const Example.nat) (B := .pi (.const Example.nat) (.const Example.nat)) (.const rfl) one) one

example : Example.onePlusOne.den.Annotated := by
  simp [Example.onePlusOne, Example.one, Example.app, LTerm.den, LComb.den, LTerm.denList, Tm.apps, Tm.Annotated]

/-- A domain-free abstraction is refused although it is typable: the exception is needed. -/
theorem C44_domain_free : ∃ (gc : GCtx) (t : STerm) (A : Tm), gc.eta = false ∧ Confluent gc.rules ∧ gc.Levelled ∧
    infer 30 gc [] t (St.init fun _ => true) = .err .domainFreeAbstraction ∧ Strict gc.theory [] t.den A :=
  ⟨Example.gc, STerm.ofL (.comb (.abst ['x'] none (.var 0))), .pi (.const Example.nat) (.const Example.nat), rfl,
    Example.orthogonal.confluent, Example.levelled, Example.isErr_elim (by decide +kernel),
    .dlam (.const (A := .type) rfl) (.var (A := .const Example.nat) rfl) (.const (A := .type) rfl) .type⟩

#print axioms C44_infer_refuses
#print axioms C44_check_refuses
#print axioms C44_annotated
#print axioms C44_known
#print axioms C44_infer_typed
#print axioms C44_check_typed
#print axioms C44_infer_complete
#print axioms C44_check_complete
#print axioms C44_unique
#print axioms C44_levels_needed
#print axioms C44_domain_free

end Kontroli
