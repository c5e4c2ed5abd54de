import Verif.Proofs.Adequacy
import Verif.Proofs.Orthogonal
import Verif.Spec.Nat

/-!
# C43, and C34, C39 for confluent rules: the conversion test decides conversion
-/

namespace Kontroli

open Example (okAnd okAnd_elim)

/-! ## C43 -/

/-- C43. Without eta and for confluent rules, the answer of the conversion test is right, be it yes or no. -/
theorem C43_decides (gc : GCtx) (heta : gc.eta = false) (hcr : Confluent gc.rules) (n : Nat) (rc : Nat → Bool)
    (t u : STerm) (b : Bool) (s : St) (h : convertible n gc t u (St.init rc) = .ok (b, s)) :
    b = true ↔ Conv gc.rules false t.den u.den := by
  have h' := TriG.ok (Tri.convertible gc n t u) h
  rw [heta] at h'
  constructor
  · exact h'.1
  · intro hc
    cases b with
    | true => rfl
    | false => exact absurd hc (Apart.notConv hcr (h'.2 rfl))

/-- C43. Orthogonal rules are confluent. -/
theorem C43_orthogonal (R : RuleMap) (h : Orthogonal R) : Confluent R := h.confluent

/-- C43. Without rules, and without eta, the answer of the conversion test is right. -/
theorem C43_no_rules (gc : GCtx) (heta : gc.eta = false) (hr : ∀ s rs, gc.rules s = some rs → rs = []) (n : Nat)
    (rc : Nat → Bool) (t u : STerm) (b : Bool) (s : St) (h : convertible n gc t u (St.init rc) = .ok (b, s)) :
    b = true ↔ Conv gc.rules false t.den u.den := by
  have no : ∀ {s rs r}, gc.rules s = some rs → r ∈ rs → False := by
    intro s rs r h1 h2
    rw [hr s rs h1] at h2
    cases h2
  refine C43_decides gc heta (C43_orthogonal gc.rules ?_) n rc t u b s h
  exact
    { linear := fun s rs r h1 h2 => (no h1 h2).elim
      closed := fun s rs r h1 h2 => (no h1 h2).elim
      root := fun s rs r r' h1 h2 => (no h1 h2).elim
      inner := fun s rs r s' ps rs' r' us bs h1 h2 => (no h1 h2).elim }

/-- The rules for addition are orthogonal. -/
theorem Example.orthogonal : Orthogonal Example.gc.rules := by
  have hR : ∀ {s rs r}, Example.gc.rules s = some rs → r ∈ rs → s = Example.plus ∧ (r = Example.plusZero ∨ r = Example.plusSucc) := by
    intro s rs r h1 h2
    simp only [Example.gc] at h1
    split at h1
    · cases h1
      exact ⟨rfl, by simpa using h2⟩
    · cases h1
  have ne : ∀ {ts : List Tm}, Example.plusZero.Matches ts → ¬ Example.plusSucc.Matches ts := by
    intro ts ⟨bs, h⟩ ⟨bs', h'⟩
    have e : Example.plusSucc.lhs.args.length = Example.plusZero.lhs.args.length := rfl
    rw [e] at h'
    generalize List.take Example.plusZero.lhs.args.length ts = us at h h'
    cases h with
    | cons h1 _ =>
      cases h' with
      | cons h1' _ =>
        generalize hz : Pattern.symb Example.zero [] = p at h1
        generalize hz' : Pattern.symb Example.succ [.mvar 1] = p' at h1'
        cases h1 with
        | symb =>
          cases hz
          generalize hx : Tm.apps (.const Example.zero) _ = x at h1'
          cases h1' with
          | symb =>
            cases hz'
            have := (Tm.apps_inj (Tm.Atom.const _).notApp (Tm.Atom.const _).notApp hx).1
            simp [Example.zero, Example.succ] at this
          | mvar => cases hz'
          | joker => cases hz'
        | mvar => cases hz
        | joker => cases hz
  refine ⟨?_, ?_, ?_, ?_⟩
  · intro s rs r h1 h2
    rcases (hR h1 h2).2 with rfl | rfl <;> decide
  · intro s rs r h1 h2
    rcases (hR h1 h2).2 with rfl | rfl
    · show 0 < 1
      decide
    · show True ∧ (True ∧ 1 < 2) ∧ 0 < 2
      decide
  · intro s rs r r' h1 h2 h3
    refine Rule.agrees_of fun ts h4 h5 => ?_
    rcases (hR h1 h2).2 with rfl | rfl <;> rcases (hR h1 h3).2 with rfl | rfl
    · rfl
    · exact absurd h5 (ne h4)
    · exact absurd h4 (ne h5)
    · rfl
  · intro s rs r s' ps rs' r' us bs h1 h2 h3 h4 h5 _
    obtain ⟨rfl, _⟩ := hR h4 h5
    exfalso
    have key : ∀ {q : Pattern} {c : Sym} {l : List Pattern}, Pattern.In q (.symb c l) → q = .symb c l ∨ Pattern.InList q l := by
      intro q c l h
      cases h with
      | self => exact .inl rfl
      | arg h => exact .inr h
    rcases (hR h1 h2).2 with rfl | rfl
    · cases h3 with
      | here h =>
        rcases key h with h | h
        · simp [Example.plus, Example.zero] at h
        · cases h
      | there h =>
        cases h with
        | here h => cases h
        | there h => cases h
    · cases h3 with
      | here h =>
        rcases key h with h | h
        · simp [Example.plus, Example.succ] at h
        · cases h with
          | here h => cases h
          | there h => cases h
      | there h =>
        cases h with
        | here h => cases h
        | there h => cases h

/-- `1 + 1` and `1` are not equal: a negative answer of the test for rules that are confluent -/
example : ¬ Conv Example.gc.rules false Example.onePlusOne.den Example.one.den := by
  obtain ⟨b, s, h, hb⟩ : ∃ b s, convertible 60 Example.gc (STerm.ofL Example.onePlusOne) (STerm.ofL Example.one)
    (St.init fun _ => true) = .ok (b, s) ∧ (!b) = true := okAnd_elim (p := fun b => !b) (by decide +kernel)
  have := C43_decides Example.gc rfl (C43_orthogonal _ Example.orthogonal) 60 _ _ _ b s h
  cases b with
  | true => cases hb
  | false => intro hc; cases this.2 hc

/-- Confluence is needed: with the rules `a --> b` and `a --> c`, the terms `b` and `c` are equal, but the test answers no. -/
def Example.twoGc : GCtx :=
  { Example.gc with
    rules := fun s => match s with
      | 5 => some [{ ctx := [], lhs := { symbol := 5, args := [] }, rhs := .const 6 },
                   { ctx := [], lhs := { symbol := 5, args := [] }, rhs := .const 7 }]
      | _ => none }

/-- C43. Without confluence the negative answers can be wrong. -/
theorem C43_not_confluent : ∃ (gc : GCtx) (t u : STerm) (s : St), gc.eta = false ∧
    convertible 10 gc t u (St.init fun _ => true) = .ok (false, s) ∧ Conv gc.rules false t.den u.den := by
  obtain ⟨b, s, h, hb⟩ : ∃ b s, convertible 10 Example.twoGc (.const 6) (.const 7)
    (St.init fun _ => true) = .ok (b, s) ∧ (!b) = true := okAnd_elim (p := fun b => !b) (by decide +kernel)
  cases b with
  | true => cases hb
  | false =>
    refine ⟨Example.twoGc, .const 6, .const 7, s, rfl, h, ?_⟩
    have sc : ∀ r : Rule, r.ctx = [] → r.lhs.args = [] → r.Scoped := by
      intro r h1 h2 m
      rw [h1, h2]
      simp [Pattern.varsList]
    have h5 : ∃ r1 r2, Example.twoGc.rules 5 = some [r1, r2] ∧ r1.ctx = [] ∧ r1.lhs.args = [] ∧ r1.rhs = .const 6 ∧
        r2.ctx = [] ∧ r2.lhs.args = [] ∧ r2.rhs = .const 7 := ⟨_, _, rfl, rfl, rfl, rfl, rfl, rfl, rfl⟩
    obtain ⟨r1, r2, h0, c1, a1, e1, c2, a2, e2⟩ := h5
    have k1 := Conv.rule (eta := false) (r := r1) (σ := .var) (ts := []) h0 (by simp) (sc _ c1 a1) (by rw [a1]; exact .nil)
    have k2 := Conv.rule (eta := false) (r := r2) (σ := .var) (ts := []) h0 (by simp) (sc _ c2 a2) (by rw [a2]; exact .nil)
    rw [e1] at k1
    rw [e2] at k2
    exact k1.symm.trans k2

/-- The rule `f c --> d`, with eta; `f` is symbol 5, `c` is 6, `d` is 7. -/
def Example.etaGc : GCtx :=
  { Example.gc with
    eta := true
    rules := fun s => match s with
      | 5 => some [{ ctx := [], lhs := { symbol := 5, args := [.symb 6 []] }, rhs := .const 7 }]
      | _ => none }

/-- `f (x => c x)` -/
def Example.etaTerm : LTerm := Example.app 5 [.comb (.abst ['x'] none (Example.app 6 [.var 0]))]

/-- C43. With eta the negative answers can be wrong even for orthogonal rules: `f (x => c x)` equals `f c`, and thus `d`, but
matching does not contract `x => c x`. -/
theorem C43_eta_false : ∃ (gc : GCtx) (t u : STerm) (s : St), Orthogonal gc.rules ∧
    convertible 30 gc t u (St.init fun _ => true) = .ok (false, s) ∧ Conv gc.rules gc.eta t.den u.den := by
  obtain ⟨b, s, h, hb⟩ : ∃ b s, convertible 30 Example.etaGc (STerm.ofL Example.etaTerm) (.const 7)
    (St.init fun _ => true) = .ok (b, s) ∧ (!b) = true := okAnd_elim (p := fun b => !b) (by decide +kernel)
  cases b with
  | true => cases hb
  | false =>
    refine ⟨Example.etaGc, _, _, s, ?_, h, ?_⟩
    · have hR : ∀ {s rs r}, Example.etaGc.rules s = some rs → r ∈ rs →
          s = 5 ∧ r = { ctx := [], lhs := { symbol := 5, args := [.symb 6 []] }, rhs := .const 7 } := by
        intro s rs r h1 h2
        simp only [Example.etaGc] at h1
        split at h1
        · cases h1
          exact ⟨rfl, by simpa using h2⟩
        · cases h1
      refine ⟨?_, ?_, ?_, ?_⟩
      · intro s rs r h1 h2
        obtain ⟨-, rfl⟩ := hR h1 h2
        decide
      · intro s rs r h1 h2
        obtain ⟨-, rfl⟩ := hR h1 h2
        trivial
      · intro s rs r r' h1 h2 h3
        left
        rw [(hR h1 h2).2, (hR h1 h3).2]
      · intro s rs r s' ps rs' r' us bs h1 h2 h3 h4 h5 _
        obtain ⟨rfl, -⟩ := hR h4 h5
        obtain ⟨-, rfl⟩ := hR h1 h2
        exfalso
        cases h3 with
        | here h =>
          generalize hp : Pattern.symb 6 [] = p at h
          cases h with
          | self => cases hp
          | arg h => cases hp; cases h
        | there h => cases h
    · refine Conv.trans (Conv.app (.refl (.const 5)) (Conv.eta rfl (.const 6))) ?_
      have h5 : ∃ r, Example.etaGc.rules 5 = some [r] ∧ r.ctx = [] ∧ r.lhs.args = [.symb 6 []] ∧ r.rhs = .const 7 :=
        ⟨_, rfl, rfl, rfl, rfl⟩
      obtain ⟨r, h0, c1, a1, e1⟩ := h5
      have k := Conv.rule (eta := true) (r := r) (σ := .var) (ts := [.const 6]) h0 (by simp)
        (by intro m; rw [c1, a1]; simp [Pattern.varsList, Pattern.vars])
        (by rw [a1]; exact .cons (.symb (ts := []) .nil) .nil)
      rw [e1] at k
      exact k

#print axioms C43_decides
#print axioms C43_orthogonal
#print axioms C43_no_rules
#print axioms C43_not_confluent
#print axioms C43_eta_false

end Kontroli
