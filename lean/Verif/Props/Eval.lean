import Verif.Proofs.Adequacy
import Verif.Proofs.SubstEq
import Verif.Proofs.Beq
import Verif.Spec.Nat

/-!
# C01, C02, C08, C09, C33, C34: evaluation and conversion

All runs start from an empty heap; the oracle `rc` that answers the uniqueness tests is arbitrary.
-/

namespace Kontroli

open Example (okAnd okAnd_elim)

/-! ## C01 -/

/-- C01. Evaluation to weak-head normal form returns a term that is equal to the given one in the equational theory. -/
theorem C01_whnf_sound (gc : GCtx) (n : Nat) (rc : Nat → Bool) (t u : STerm) (s : St)
    (h : whnf n gc t (St.init rc) = .ok (u, s)) : Conv gc.rules gc.eta t.den u.den :=
  (TriG.ok (Tri.whnf gc n t) h).1.conv

/-- C01, directed: the result is obtained from the given term by beta steps and by rules read from left to right. -/
theorem C01_whnf_reduct (gc : GCtx) (n : Nat) (rc : Nat → Bool) (t u : STerm) (s : St)
    (h : whnf n gc t (St.init rc) = .ok (u, s)) : Red gc.rules gc.eta t.den u.den :=
  (TriG.ok (Tri.whnf gc n t) h).1

/-- `(x => x + x) (1 + 1)` evaluates, and the argument is shared. -/
example : ∃ u s, whnf 30 Example.gc (STerm.ofL Example.double) (St.init fun _ => true) = .ok (u, s) ∧
    (!(STerm.beq u (STerm.ofL Example.double))) = true :=
  okAnd_elim (p := fun u => !(STerm.beq u (STerm.ofL Example.double))) (by decide +kernel)

/-! ## C02, C33 -/

/-- C02. A positive answer of the conversion test is justified in the equational theory, with eta exactly if the flag of
the context is set. -/
theorem C02_convertible_sound (gc : GCtx) (n : Nat) (rc : Nat → Bool) (t u : STerm) (s : St)
    (h : convertible n gc t u (St.init rc) = .ok (true, s)) : Conv gc.rules gc.eta t.den u.den :=
  (TriG.ok (Tri.convertible gc n t u) h).1 rfl

/-- `1 + 1` and `2` are found convertible. -/
example : ∃ b s, convertible 60 Example.gc (STerm.ofL Example.onePlusOne) (STerm.ofL Example.two)
    (St.init fun _ => true) = .ok (b, s) ∧ b = true :=
  okAnd_elim (p := fun b => b) (by decide +kernel)

/-- C33. With eta off, a positive answer is justified without eta. -/
theorem C33_no_eta (gc : GCtx) (heta : gc.eta = false) (n : Nat) (rc : Nat → Bool) (t u : STerm) (s : St)
    (h : convertible n gc t u (St.init rc) = .ok (true, s)) : Conv gc.rules false t.den u.den :=
  heta ▸ C02_convertible_sound gc n rc t u s h

/-- C33. With eta on, a positive answer is justified by beta, rules and eta. -/
theorem C33_eta (gc : GCtx) (heta : gc.eta = true) (n : Nat) (rc : Nat → Bool) (t u : STerm) (s : St)
    (h : convertible n gc t u (St.init rc) = .ok (true, s)) : Conv gc.rules true t.den u.den :=
  heta ▸ C02_convertible_sound gc n rc t u s h

/-- `x => S x` and `S`: accepted with eta, refused without. -/
example : (∃ b s, convertible 30 { Example.gc with eta := true }
      (STerm.ofL (.comb (.abst ['x'] none (Example.app Example.succ [.var 0])))) (.const Example.succ)
      (St.init fun _ => true) = .ok (b, s) ∧ b = true) ∧
    (∃ b s, convertible 30 Example.gc
      (STerm.ofL (.comb (.abst ['x'] none (Example.app Example.succ [.var 0])))) (.const Example.succ)
      (St.init fun _ => true) = .ok (b, s) ∧ (!b) = true) :=
  ⟨okAnd_elim (p := fun b => b) (by decide +kernel), okAnd_elim (p := fun b => !b) (by decide +kernel)⟩

/-! ## C08 -/

/-- C08. The kernel never panics: evaluation, conversion, inference, checking and the introduction of names and rules
give a value or an error or run on. -/
theorem C08_no_panic (gc : GCtx) (n : Nat) (rc : Nat → Bool) :
    (∀ t, whnf n gc t (St.init rc) ≠ .panic) ∧
    (∀ t u, convertible n gc t u (St.init rc) ≠ .panic) ∧
    (∀ lc t, infer n gc lc t (St.init rc) ≠ .panic) ∧
    (∀ lc t ty, check n gc lc t ty (St.init rc) ≠ .panic) ∧
    (∀ i, intro n gc i (St.init rc) ≠ .panic) ∧
    (∀ r, rewrite n gc r (St.init rc) ≠ .panic) ∧
    (∀ c, Check.check n gc c (St.init rc) ≠ .panic) :=
  ⟨fun t => (Tri.whnf gc n t).noPanic, fun t u => (Tri.convertible gc n t u).noPanic,
    fun lc t => (Tri.infer gc n lc t).noPanic, fun lc t ty => (Tri.check gc n lc t ty).noPanic,
    fun i => (Tri.intro n i).noPanic, fun r => (Tri.rewrite n r).noPanic, fun c => (Tri.checkCheck n c).noPanic⟩

/-- panics are possible in the model: a thunk that is under evaluation cannot be entered, a locked cell not be read -/
example : force (fun _ => M.pure .type) 0 ⟨[], [.busy], fun _ => true⟩ = .panic ∧
    borrowState 0 ⟨[⟨⟨[], .type, []⟩, false, true⟩], [], fun _ => true⟩ = .panic := ⟨rfl, rfl⟩

/-! ## C09 -/

/-- C09. Shifting returns the textbook shift of the term, whatever the reference counts. -/
theorem C09_shift (t : STerm) (k : Nat) (s : St) :
    ∃ t' s', shift t k s = .ok (t', s') ∧ t'.den = t.den.shift k ∧ s'.states = s.states ∧ s'.thunks = s.thunks := by
  obtain ⟨t', s', e⟩ := shift_total t k s
  have := wp_ok (shift_wp (P := fun s' => s'.states = s.states ∧ s'.thunks = s.thunks)
    (fun _ h => h) t k s ⟨rfl, rfl⟩) e
  exact ⟨t', s', e, this.2, this.1.1, this.1.2⟩

/-- C09. Substitution returns the textbook capture-avoiding substitution, whatever the reference counts. -/
theorem C09_subst (t u : STerm) (s : St) :
    ∃ t' s', subst t u s = .ok (t', s') ∧ t'.den = t.den.inst u.den ∧ s'.states = s.states ∧ s'.thunks = s.thunks := by
  obtain ⟨t', s', e⟩ := subst_total t u s
  have := wp_ok (subst_wp (P := fun s' => s'.states = s.states ∧ s'.thunks = s.thunks)
    (fun _ h => h) t u s ⟨rfl, rfl⟩) e
  exact ⟨t', s', e, this.2, this.1.1, this.1.2⟩

/-- C09. Parallel substitution of terms `σ n` for the free variables, under `k` binders, computed in place; if it reports
"no change", the substitution does not change the term. -/
theorem C09_apply_subst (σ : Nat → STerm) (t : STerm) (k : Nat) (s : St) :
    ∃ t' ch s', applySubst (fun n k => shift (σ (n - k)) k) t k s = .ok ((t', ch), s') ∧
      t'.den = t.den.sub (Tm.upn (fun n => (σ n).den) k) ∧
      (ch = false → t.den.sub (Tm.upn (fun n => (σ n).den) k) = t.den) := by
  obtain ⟨⟨t', ch⟩, s', e⟩ := applySubst_total (S := fun n k => shift (σ (n - k)) k)
    (fun n k _ => shift_total _ k) t k s
  have := wp_ok (applySubst_wp (S := fun n k => shift (σ (n - k)) k) (E := Eq) (P := fun _ => True)
    (σ := fun n => (σ n).den) Congr.eq (fun _ h => h) (fun n k s hk hP => ?_) t k s trivial) e
  · exact ⟨t', ch, s', e, this.2.1, this.2.2⟩
  · rw [Tm.upn_ge _ hk]
    exact shift_wp (fun _ h => h) (σ (n - k)) k s hP

/-- substituting `y` for `x` in `y => x y` renames nothing away: the free `y` is shifted over the binder -/
example : ∃ t' s', subst (.scomb (.abst ['y'] none (.scomb (.appl (.var 1) [.var 0])))) (.var 0)
    (St.init fun _ => false) = .ok (t', s') ∧ t'.den = .dlam (.app (.var 1) (.var 0)) :=
  ⟨_, _, rfl, rfl⟩

/-! ## C34 -/

/-- C34, reflexivity: the conversion test answers yes on equal terms in two iterations, without touching the heap
(for instance also when evaluating the term would not terminate). -/
theorem C34_refl (gc : GCtx) (n : Nat) (t : STerm) (s : St) : convertible (n + 2) gc t t s = .ok (true, s) := by
  unfold convertible ops cvBody
  simp only [STerm.beq_refl, if_true]
  rfl

#print axioms C01_whnf_sound
#print axioms C01_whnf_reduct
#print axioms C02_convertible_sound
#print axioms C33_no_eta
#print axioms C33_eta
#print axioms C08_no_panic
#print axioms C09_shift
#print axioms C09_subst
#print axioms C09_apply_subst
#print axioms C34_refl

end Kontroli
