import Mathlib.Data.List.Forall2
import Verif.Spec.Conv
import Verif.Proofs.TmLemmas

/-!
# Properties of conversion
-/

namespace Kontroli

mutual
  theorem PInst.sub {σ : Nat → Tm} (τ : Nat → Tm) {p : Pattern} {t : Tm} (h : PInst σ p t) :
      PInst (fun n => (σ n).sub τ) p (t.sub τ) :=
    match h with
    | .mvar m => .mvar m
    | .joker t => .joker _
    | .symb hs => by
      rw [Tm.apps_sub]
      exact .symb (PInsts.sub τ hs)
  theorem PInsts.sub {σ : Nat → Tm} (τ : Nat → Tm) {ps : List Pattern} {ts : List Tm} (h : PInsts σ ps ts) :
      PInsts (fun n => (σ n).sub τ) ps (ts.map (·.sub τ)) :=
    match h with
    | .nil => .nil
    | .cons hp hps => .cons (PInst.sub τ hp) (PInsts.sub τ hps)
end

theorem PInsts.length {σ : Nat → Tm} {ps : List Pattern} {ts : List Tm} (h : PInsts σ ps ts) :
    ps.length = ts.length :=
  match h with
  | .nil => rfl
  | .cons _ hps => by simp [PInsts.length hps]

namespace Conv

variable {R : RuleMap} {eta : Bool}

theorem lam' {A A' b b' : Tm} (h : Conv R eta b b') : Conv R eta (.lam A b) (.lam A' b') :=
  .trans (.annot A b) (.trans (.dlam h) (.symm (.annot A' b')))

theorem beta_lam (A b a : Tm) : Conv R eta (.app (.lam A b) a) (b.inst a) :=
  .trans (.app (.annot A b) (.refl a)) (.beta b a)

theorem apps {f f' : Tm} {as as' : List Tm} (hf : Conv R eta f f') (has : List.Forall₂ (Conv R eta) as as') :
    Conv R eta (f.apps as) (f'.apps as') := by
  induction has generalizing f f' with
  | nil => exact hf
  | cons h _ ih => exact ih (.app hf h)

theorem sub {t u : Tm} (h : Conv R eta t u) (σ : Nat → Tm) : Conv R eta (t.sub σ) (u.sub σ) := by
  induction h generalizing σ with
  | refl t => exact .refl _
  | symm _ ih => exact .symm (ih σ)
  | trans _ _ ih1 ih2 => exact .trans (ih1 σ) (ih2 σ)
  | app _ _ ih1 ih2 => exact .app (ih1 σ) (ih2 σ)
  | dlam _ ih => exact .dlam (ih _)
  | annot A b => exact .annot _ _
  | pi _ _ ih1 ih2 => exact .pi (ih1 σ) (ih2 _)
  | beta b a => rw [Tm.inst_sub]; exact .beta _ _
  | eta h f =>
    have : (Tm.dlam (.app (f.shift 1) (.var 0))).sub σ = .dlam (.app ((f.sub σ).shift 1) (.var 0)) := by
      simp [Tm.sub, Tm.shift, Tm.up, Tm.ren_sub, Tm.sub_ren]
    rw [this]; exact .eta h _
  | rule h1 h2 h3 h4 =>
    rw [Tm.apps_sub, Tm.sub_sub]
    exact .rule h1 h2 h3 (PInsts.sub σ h4)

theorem ren {t u : Tm} (h : Conv R eta t u) (ρ : Nat → Nat) : Conv R eta (t.ren ρ) (u.ren ρ) := by
  rw [Tm.ren_eq_sub, Tm.ren_eq_sub]; exact h.sub _

theorem shift {t u : Tm} (h : Conv R eta t u) (k : Nat) : Conv R eta (t.shift k) (u.shift k) := h.ren _

theorem up {σ τ : Nat → Tm} (h : ∀ n, Conv R eta (σ n) (τ n)) (n : Nat) :
    Conv R eta (Tm.up σ n) (Tm.up τ n) := by
  cases n with
  | zero => exact .refl _
  | succ n => exact (h n).ren _

theorem sub_congr (t : Tm) {σ τ : Nat → Tm} (h : ∀ n, Conv R eta (σ n) (τ n)) :
    Conv R eta (t.sub σ) (t.sub τ) := by
  induction t generalizing σ τ with
  | var n => exact h n
  | app f a ihf iha => exact .app (ihf h) (iha h)
  | lam A b ihA ihb => exact lam' (ihb (up h))
  | dlam b ihb => exact .dlam (ihb (up h))
  | pi A B ihA ihB => exact .pi (ihA h) (ihB (up h))
  | _ => exact .refl _

/-- conversion grows with the rules and with eta -/
theorem mono {R' : RuleMap} {eta' : Bool} (he : eta = true → eta' = true)
    (hR : ∀ s rs, R s = some rs → ∃ rs', R' s = some rs' ∧ ∀ r ∈ rs, r ∈ rs')
    {t u : Tm} (h : Conv R eta t u) : Conv R' eta' t u := by
  induction h with
  | refl t => exact .refl _
  | symm _ ih => exact .symm ih
  | trans _ _ ih1 ih2 => exact .trans ih1 ih2
  | app _ _ ih1 ih2 => exact .app ih1 ih2
  | dlam _ ih => exact .dlam ih
  | annot A b => exact .annot _ _
  | pi _ _ ih1 ih2 => exact .pi ih1 ih2
  | beta b a => exact .beta _ _
  | eta h f => exact .eta (he h) _
  | rule h1 h2 h3 h4 =>
    obtain ⟨rs', h1', hsub⟩ := hR _ _ h1
    exact .rule h1' (hsub _ h2) h3 h4

/-- An instance up to conversion reduces, too. -/
theorem rule' {s : Sym} {rs : List Rule} {r : Rule} {σ : Nat → Tm} {ts ts' : List Tm}
    (h1 : R s = some rs) (h2 : r ∈ rs) (h3 : r.Scoped) (h4 : PInsts σ r.lhs.args ts')
    (h5 : List.Forall₂ (Conv R eta) ts ts') : Conv R eta (Tm.apps (.const s) ts) (r.rhs.den.sub σ) :=
  .trans (apps (.refl _) h5) (.rule h1 h2 h3 h4)

end Conv

end Kontroli
