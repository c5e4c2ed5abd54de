import Verif.Proofs.Structural
import Verif.Proofs.Arith

/-!
# Rules without the types of their variables

The types of the variables of a rule are used when the rule is checked, but not when it is applied.  So what is known of theories with written types can be
transferred to theories where they are left out.
-/

namespace Kontroli

/-- what the rule `r` does, `r'` does -/
structure Rule.Sim (r r' : Rule) : Prop where
  insts : r.Scoped → ∀ σ ts, PInsts σ r.lhs.args ts → ∃ σ', r'.Scoped ∧ PInsts σ' r'.lhs.args ts ∧ r'.rhs.den.sub σ' = r.rhs.den.sub σ
  binds : ∀ (R : RuleMap) (σ : Nat → Tm) ts bs, r.Scoped → PBinds r.lhs.args ts bs → Solves R false bs σ → (∀ m, r.ctx.length ≤ m → ∃ n, σ m = .var n) →
    ∃ σ' bs', r'.Scoped ∧ PBinds r'.lhs.args ts bs' ∧ Solves R false bs' σ' ∧ (∀ m, r'.ctx.length ≤ m → ∃ n, σ' m = .var n) ∧
      r'.rhs.den.sub σ' = r.rhs.den.sub σ

/-- what the rules `R` do, the rules `R'` do -/
def RuleMap.Sims (R R' : RuleMap) : Prop := ∀ s rs r, R s = some rs → r ∈ rs → ∃ rs' r', R' s = some rs' ∧ r' ∈ rs' ∧ r.Sim r'

/-- only the names and types of the variables are different -/
theorem Rule.Sim.ctx {r r' : Rule} (h1 : r.lhs.args = r'.lhs.args) (h2 : r.rhs = r'.rhs) (h3 : r.ctx.length = r'.ctx.length) : r.Sim r' := by
  have hs : r.Scoped → r'.Scoped := by
    intro h m
    have := h m
    rwa [h1, h3] at this
  refine ⟨fun h σ ts hi => ⟨σ, hs h, h1 ▸ hi, by rw [h2]⟩, fun R σ ts bs h hb hsol hv => ⟨σ, bs, hs h, h1 ▸ hb, hsol, ?_, by rw [h2]⟩⟩
  rwa [h3] at hv

section
variable {R R' : RuleMap} (h : R.Sims R')
include h

theorem Conv.sims {t u : Tm} (hc : Conv R false t u) : Conv R' false t u := by
  induction hc with
  | refl t => exact .refl t
  | symm _ ih => exact .symm ih
  | trans _ _ ih1 ih2 => exact .trans ih1 ih2
  | app _ _ ih1 ih2 => exact .app ih1 ih2
  | dlam _ ih => exact .dlam ih
  | annot A b => exact .annot A b
  | pi _ _ ih1 ih2 => exact .pi ih1 ih2
  | beta b a => exact .beta b a
  | eta h => cases h
  | rule h1 h2 h3 h4 =>
    obtain ⟨rs', r', k1, k2, k3⟩ := h _ _ _ h1 h2
    obtain ⟨σ', k4, k5, k6⟩ := k3.insts h3 _ _ h4
    rw [← k6]
    exact .rule k1 k2 k4 k5

theorem Solves.sims {bs : List (Nat × Tm)} {σ : Nat → Tm} (hs : Solves R false bs σ) : Solves R' false bs σ := ⟨hs.1, fun p hp => (hs.2 p hp).sims h⟩

theorem RedA.sims {t u : Tm} (hr : RedA R t u) : RedA R' t u := by
  induction hr with
  | refl t => exact .refl t
  | trans _ _ ih1 ih2 => exact .trans ih1 ih2
  | app _ _ ih1 ih2 => exact .app ih1 ih2
  | lam _ _ ih1 ih2 => exact .lam ih1 ih2
  | dlam _ ih => exact .dlam ih
  | annot A b => exact .annot A b
  | pi _ _ ih1 ih2 => exact .pi ih1 ih2
  | beta b a => exact .beta b a
  | rule h1 h2 h3 h4 h5 h6 =>
    obtain ⟨rs', r', k1, k2, k3⟩ := h _ _ _ h1 h2
    obtain ⟨σ', bs', k4, k5, k6, k7, k8⟩ := k3.binds _ _ _ _ h3 h4 h5 h6
    rw [← k8]
    exact .rule k1 k2 k4 k5 (k6.sims h) k7

theorem Step.sims {t u : Tm} (hr : Step R false t u) : Step R' false t u := by
  induction hr with
  | appL _ ih => exact .appL ih
  | appR _ ih => exact .appR ih
  | lamL _ ih => exact .lamL ih
  | lamR _ ih => exact .lamR ih
  | dlam _ ih => exact .dlam ih
  | piL _ ih => exact .piL ih
  | piR _ ih => exact .piR ih
  | beta A b a => exact .beta A b a
  | dbeta b a => exact .dbeta b a
  | rule h1 h2 h3 h4 h5 h6 =>
    obtain ⟨rs', r', k1, k2, k3⟩ := h _ _ _ h1 h2
    obtain ⟨σ', bs', k4, k5, k6, k7, k8⟩ := k3.binds _ _ _ _ h3 h4 h5 h6
    rw [← k8]
    exact .rule k1 k2 k4 k5 (k6.sims h) k7

theorem SN.sims {t : Tm} (ht : SN R' false t) : SN R false t := by
  induction ht with
  | intro t _ ih => exact ⟨_, fun u hu => ih u (hu.sims h)⟩

end

theorem Confluent.sims {R R' : RuleMap} (h : R.Sims R') (h' : R'.Sims R) (cr : Confluent R) : Confluent R' := by
  intro t u htu
  obtain ⟨v, h1, h2⟩ := cr t u (htu.sims h')
  exact ⟨v, h1.sims h, h2.sims h⟩

/-- the theory with other rules -/
def Theory.withRules (T : Theory) (R : RuleMap) : Theory := ⟨T.ty, R, T.eta⟩

theorem Strict.sims {T T' : Theory} (hty : T.ty = T'.ty) (hc : ∀ t u, T.Conv t u → T'.Conv t u) {Γ : List Tm} {t A : Tm} (h : Strict T Γ t A) :
    Strict T' Γ t A := by
  induction h with
  | type => exact .type
  | const h => exact .const (hty ▸ h)
  | var h => exact .var h
  | app _ _ ih1 ih2 => exact .app ih1 ih2
  | lam _ _ _ hs ih1 ih2 ih3 => exact .lam ih1 ih2 ih3 hs
  | dlam _ _ _ hs ih1 ih2 ih3 => exact .dlam ih1 ih2 ih3 hs
  | pi _ _ hs ih1 ih2 => exact .pi ih1 ih2 hs
  | conv _ h _ hs ih1 ih2 => exact .conv ih1 (hc _ _ h) ih2 hs

theorem WfCtx.sims {T T' : Theory} (hty : T.ty = T'.ty) (hc : ∀ t u, T.Conv t u → T'.Conv t u) {Γ : List Tm} (h : WfCtx T Γ) : WfCtx T' Γ := by
  induction h with
  | nil => exact .nil
  | cons _ h ih => exact .cons ih (h.sims hty hc)

/-- A theory is well-formed and normalising if its rules do the same as structurally recursive rules with typed variables, on objects
(or definitions). -/
theorem Theory.normalising_like {T : Theory} {R : RuleMap} (he : T.eta = false) (h1 : T.rules.Sims R) (h2 : R.Sims T.rules) (cr : Confluent T.rules)
    (hS : T.Sorted) (ht : ∀ s rs r, R s = some rs → r ∈ rs → r.lhs.symbol = s ∧ RuleTyped (T.withRules R) r)
    (ho : ∀ s rs r, R s = some rs → r ∈ rs → (r.rhs.den.FreeBelow 0 ∧ r.rhs.den.simple (fun _ => .base) = .base) ∨ ∃ A, T.ty s = some A ∧ Strict T [] A .type)
    (hR : ClosedRules R)
    (hlin : ∀ s rs r, R s = some rs → r ∈ rs → (Pattern.varsList r.lhs.args).Nodup)
    (hflat : ∀ s rs r, R s = some rs → r ∈ rs → r.Flat R) {lv pos : Sym → Nat}
    (hdesc : ∀ s rs r, R s = some rs → r ∈ rs → r.rhs.den.Descends lv pos r 0) : T.WellFormed ∧ T.Normalising := by
  have c1 : ∀ t u, T.Conv t u → (T.withRules R).Conv t u := by
    intro t u h
    unfold Theory.Conv at h ⊢
    simp only [Theory.withRules]
    rw [he] at h ⊢
    exact h.sims h1
  have c2 : ∀ t u, (T.withRules R).Conv t u → T.Conv t u := by
    intro t u h
    unfold Theory.Conv at h ⊢
    simp only [Theory.withRules] at h
    rw [he] at h ⊢
    exact h.sims h2
  have e1 : T.ty = (T.withRules R).ty := rfl
  have he' : (T.withRules R).eta = false := he
  have cr' : Confluent (T.withRules R).rules := cr.sims h1 h2
  have hS' : (T.withRules R).Sorted := fun c A hA => let ⟨s, hs, h⟩ := hS c A hA; ⟨s, hs, h.sims e1 c1⟩
  have hT' : (T.withRules R).WellFormed := hS'.wellFormed (.plain he' cr') fun s rs r hr hm => ⟨(ht s rs r hr hm).1, .inl (ht s rs r hr hm).2⟩
  have hκ : Fits (T.withRules R) fun _ => .base := ⟨fun _ _ _ _ => rfl, fun s rs r hr hm =>
    (ho s rs r hr hm).imp id fun ⟨A, h3, h4⟩ => ⟨A, h3, h4.sims e1 c1⟩⟩
  have hN' : (T.withRules R).Normalising := Theory.normalising hT' (.plain he' cr') hκ hR
    (reducible_consts hT' he' cr' hκ hR (fun _ _ => rfl) hlin ht hflat hdesc)
  refine ⟨⟨hS, ?_⟩, ?_⟩
  · intro s rs r hr hm Γ σ ts bs A hΓ hs hb hsol hv hA
    obtain ⟨rs', r', k1, k2, k3⟩ := h1 _ _ _ hr hm
    rw [he] at hsol
    obtain ⟨σ', bs', k4, k5, k6, k7, k8⟩ := k3.binds _ _ _ _ hs hb hsol hv
    rw [← k8]
    refine Strict.sims (T := T.withRules R) e1.symm c2 ?_
    refine hT'.rules s rs' r' k1 k2 Γ σ' ts bs' A (hΓ.sims e1 c1) k4 k5 ?_ k7 (hA.sims e1 c1)
    rw [he']
    exact k6.sims h1
  · intro Γ t A hΓ hA
    have := hN' Γ t A (hΓ.sims e1 c1) (hA.sims e1 c1)
    rw [he'] at this
    rw [he]
    exact this.sims h1

end Kontroli
