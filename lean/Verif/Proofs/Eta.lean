import Mathlib.Logic.Relation
import Verif.Spec.Eta
import Verif.Proofs.Stable
import Verif.Proofs.Orthogonal

/-!
# Confluence of reduction with eta, for definitions
-/

namespace Kontroli

/-! ## Renamings -/

/-- a term that is a renaming in two ways comes from a common term -/
theorem Tm.ren_pullback {t u : Tm} {ρ ξ ρ' ξ' : Nat → Nat} (hsq : ∀ a b, ρ a = ξ b → ∃ c, a = ρ' c ∧ b = ξ' c)
    (h : t.ren ρ = u.ren ξ) : ∃ w : Tm, t = w.ren ρ' ∧ u = w.ren ξ' := by
  have hup : ∀ {ρ ξ ρ' ξ' : Nat → Nat}, (∀ a b, ρ a = ξ b → ∃ c, a = ρ' c ∧ b = ξ' c) →
      ∀ a b, Tm.upr ρ a = Tm.upr ξ b → ∃ c, a = Tm.upr ρ' c ∧ b = Tm.upr ξ' c := by
    intro ρ ξ ρ' ξ' hsq a b h
    cases a with
    | zero =>
      cases b with
      | zero => exact ⟨0, rfl, rfl⟩
      | succ b => simp [Tm.upr] at h
    | succ a =>
      cases b with
      | zero => simp [Tm.upr] at h
      | succ b =>
        simp only [Tm.upr, Nat.add_right_cancel_iff] at h
        obtain ⟨c, rfl, rfl⟩ := hsq a b h
        exact ⟨c + 1, rfl, rfl⟩
  induction t generalizing u ρ ξ ρ' ξ' with
  | kind => cases u <;> simp only [Tm.ren, reduceCtorEq] at h; exact ⟨.kind, rfl, rfl⟩
  | type => cases u <;> simp only [Tm.ren, reduceCtorEq] at h; exact ⟨.type, rfl, rfl⟩
  | const s => cases u <;> simp only [Tm.ren, reduceCtorEq, Tm.const.injEq] at h; subst h; exact ⟨.const s, rfl, rfl⟩
  | var n =>
    cases u <;> simp only [Tm.ren, reduceCtorEq, Tm.var.injEq] at h
    obtain ⟨c, rfl, rfl⟩ := hsq _ _ h
    exact ⟨.var c, rfl, rfl⟩
  | app f a ih1 ih2 =>
    cases u <;> simp only [Tm.ren, reduceCtorEq, Tm.app.injEq] at h
    obtain ⟨w, rfl, rfl⟩ := ih1 hsq h.1
    obtain ⟨w', rfl, rfl⟩ := ih2 hsq h.2
    exact ⟨.app w w', rfl, rfl⟩
  | lam A b ih1 ih2 =>
    cases u <;> simp only [Tm.ren, reduceCtorEq, Tm.lam.injEq] at h
    obtain ⟨w, rfl, rfl⟩ := ih1 hsq h.1
    obtain ⟨w', rfl, rfl⟩ := ih2 (hup hsq) h.2
    exact ⟨.lam w w', rfl, rfl⟩
  | dlam b ih =>
    cases u <;> simp only [Tm.ren, reduceCtorEq, Tm.dlam.injEq] at h
    obtain ⟨w, rfl, rfl⟩ := ih (hup hsq) h
    exact ⟨.dlam w, rfl, rfl⟩
  | pi A B ih1 ih2 =>
    cases u <;> simp only [Tm.ren, reduceCtorEq, Tm.pi.injEq] at h
    obtain ⟨w, rfl, rfl⟩ := ih1 hsq h.1
    obtain ⟨w', rfl, rfl⟩ := ih2 (hup hsq) h.2
    exact ⟨.pi w w', rfl, rfl⟩

theorem Tm.FreeBelow.sub_closed {t : Tm} (h : t.FreeBelow 0) (σ : Nat → Tm) : t.sub σ = t := by
  rw [h.sub_congr (τ := .var) (by intro n hn; omega), Tm.sub_var]

theorem Tm.FreeBelow.ren_closed {t : Tm} (h : t.FreeBelow 0) (ρ : Nat → Nat) : t.ren ρ = t := by
  rw [Tm.ren_eq_sub, h.sub_closed]

/-- the size of a term; an abstraction is larger with its annotation -/
def Tm.height : Tm → Nat
  | .app f a => f.height + a.height + 1
  | .lam A b => A.height + b.height + 2
  | .dlam b => b.height + 1
  | .pi A B => A.height + B.height + 1
  | _ => 1

theorem Tm.height_ren (t : Tm) (ρ : Nat → Nat) : (t.ren ρ).height = t.height := by
  induction t generalizing ρ with
  | app f a ih1 ih2 => simp [Tm.ren, Tm.height, ih1, ih2]
  | lam A b ih1 ih2 => simp [Tm.ren, Tm.height, ih1, ih2]
  | dlam b ih => simp [Tm.ren, Tm.height, ih]
  | pi A B ih1 ih2 => simp [Tm.ren, Tm.height, ih1, ih2]
  | _ => rfl

/-! ## Parallel reduction -/

/-- Parallel reduction with eta and definitions. -/
inductive ParE (R : RuleMap) : Tm → Tm → Prop
  | refl (t : Tm) : ParE R t t
  | app {f f' a a' : Tm} : ParE R f f' → ParE R a a' → ParE R (.app f a) (.app f' a')
  | lam {A A' b b' : Tm} : ParE R A A' → ParE R b b' → ParE R (.lam A b) (.lam A' b')
  | dlam {b b' : Tm} : ParE R b b' → ParE R (.dlam b) (.dlam b')
  | annot {A b b' : Tm} : ParE R b b' → ParE R (.lam A b) (.dlam b')
  | pi {A A' B B' : Tm} : ParE R A A' → ParE R B B' → ParE R (.pi A B) (.pi A' B')
  | beta {f b b' a a' : Tm} : f.IsAbs b → ParE R b b' → ParE R a a' → ParE R (.app f a) (b'.inst a')
  | eta {t f f' : Tm} : t.IsAbs (.app (f.shift 1) (.var 0)) → ParE R f f' → ParE R t f'
  | delta {s : Sym} {d : Tm} : Defines R s d → ParE R (.const s) d

section
variable {R : RuleMap} (hd : Definitional R)
include hd

theorem Definitional.free {s : Sym} {d : Tm} (h : Defines R s d) : d.FreeBelow 0 := by
  obtain ⟨rs, r, h1, h2, _, rfl⟩ := h
  exact hd.closed s rs r h1 h2

theorem Definitional.uniq {s : Sym} {d d' : Tm} (h : Defines R s d) (h' : Defines R s d') : d = d' := by
  obtain ⟨rs, r, h1, h2, _, rfl⟩ := h
  obtain ⟨rs', r', h1', h2', _, rfl⟩ := h'
  rw [h1] at h1'
  cases h1'
  rw [hd.unique s rs r r' h1 h2 h2']

omit hd in
theorem Tm.IsAbs.ren {t b : Tm} (h : t.IsAbs b) (ρ : Nat → Nat) : (t.ren ρ).IsAbs (b.ren (Tm.upr ρ)) := by
  cases h <;> constructor

omit hd in
theorem Tm.shift_sub_up (f : Tm) (σ : Nat → Tm) : (f.shift 1).sub (Tm.up σ) = (f.sub σ).shift 1 := by
  simp only [Tm.shift]
  rw [Tm.ren_sub, Tm.sub_ren]
  rfl

omit hd in
theorem Tm.shift_ren_upr (f : Tm) (ρ : Nat → Nat) : (f.shift 1).ren (Tm.upr ρ) = (f.ren ρ).shift 1 := by
  simp only [Tm.shift]
  rw [Tm.ren_ren, Tm.ren_ren]
  rfl

theorem ParE.ren {t u : Tm} (h : ParE R t u) (ρ : Nat → Nat) : ParE R (t.ren ρ) (u.ren ρ) := by
  induction h generalizing ρ with
  | refl t => exact .refl _
  | app _ _ ih1 ih2 => exact .app (ih1 ρ) (ih2 ρ)
  | lam _ _ ih1 ih2 => exact .lam (ih1 ρ) (ih2 _)
  | dlam _ ih => exact .dlam (ih _)
  | annot _ ih => exact .annot (ih _)
  | pi _ _ ih1 ih2 => exact .pi (ih1 ρ) (ih2 _)
  | beta h _ _ ih1 ih2 =>
    rw [Tm.inst_ren]
    exact .beta (h.ren ρ) (ih1 _) (ih2 _)
  | eta h _ ih =>
    have := h.ren ρ
    simp only [Tm.ren, Tm.shift_ren_upr, Tm.upr] at this
    exact .eta this (ih ρ)
  | delta h =>
    rw [(hd.free h).ren_closed]
    exact .delta h

theorem ParE.sub {t u : Tm} (h : ParE R t u) {σ τ : Nat → Tm} (hs : ∀ n, ParE R (σ n) (τ n)) : ParE R (t.sub σ) (u.sub τ) := by
  have up : ∀ {σ τ : Nat → Tm}, (∀ n, ParE R (σ n) (τ n)) → ∀ n, ParE R (Tm.up σ n) (Tm.up τ n) := by
    intro σ τ h n
    cases n with
    | zero => exact .refl _
    | succ n => exact (h n).ren hd _
  have rf : ∀ (t : Tm) {σ τ : Nat → Tm}, (∀ n, ParE R (σ n) (τ n)) → ParE R (t.sub σ) (t.sub τ) := by
    intro t
    induction t with
    | kind => intros; exact .refl _
    | type => intros; exact .refl _
    | const => intros; exact .refl _
    | var n => intro σ τ h; exact h n
    | app f a ih1 ih2 => intro σ τ h; exact .app (ih1 h) (ih2 h)
    | lam A b ih1 ih2 => intro σ τ h; exact .lam (ih1 h) (ih2 (up h))
    | dlam b ih => intro σ τ h; exact .dlam (ih (up h))
    | pi A B ih1 ih2 => intro σ τ h; exact .pi (ih1 h) (ih2 (up h))
  induction h generalizing σ τ with
  | refl t => exact rf t hs
  | app _ _ ih1 ih2 => exact .app (ih1 hs) (ih2 hs)
  | lam _ _ ih1 ih2 => exact .lam (ih1 hs) (ih2 (up hs))
  | dlam _ ih => exact .dlam (ih (up hs))
  | annot _ ih => exact .annot (ih (up hs))
  | pi _ _ ih1 ih2 => exact .pi (ih1 hs) (ih2 (up hs))
  | beta h _ _ ih1 ih2 =>
    rw [Tm.inst_sub]
    exact .beta (h.sub σ) (ih1 (up hs)) (ih2 hs)
  | eta h _ ih =>
    have := h.sub σ
    simp only [Tm.sub, Tm.shift_sub_up, Tm.up] at this
    exact .eta this (ih hs)
  | delta h =>
    rw [(hd.free h).sub_closed]
    exact .delta h

theorem ParE.inst {b b' a a' : Tm} (h : ParE R b b') (h' : ParE R a a') : ParE R (b.inst a) (b'.inst a') := by
  refine h.sub hd ?_
  intro n
  cases n with
  | zero => exact h'
  | succ n => exact .refl _

omit hd in
theorem ParE.annotL {A b u : Tm} (h : ParE R (.dlam b) u) : ParE R (.lam A b) u := by
  generalize ht : Tm.dlam b = t at h
  cases h with
  | refl => subst ht; exact .annot (.refl _)
  | dlam h => cases ht; exact .annot h
  | eta h h' => subst ht; cases h; exact .eta (.lam _ _) h'
  | _ => cases ht

omit hd in
theorem Tm.IsAbs.ren_inv {t c : Tm} {ρ : Nat → Nat} (h : (t.ren ρ).IsAbs c) : ∃ b, t.IsAbs b ∧ c = b.ren (Tm.upr ρ) := by
  cases t with
  | lam A b => cases h; exact ⟨b, .lam _ _, rfl⟩
  | dlam b => cases h; exact ⟨b, .dlam _, rfl⟩
  | _ => cases h

/-- reduction introduces no variables -/
theorem ParE.unren {t : Tm} {ρ : Nat → Nat} {u : Tm} (h : ParE R (t.ren ρ) u) : ∃ u' : Tm, u = u'.ren ρ ∧ ParE R t u' := by
  generalize hx : t.ren ρ = x at h
  induction h generalizing t ρ with
  | refl => exact ⟨t, hx.symm, .refl _⟩
  | app _ _ ih1 ih2 =>
    cases t <;> simp only [Tm.ren, reduceCtorEq, Tm.app.injEq] at hx
    obtain ⟨f', rfl, h1⟩ := ih1 hx.1
    obtain ⟨a', rfl, h2⟩ := ih2 hx.2
    exact ⟨.app f' a', rfl, .app h1 h2⟩
  | lam _ _ ih1 ih2 =>
    cases t <;> simp only [Tm.ren, reduceCtorEq, Tm.lam.injEq] at hx
    obtain ⟨f', rfl, h1⟩ := ih1 hx.1
    obtain ⟨a', rfl, h2⟩ := ih2 hx.2
    exact ⟨.lam f' a', rfl, .lam h1 h2⟩
  | dlam _ ih =>
    cases t <;> simp only [Tm.ren, reduceCtorEq, Tm.dlam.injEq] at hx
    obtain ⟨f', rfl, h1⟩ := ih hx
    exact ⟨.dlam f', rfl, .dlam h1⟩
  | annot _ ih =>
    cases t <;> simp only [Tm.ren, reduceCtorEq, Tm.lam.injEq] at hx
    obtain ⟨f', rfl, h1⟩ := ih hx.2
    exact ⟨.dlam f', rfl, .annot h1⟩
  | pi _ _ ih1 ih2 =>
    cases t <;> simp only [Tm.ren, reduceCtorEq, Tm.pi.injEq] at hx
    obtain ⟨f', rfl, h1⟩ := ih1 hx.1
    obtain ⟨a', rfl, h2⟩ := ih2 hx.2
    exact ⟨.pi f' a', rfl, .pi h1 h2⟩
  | beta hb _ _ ih1 ih2 =>
    cases t <;> simp only [Tm.ren, reduceCtorEq, Tm.app.injEq] at hx
    obtain ⟨e1, rfl⟩ := hx
    rw [← e1] at hb
    obtain ⟨b, hb', rfl⟩ := hb.ren_inv
    obtain ⟨b', rfl, h1⟩ := ih1 rfl
    obtain ⟨a', rfl, h2⟩ := ih2 rfl
    exact ⟨b'.inst a', by rw [Tm.inst_ren], .beta hb' h1 h2⟩
  | eta hb _ ih =>
    subst hx
    obtain ⟨b, hb', e⟩ := hb.ren_inv
    cases b <;> simp only [Tm.ren, reduceCtorEq, Tm.app.injEq] at e
    rename_i g y
    obtain ⟨e1, e2⟩ := e
    cases y <;> simp only [Tm.ren, reduceCtorEq, Tm.var.injEq] at e2
    rename_i k
    cases k with
    | succ k => simp [Tm.upr] at e2
    | zero =>
      obtain ⟨w, rfl, rfl⟩ := Tm.ren_pullback (ρ := Tm.upr ρ) (ξ := (· + 1)) (ρ' := (· + 1)) (ξ' := ρ) (by
        intro a b h
        cases a with
        | zero => simp [Tm.upr] at h
        | succ a =>
          simp only [Tm.upr, Nat.add_right_cancel_iff] at h
          exact ⟨a, rfl, h.symm⟩) e1.symm
      obtain ⟨u', rfl, h1⟩ := ih rfl
      exact ⟨u', rfl, .eta hb' h1⟩
  | delta h =>
    cases t <;> simp only [Tm.ren, reduceCtorEq, Tm.const.injEq] at hx
    subst hx
    exact ⟨_, ((hd.free h).ren_closed ρ).symm, .delta h⟩

omit hd in
theorem Tm.eta_beta (b : Tm) : (b.ren (Tm.upr (· + 1))).inst (.var 0) = b := by
  rw [Tm.inst, Tm.ren_sub]
  have : (fun n => Tm.one (.var 0) (Tm.upr (· + 1) n)) = Tm.var := by
    funext n
    cases n <;> rfl
  rw [this, Tm.sub_var]

/-- the diamond property, with a single term that all parallel reducts reduce to -/
theorem ParE.star (t : Tm) : ∃ v, ParE R t v ∧ ∀ u, ParE R t u → ParE R u v := by
  suffices h : ∀ n (t : Tm), t.height ≤ n → ∃ v, ParE R t v ∧ ∀ u, ParE R t u → ParE R u v from h _ t (le_refl _)
  intro n
  induction n with
  | zero => intro t h; cases t <;> simp [Tm.height] at h
  | succ n ih =>
    intro t ht
    cases t with
    | kind =>
      refine ⟨.kind, .refl _, ?_⟩
      intro u h
      cases h with
      | refl => exact .refl _
      | eta h => cases h
    | type =>
      refine ⟨.type, .refl _, ?_⟩
      intro u h
      cases h with
      | refl => exact .refl _
      | eta h => cases h
    | var n =>
      refine ⟨.var n, .refl _, ?_⟩
      intro u h
      cases h with
      | refl => exact .refl _
      | eta h => cases h
    | const s =>
      by_cases hs : ∃ d, Defines R s d
      · obtain ⟨d, hs⟩ := hs
        refine ⟨d, .delta hs, ?_⟩
        intro u h
        cases h with
        | refl => exact .delta hs
        | eta h => cases h
        | delta h => rw [hd.uniq h hs]; exact .refl _
      · refine ⟨.const s, .refl _, ?_⟩
        intro u h
        cases h with
        | refl => exact .refl _
        | eta h => cases h
        | delta h => exact absurd ⟨_, h⟩ hs
    | pi A B =>
      simp only [Tm.height] at ht
      obtain ⟨A', hA, hA'⟩ := ih A (by omega)
      obtain ⟨B', hB, hB'⟩ := ih B (by omega)
      refine ⟨.pi A' B', .pi hA hB, ?_⟩
      intro u h
      cases h with
      | refl => exact .pi hA hB
      | pi h1 h2 => exact .pi (hA' _ h1) (hB' _ h2)
      | eta h => cases h
    | lam A b =>
      simp only [Tm.height] at ht
      obtain ⟨v, hv, hv'⟩ := ih (.dlam b) (by simp only [Tm.height]; omega)
      refine ⟨v, hv.annotL, ?_⟩
      intro u h
      cases h with
      | refl => exact hv.annotL
      | lam h1 h2 => exact (hv' _ (.dlam h2)).annotL
      | annot h2 => exact hv' _ (.dlam h2)
      | eta h h' => cases h; exact hv' _ (.eta (.dlam _) h')
    | app f a =>
      simp only [Tm.height] at ht
      obtain ⟨a', ha, ha'⟩ := ih a (by omega)
      by_cases hf : ∃ b, f.IsAbs b
      · obtain ⟨b, hf⟩ := hf
        have hlt : b.height < f.height := by cases hf <;> simp only [Tm.height] <;> omega
        obtain ⟨b', hb, hb'⟩ := ih b (by omega)
        refine ⟨b'.inst a', .beta hf hb ha, ?_⟩
        intro u h
        cases h with
        | refl => exact .beta hf hb ha
        | @app _ f1 _ a1 h1 h2 =>
          have key : ∀ {f1}, ParE R f f1 → ParE R (.app f1 a1) (b'.inst a') := by
            intro f1 h1
            cases h1 with
            | refl => exact .beta hf hb (ha' _ h2)
            | lam _ h3 => cases hf; exact .beta (.lam _ _) (hb' _ h3) (ha' _ h2)
            | dlam h3 => cases hf; exact .beta (.dlam _) (hb' _ h3) (ha' _ h2)
            | annot h3 => cases hf; exact .beta (.dlam _) (hb' _ h3) (ha' _ h2)
            | eta h3 h4 =>
              have e := Tm.IsAbs.unique hf h3
              subst e
              have h5 := hb' _ (.app (h4.ren hd (· + 1)) (.refl (.var 0)))
              have h6 := h5.inst hd (ha' _ h2)
              rw [Tm.inst] at h6
              simp only [Tm.sub] at h6
              rw [← Tm.inst, Tm.ren_inst] at h6
              exact h6
            | app => cases hf
            | pi => cases hf
            | beta => cases hf
            | delta => cases hf
          exact key h1
        | beta h1 h2 h3 =>
          have e := Tm.IsAbs.unique hf h1
          subst e
          exact (hb' _ h2).inst hd (ha' _ h3)
        | eta h => cases h
      · obtain ⟨f', h1, h1'⟩ := ih f (by omega)
        refine ⟨.app f' a', .app h1 ha, ?_⟩
        intro u h
        cases h with
        | refl => exact .app h1 ha
        | app h2 h3 => exact .app (h1' _ h2) (ha' _ h3)
        | beta h2 => exact absurd ⟨_, h2⟩ hf
        | eta h => cases h
    | dlam b =>
      simp only [Tm.height] at ht
      by_cases hb : ∃ g, b = .app (Tm.shift g 1) (.var 0)
      · obtain ⟨g, rfl⟩ := hb
        simp only [Tm.height, Tm.shift, Tm.height_ren] at ht
        obtain ⟨g', h1, h1'⟩ := ih g (by omega)
        refine ⟨g', .eta (.dlam _) h1, ?_⟩
        intro u h
        generalize hx : Tm.dlam _ = x at h
        cases h with
        | refl => subst hx; exact .eta (.dlam _) h1
        | dlam h2 =>
          cases hx
          generalize hy : Tm.app (g.shift 1) (.var 0) = y at h2
          cases h2 with
          | refl => subst hy; exact .eta (.dlam _) h1
          | app h3 h4 =>
            cases hy
            obtain ⟨g1, rfl, h5⟩ := h3.unren hd
            have : ∀ {z}, ParE R (.var 0) z → z = .var 0 := by
              intro z hz
              cases hz with
              | refl => rfl
              | eta h => cases h
            cases this h4
            exact .eta (.dlam _) (h1' _ h5)
          | beta h3 h4 h5 =>
            cases hy
            obtain ⟨c, hc, rfl⟩ := h3.ren_inv
            obtain ⟨c', rfl, h6⟩ := h4.unren hd
            have : ∀ {z}, ParE R (.var 0) z → z = .var 0 := by
              intro z hz
              cases hz with
              | refl => rfl
              | eta h => cases h
            cases this h5
            rw [Tm.eta_beta]
            refine h1' _ ?_
            cases hc with
            | lam => exact .annot h6
            | dlam => exact .dlam h6
          | eta h => subst hy; cases h
          | lam => cases hy
          | dlam => cases hy
          | annot => cases hy
          | pi => cases hy
          | delta => cases hy
        | eta h2 h3 =>
          subst hx
          generalize hz : Tm.app (Tm.shift _ 1) (Tm.var 0) = z at h2
          cases h2
          simp only [Tm.app.injEq, and_true] at hz
          obtain ⟨w, rfl, e⟩ := Tm.ren_pullback (ρ := (· + 1)) (ξ := (· + 1)) (ρ' := id) (ξ' := id) (by
            intro a b h
            exact ⟨a, rfl, by simpa using h.symm⟩) hz
          have e' : ∀ t : Tm, t.ren id = t := Tm.ren_id
          rw [e, e'] at h3
          rw [e'] at h1'
          exact h1' _ h3
        | _ => cases hx
      · obtain ⟨b', h1, h1'⟩ := ih b (by omega)
        refine ⟨.dlam b', .dlam h1, ?_⟩
        intro u h
        cases h with
        | refl => exact .dlam h1
        | dlam h => exact .dlam (h1' _ h)
        | eta h => cases h; exact absurd ⟨_, rfl⟩ hb

omit hd in
theorem ParE.redE {t u : Tm} (h : ParE R t u) : RedE R t u := by
  induction h with
  | refl => exact .refl _
  | app _ _ ih1 ih2 => exact .app ih1 ih2
  | lam _ _ ih1 ih2 => exact .lam ih1 ih2
  | dlam _ ih => exact .dlam ih
  | annot _ ih => exact (RedE.annot _ _).trans (.dlam ih)
  | pi _ _ ih1 ih2 => exact .pi ih1 ih2
  | beta h _ _ ih1 ih2 =>
    cases h with
    | lam => exact (RedE.app ((RedE.annot _ _).trans (.dlam ih1)) ih2).trans (.beta _ _)
    | dlam => exact (RedE.app (.dlam ih1) ih2).trans (.beta _ _)
  | eta h _ ih =>
    cases h with
    | lam => exact (RedE.annot _ _).trans ((RedE.eta _).trans ih)
    | dlam => exact (RedE.eta _).trans ih
  | delta h => exact .delta h

theorem Relation.ReflTransGen.joinE {t u v : Tm} (h : Relation.ReflTransGen (ParE R) t u) (h' : Relation.ReflTransGen (ParE R) t v) :
    ∃ w, Relation.ReflTransGen (ParE R) u w ∧ Relation.ReflTransGen (ParE R) v w := by
  refine Relation.church_rosser ?_ h h'
  intro a b c hb hc
  obtain ⟨s, hs, hs'⟩ := ParE.star hd a
  exact ⟨s, .single (hs' _ hb), .single (hs' _ hc)⟩

/-- convertible terms have a common reduct -/
theorem Definitional.confluent {t u : Tm} (h : Conv R true t u) : ∃ v, RedE R t v ∧ RedE R u v := by
  suffices h : Relation.Join (Relation.ReflTransGen (ParE R)) t u by
    obtain ⟨v, h1, h2⟩ := h
    have : ∀ {t u}, Relation.ReflTransGen (ParE R) t u → RedE R t u := by
      intro t u h
      induction h with
      | refl => exact .refl _
      | tail _ h ih => exact ih.trans h.redE
    exact ⟨v, this h1, this h2⟩
  have lift1 : ∀ {F : Tm → Tm}, (∀ {a b}, ParE R a b → ParE R (F a) (F b)) → ∀ {a b}, Relation.ReflTransGen (ParE R) a b →
      Relation.ReflTransGen (ParE R) (F a) (F b) := by
    intro F hF a b h
    induction h with
    | refl => exact .refl
    | tail _ h ih => exact ih.tail (hF h)
  induction h with
  | refl t => exact ⟨t, .refl, .refl⟩
  | symm _ ih => obtain ⟨v, h1, h2⟩ := ih; exact ⟨v, h2, h1⟩
  | trans _ _ ih1 ih2 =>
    obtain ⟨v, h1, h2⟩ := ih1
    obtain ⟨w, h3, h4⟩ := ih2
    obtain ⟨x, h5, h6⟩ := Relation.ReflTransGen.joinE hd h2 h3
    exact ⟨x, h1.trans h5, h4.trans h6⟩
  | @app f f' a a' _ _ ih1 ih2 =>
    obtain ⟨v, h1, h2⟩ := ih1
    obtain ⟨w, h3, h4⟩ := ih2
    exact ⟨.app v w,
      (lift1 (F := fun x => .app x a) (fun h => .app h (.refl _)) h1).trans (lift1 (F := fun x => .app v x) (fun h => .app (.refl _) h) h3),
      (lift1 (F := fun x => .app x a') (fun h => .app h (.refl _)) h2).trans (lift1 (F := fun x => .app v x) (fun h => .app (.refl _) h) h4)⟩
  | dlam _ ih =>
    obtain ⟨v, h1, h2⟩ := ih
    exact ⟨.dlam v, lift1 (F := .dlam) .dlam h1, lift1 (F := .dlam) .dlam h2⟩
  | annot A b => exact ⟨.dlam b, .single (.annot (.refl _)), .refl⟩
  | @pi A A' B B' _ _ ih1 ih2 =>
    obtain ⟨v, h1, h2⟩ := ih1
    obtain ⟨w, h3, h4⟩ := ih2
    exact ⟨.pi v w,
      (lift1 (F := fun x => .pi x B) (fun h => .pi h (.refl _)) h1).trans (lift1 (F := fun x => .pi v x) (fun h => .pi (.refl _) h) h3),
      (lift1 (F := fun x => .pi x B') (fun h => .pi h (.refl _)) h2).trans (lift1 (F := fun x => .pi v x) (fun h => .pi (.refl _) h) h4)⟩
  | beta b a => exact ⟨b.inst a, .single (.beta (.dlam _) (.refl _) (.refl _)), .refl⟩
  | eta _ f => exact ⟨f, .single (.eta (.dlam _) (.refl _)), .refl⟩
  | @rule s rs r σ ts h1 h2 h3 h4 =>
    rw [hd.args s rs r h1 h2] at h4
    cases h4
    rw [(hd.closed s rs r h1 h2).sub_closed]
    exact ⟨_, .single (.delta ⟨rs, r, h1, h2, h3, rfl⟩), .refl⟩

end

end Kontroli
