import Verif.Spec.WellFormed
import Verif.Proofs.Levels
import Verif.Proofs.Orthogonal

/-!
# Meta-theory of the textbook system: substitution, generation, subject reduction, uniqueness of sorts
-/

namespace Kontroli

variable {T : Theory}

theorem IsSort.ren {s : Tm} (h : IsSort s) (ρ : Nat → Nat) : s.ren ρ = s := by cases h <;> rfl
theorem IsSort.sub {s : Tm} (h : IsSort s) (σ : Nat → Tm) : s.sub σ = s := by cases h <;> rfl

theorem Tm.FreeBelow.sub_eq {t : Tm} (h : t.FreeBelow 0) (σ : Nat → Tm) : t.sub σ = t := by
  rw [h.sub_congr (τ := .var) (by intro n hn; omega), Tm.sub_var]

theorem Tm.FreeBelow.ren_eq {t : Tm} (h : t.FreeBelow 0) (ρ : Nat → Nat) : t.ren ρ = t := by
  rw [Tm.ren_eq_sub, h.sub_eq]

theorem Strict.freeBelow {Γ : List Tm} {t A : Tm} (h : Strict T Γ t A) : t.FreeBelow Γ.length := by
  induction h with
  | type => trivial
  | const _ => trivial
  | var h => exact (List.getElem?_eq_some_iff.1 h).1
  | app _ _ ih1 ih2 => exact ⟨ih1, ih2⟩
  | lam _ _ _ _ ih1 ih2 _ => exact ⟨ih1, ih2⟩
  | dlam _ _ _ _ _ ih2 _ => exact ih2
  | pi _ _ _ ih1 ih2 => exact ⟨ih1, ih2⟩
  | conv _ _ _ _ ih _ => exact ih

theorem Strict.not_kind {Γ : List Tm} {t A : Tm} (h : Strict T Γ t A) : t ≠ .kind := by
  induction h with
  | conv _ _ _ _ ih _ => exact ih
  | _ => simp

section
variable (hC : ∀ c A, T.ty c = some A → A.FreeBelow 0)
include hC

theorem Strict.ren {Γ : List Tm} {t A : Tm} (h : Strict T Γ t A) {Δ : List Tm} {ρ : Nat → Nat}
    (hρ : ∀ n B, Γ[n]? = some B → ∃ B', Δ[ρ n]? = some B' ∧ B'.shift (ρ n + 1) = (B.shift (n + 1)).ren ρ) :
    Strict T Δ (t.ren ρ) (A.ren ρ) := by
  have up : ∀ {Γ Δ : List Tm} {ρ : Nat → Nat} (A : Tm),
      (∀ n B, Γ[n]? = some B → ∃ B', Δ[ρ n]? = some B' ∧ B'.shift (ρ n + 1) = (B.shift (n + 1)).ren ρ) →
      ∀ n B, (A :: Γ)[n]? = some B → ∃ B', (A.ren ρ :: Δ)[Tm.upr ρ n]? = some B' ∧
        B'.shift (Tm.upr ρ n + 1) = (B.shift (n + 1)).ren (Tm.upr ρ) := by
    intro Γ Δ ρ A hρ n B hB
    cases n with
    | zero =>
      simp only [List.getElem?_cons_zero, Option.some.injEq] at hB
      subst hB
      refine ⟨_, rfl, ?_⟩
      simp only [Tm.shift, Tm.ren_ren]
      rfl
    | succ n =>
      simp only [List.getElem?_cons_succ] at hB
      obtain ⟨B', h1, h2⟩ := hρ n B hB
      refine ⟨B', by simpa [Tm.upr] using h1, ?_⟩
      have h3 : B'.shift (Tm.upr ρ (n + 1) + 1) = (B'.shift (ρ n + 1)).ren (· + 1) := by
        simp only [Tm.shift, Tm.ren_ren, Tm.upr]
        rfl
      rw [h3, h2]
      simp only [Tm.shift, Tm.ren_ren, Tm.upr]
      rfl
  induction h generalizing Δ ρ with
  | type => exact .type
  | const h =>
    rw [(hC _ _ h).ren_eq]
    exact .const h
  | var h =>
    obtain ⟨B', h1, h2⟩ := hρ _ _ h
    rw [← h2]
    exact .var h1
  | app _ _ ih1 ih2 =>
    rw [Tm.inst_ren]
    exact .app (ih1 hρ) (ih2 hρ)
  | lam _ _ _ hs ih1 ih2 ih3 =>
    have h3 := ih3 (up _ hρ)
    rw [hs.ren] at h3
    exact .lam (ih1 hρ) (ih2 (up _ hρ)) h3 hs
  | dlam _ _ _ hs ih1 ih2 ih3 =>
    have h3 := ih3 (up _ hρ)
    rw [hs.ren] at h3
    exact .dlam (ih1 hρ) (ih2 (up _ hρ)) h3 hs
  | pi _ _ hs ih1 ih2 =>
    have h2 := ih2 (up _ hρ)
    rw [hs.ren] at h2 ⊢
    exact .pi (ih1 hρ) h2 hs
  | conv _ hc _ hs ih1 ih2 =>
    have h2 := ih2 hρ
    rw [hs.ren] at h2
    exact .conv (ih1 hρ) (Kontroli.Conv.ren hc ρ) h2 hs

theorem Strict.weaken {Γ : List Tm} {t A : Tm} (h : Strict T Γ t A) (B : Tm) : Strict T (B :: Γ) (t.shift 1) (A.shift 1) := by
  refine h.ren hC ?_
  intro n C hC'
  refine ⟨C, by simpa using hC', ?_⟩
  simp only [Tm.shift, Tm.ren_ren]
  rfl

theorem Strict.sub {Γ : List Tm} {t A : Tm} (h : Strict T Γ t A) {Δ : List Tm} {σ : Nat → Tm}
    (hσ : ∀ n B, Γ[n]? = some B → Strict T Δ (σ n) ((B.shift (n + 1)).sub σ)) : Strict T Δ (t.sub σ) (A.sub σ) := by
  have up : ∀ {Γ Δ : List Tm} {σ : Nat → Tm} (A : Tm),
      (∀ n B, Γ[n]? = some B → Strict T Δ (σ n) ((B.shift (n + 1)).sub σ)) →
      ∀ n B, (A :: Γ)[n]? = some B → Strict T (A.sub σ :: Δ) (Tm.up σ n) ((B.shift (n + 1)).sub (Tm.up σ)) := by
    intro Γ Δ σ A hσ n B hB
    cases n with
    | zero =>
      simp only [List.getElem?_cons_zero, Option.some.injEq] at hB
      subst hB
      have : (A.shift (0 + 1)).sub (Tm.up σ) = (A.sub σ).shift (0 + 1) := by
        simp only [Tm.shift, Tm.ren_sub, Tm.sub_ren]
        rfl
      rw [this]
      exact .var rfl
    | succ n =>
      simp only [List.getElem?_cons_succ] at hB
      have h1 := (hσ n B hB).weaken hC (A.sub σ)
      have : (B.shift (n + 1 + 1)).sub (Tm.up σ) = ((B.shift (n + 1)).sub σ).shift 1 := by
        simp only [Tm.shift, Tm.ren_sub, Tm.sub_ren]
        rfl
      rw [this]
      exact h1
  induction h generalizing Δ σ with
  | type => exact .type
  | const h =>
    rw [(hC _ _ h).sub_eq]
    exact .const h
  | var h => exact hσ _ _ h
  | app _ _ ih1 ih2 =>
    rw [Tm.inst_sub]
    exact .app (ih1 hσ) (ih2 hσ)
  | lam _ _ _ hs ih1 ih2 ih3 =>
    have h3 := ih3 (up _ hσ)
    rw [hs.sub] at h3
    exact .lam (ih1 hσ) (ih2 (up _ hσ)) h3 hs
  | dlam _ _ _ hs ih1 ih2 ih3 =>
    have h3 := ih3 (up _ hσ)
    rw [hs.sub] at h3
    exact .dlam (ih1 hσ) (ih2 (up _ hσ)) h3 hs
  | pi _ _ hs ih1 ih2 =>
    have h2 := ih2 (up _ hσ)
    rw [hs.sub] at h2 ⊢
    exact .pi (ih1 hσ) h2 hs
  | conv _ hc _ hs ih1 ih2 =>
    have h2 := ih2 hσ
    rw [hs.sub] at h2
    exact .conv (ih1 hσ) (Kontroli.Conv.sub hc σ) h2 hs

theorem Strict.inst {Γ : List Tm} {t A B a : Tm} (h : Strict T (B :: Γ) t A) (ha : Strict T Γ a B) : Strict T Γ (t.inst a) (A.inst a) := by
  refine h.sub hC ?_
  intro n C hC'
  cases n with
  | zero =>
    simp only [List.getElem?_cons_zero, Option.some.injEq] at hC'
    subst hC'
    have : (B.shift (0 + 1)).sub (Tm.one a) = B := Tm.ren_inst B a
    rw [this]
    exact ha
  | succ n =>
    simp only [List.getElem?_cons_succ] at hC'
    have : (C.shift (n + 1 + 1)).sub (Tm.one a) = C.shift (n + 1) := by
      have h1 : C.shift (n + 1 + 1) = (C.shift (n + 1)).ren (· + 1) := by
        simp only [Tm.shift, Tm.ren_ren]
        rfl
      rw [h1]
      exact Tm.ren_inst _ a
    rw [this]
    exact .var hC'

/-- the type of variable 0 may be replaced by a convertible one -/
theorem Strict.ctx_conv {Γ : List Tm} {t A B B' s : Tm} (h : Strict T (B :: Γ) t A) (hc : T.Conv B' B) (hB : Strict T Γ B s) (hs : IsSort s) :
    Strict T (B' :: Γ) t A := by
  have h1 := h.sub hC (Δ := B' :: Γ) (σ := .var) (by
    intro n C hn
    rw [Tm.sub_var]
    cases n with
    | zero =>
      simp only [List.getElem?_cons_zero, Option.some.injEq] at hn
      subst hn
      have h2 := hB.weaken hC B'
      rw [show s.shift 1 = s from hs.ren _] at h2
      exact .conv (.var rfl) (Kontroli.Conv.ren hc _) h2 hs
    | succ n =>
      simp only [List.getElem?_cons_succ] at hn
      exact .var (by simpa using hn))
  rwa [Tm.sub_var, Tm.sub_var] at h1

theorem WfCtx.get {Γ : List Tm} (h : WfCtx T Γ) {n : Nat} {A : Tm} (hA : Γ[n]? = some A) : Strict T Γ (A.shift (n + 1)) .type := by
  induction h generalizing n with
  | nil => simp at hA
  | @cons Γ B h hB ih =>
    cases n with
    | zero =>
      simp only [List.getElem?_cons_zero, Option.some.injEq] at hA
      subst hA
      exact hB.weaken hC _
    | succ n =>
      simp only [List.getElem?_cons_succ] at hA
      have h1 := (ih hA).weaken hC B
      rw [Tm.shift_shift] at h1
      exact h1

end

/-! ## Generation -/

/-- `C` is `D` up to well-sorted conversion -/
def GenTy (T : Theory) (Γ : List Tm) (D C : Tm) : Prop := T.Conv D C ∧ (C = D ∨ ∃ s, IsSort s ∧ Strict T Γ C s)

theorem GenTy.refl {Γ : List Tm} (D : Tm) : GenTy T Γ D D := ⟨.refl D, .inl rfl⟩

theorem GenTy.conv {Γ : List Tm} {D C C' s : Tm} (h : GenTy T Γ D C) (hc : T.Conv C C') (h' : Strict T Γ C' s) (hs : IsSort s) :
    GenTy T Γ D C' := ⟨h.1.trans hc, .inr ⟨s, hs, h'⟩⟩

/-- retyping -/
theorem Strict.retype {Γ : List Tm} {t D D' C s : Tm} (h : Strict T Γ t D') (hc : T.Conv D' D) (hD : Strict T Γ D s) (hs : IsSort s)
    (hg : GenTy T Γ D C) : Strict T Γ t C := by
  rcases hg with ⟨h1, rfl | ⟨s', hs', h2⟩⟩
  · exact .conv h hc hD hs
  · exact .conv h (hc.trans h1) h2 hs'

theorem Strict.gen {Γ : List Tm} {t C : Tm} (h : Strict T Γ t C) :
    match t with
    | .kind => False
    | .type => GenTy T Γ .kind C
    | .const c => ∃ A, T.ty c = some A ∧ GenTy T Γ A C
    | .var n => ∃ A, Γ[n]? = some A ∧ GenTy T Γ (A.shift (n + 1)) C
    | .app f a => ∃ A B, Strict T Γ f (.pi A B) ∧ Strict T Γ a A ∧ GenTy T Γ (B.inst a) C
    | .lam A b => ∃ B s, IsSort s ∧ Strict T Γ A .type ∧ Strict T (A :: Γ) b B ∧ Strict T (A :: Γ) B s ∧ GenTy T Γ (.pi A B) C
    | .dlam b => ∃ A B s, IsSort s ∧ Strict T Γ A .type ∧ Strict T (A :: Γ) b B ∧ Strict T (A :: Γ) B s ∧ GenTy T Γ (.pi A B) C
    | .pi A B => ∃ s, IsSort s ∧ Strict T Γ A .type ∧ Strict T (A :: Γ) B s ∧ GenTy T Γ s C := by
  induction h with
  | type => exact .refl _
  | const h => exact ⟨_, h, .refl _⟩
  | var h => exact ⟨_, h, .refl _⟩
  | app h1 h2 _ _ => exact ⟨_, _, h1, h2, .refl _⟩
  | lam h1 h2 h3 hs _ _ _ => exact ⟨_, _, hs, h1, h2, h3, .refl _⟩
  | dlam h1 h2 h3 hs _ _ _ => exact ⟨_, _, _, hs, h1, h2, h3, .refl _⟩
  | pi h1 h2 hs _ _ => exact ⟨_, hs, h1, h2, .refl _⟩
  | @conv Γ t A B s h1 hc h2 hs ih _ =>
    cases t with
    | kind => exact ih
    | type => exact ih.conv hc h2 hs
    | const c => exact ih.imp fun _ h => ⟨h.1, h.2.conv hc h2 hs⟩
    | var n => exact ih.imp fun _ h => ⟨h.1, h.2.conv hc h2 hs⟩
    | app f a => exact ih.imp fun _ h => h.imp fun _ h => ⟨h.1, h.2.1, h.2.2.conv hc h2 hs⟩
    | lam A b => exact ih.imp fun _ h => h.imp fun _ h => ⟨h.1, h.2.1, h.2.2.1, h.2.2.2.1, h.2.2.2.2.conv hc h2 hs⟩
    | dlam b => exact ih.imp fun _ h => h.imp fun _ h => h.imp fun _ h => ⟨h.1, h.2.1, h.2.2.1, h.2.2.2.1, h.2.2.2.2.conv hc h2 hs⟩
    | pi A B => exact ih.imp fun _ h => ⟨h.1, h.2.1, h.2.2.1, h.2.2.2.conv hc h2 hs⟩

/-! ## Well-formed theories -/

section
variable (hT : T.Sorted)
include hT

theorem Theory.Sorted.closed (c : Sym) (A : Tm) (h : T.ty c = some A) : A.FreeBelow 0 := by
  obtain ⟨s, _, h1⟩ := hT c A h
  exact h1.freeBelow

/-- types are typable -/
theorem Strict.typed {Γ : List Tm} {t A : Tm} (h : Strict T Γ t A) (hΓ : WfCtx T Γ) : A = .kind ∨ ∃ s, IsSort s ∧ Strict T Γ A s := by
  induction h with
  | type => exact .inl rfl
  | @const Γ c A h =>
    obtain ⟨s, hs, h1⟩ := hT c A h
    have h2 := h1.ren hT.closed (Δ := Γ) (ρ := id) (by simp)
    rw [hs.ren, show A.ren id = A from Tm.ren_id A] at h2
    exact .inr ⟨s, hs, h2⟩
  | var h => exact .inr ⟨_, .type, hΓ.get hT.closed h⟩
  | app _ h2 ih1 _ =>
    rcases ih1 hΓ with h | ⟨s, _, h⟩
    · cases h
    · obtain ⟨s', hs', h3, h4, _⟩ := h.gen
      have h5 := h4.inst hT.closed h2
      rw [show s'.inst _ = s' from hs'.sub _] at h5
      exact .inr ⟨s', hs', h5⟩
  | lam h1 _ h3 hs _ _ _ => exact .inr ⟨_, hs, .pi h1 h3 hs⟩
  | dlam h1 _ h3 hs _ _ _ => exact .inr ⟨_, hs, .pi h1 h3 hs⟩
  | pi _ _ hs _ _ =>
    cases hs with
    | type => exact .inr ⟨_, .kind, .type⟩
    | kind => exact .inl rfl
  | conv _ _ h hs _ _ => exact .inr ⟨_, hs, h⟩

/-- the parts of the type of a function -/
theorem Strict.fun_typed {Γ : List Tm} {f A B : Tm} (h : Strict T Γ f (.pi A B)) (hΓ : WfCtx T Γ) :
    Strict T Γ A .type ∧ ∃ s, IsSort s ∧ Strict T (A :: Γ) B s := by
  rcases h.typed hT hΓ with h | ⟨s, _, h⟩
  · cases h
  · obtain ⟨s', hs', h3, h4, _⟩ := h.gen
    exact ⟨h3, s', hs', h4⟩

theorem Strict.app_sort {Γ : List Tm} {f a A B : Tm} (h : Strict T Γ f (.pi A B)) (ha : Strict T Γ a A) (hΓ : WfCtx T Γ) :
    ∃ s, IsSort s ∧ Strict T Γ (B.inst a) s := by
  obtain ⟨_, s, hs, h1⟩ := h.fun_typed hT hΓ
  have h2 := h1.inst hT.closed ha
  rw [show s.inst _ = s from hs.sub _] at h2
  exact ⟨s, hs, h2⟩

/-- the shapes of the terms of type `Kind` -/
theorem Strict.kind_inv {Γ : List Tm} {B C : Tm} (h : Strict T Γ B C) (e : C = .kind) (hΓ : WfCtx T Γ) :
    B = .type ∨ ∃ A D, B = .pi A D ∧ Strict T Γ A .type ∧ Strict T (A :: Γ) D .kind := by
  induction h with
  | type => exact .inl rfl
  | const h =>
    subst e
    obtain ⟨s, _, h⟩ := hT _ _ h
    exact absurd rfl h.not_kind
  | var h =>
    have h1 := hΓ.get hT.closed h
    exact absurd e h1.not_kind
  | app h1 h2 _ _ =>
    obtain ⟨s, _, h3⟩ := h1.app_sort hT h2 hΓ
    exact absurd e h3.not_kind
  | lam => cases e
  | dlam => cases e
  | pi h1 h2 _ _ _ => exact .inr ⟨_, _, rfl, h1, e ▸ h2⟩
  | conv _ _ h _ _ _ => exact absurd e h.not_kind

end

section
variable (hT : T.WellFormed)
include hT

variable (cr : T.Church)
include cr

/-- Subject reduction. -/
theorem Strict.red {t u : Tm} (h : RedA T.rules t u) {Γ : List Tm} {A : Tm} (ht : Strict T Γ t A) (hΓ : WfCtx T Γ) : Strict T Γ u A := by
  have cv : ∀ {t u}, RedA T.rules t u → T.Conv t u := fun h => h.convT
  induction h generalizing Γ A with
  | refl t => exact ht
  | trans _ _ ih1 ih2 => exact ih2 (ih1 ht hΓ) hΓ
  | @app f f' a a' h1 h2 ih1 ih2 =>
    obtain ⟨B, C, h3, h4, h5⟩ := ht.gen
    obtain ⟨s, hs, h6⟩ := h3.app_sort hT.types h4 hΓ
    exact Strict.retype (.app (ih1 h3 hΓ) (ih2 h4 hΓ))
      (Kontroli.Conv.sub_congr C (by
        intro n
        cases n with
        | zero => exact (cv h2).symm
        | succ n => exact .refl _)) h6 hs h5
  | @lam B B' b b' h1 h2 ih1 ih2 =>
    obtain ⟨C, s, hs, h3, h4, h5, h6⟩ := ht.gen
    have hΓ' := hΓ.cons h3
    have h7 := ih1 h3 hΓ
    have k1 := (ih2 h4 hΓ').ctx_conv hT.types.closed (cv h1).symm h3 .type
    have k2 := h5.ctx_conv hT.types.closed (cv h1).symm h3 .type
    exact Strict.retype (.lam h7 k1 k2 hs) (Kontroli.Conv.pi (cv h1).symm (.refl _)) (.pi h3 h5 hs) hs h6
  | @dlam b b' h2 ih2 =>
    obtain ⟨B, C, s, hs, h3, h4, h5, h6⟩ := ht.gen
    exact Strict.retype (.dlam h3 (ih2 h4 (hΓ.cons h3)) h5 hs) (.refl _) (.pi h3 h5 hs) hs h6
  | annot B b =>
    obtain ⟨C, s, hs, h3, h4, h5, h6⟩ := ht.gen
    exact Strict.retype (.dlam h3 h4 h5 hs) (.refl _) (.pi h3 h5 hs) hs h6
  | @pi B B' C C' h1 h2 ih1 ih2 =>
    obtain ⟨s, hs, h3, h4, h5, h6⟩ := ht.gen
    have k1 := (ih2 h4 (hΓ.cons h3)).ctx_conv hT.types.closed (cv h1).symm h3 .type
    have k2 : Strict T Γ (.pi B' C') s := .pi (ih1 h3 hΓ) k1 hs
    rcases h6 with rfl | ⟨s', hs', h6⟩
    · exact k2
    · exact .conv k2 h5 h6 hs'
  | beta b a =>
    obtain ⟨B, C, h1, h2, h3⟩ := ht.gen
    obtain ⟨s', hs', h9⟩ := h1.app_sort hT.types h2 hΓ
    obtain ⟨B0, C0, s, hs, h4, h5, h6, h7, _⟩ := h1.gen
    obtain ⟨c1, c2⟩ := cr.pi h7
    have ha : Strict T Γ a B0 := .conv h2 c1.symm h4 .type
    exact Strict.retype (h5.inst hT.types.closed ha) (Kontroli.Conv.sub c2 _) h9 hs' h3
  | rule h1 h2 h3 h4 h5 h6 => exact hT.rules _ _ _ h1 h2 _ _ _ _ _ hΓ h3 h4 ⟨h5.1, fun p hp => (h5.2 p hp).toEta⟩ h6 ht

/-! ## Uniqueness of sorts -/

omit hT cr in
theorem Strict.noKind {Γ : List Tm} {t A : Tm} (h : Strict T Γ t A) : t.NoKind := by
  induction h with
  | type => trivial
  | const _ => trivial
  | var _ => trivial
  | app _ _ ih1 ih2 => exact ⟨ih1, ih2⟩
  | lam _ _ _ _ ih1 ih2 _ => exact ⟨ih1, ih2⟩
  | dlam _ _ _ _ _ ih2 _ => exact ih2
  | pi _ _ _ ih1 ih2 => exact ⟨ih1, ih2⟩
  | conv _ _ _ _ ih _ => exact ih

omit hT cr in
theorem Tm.NoKind.unren {t : Tm} {ρ : Nat → Nat} (h : (t.ren ρ).NoKind) : t.NoKind := by
  induction t generalizing ρ with
  | app f a ih1 ih2 => exact ⟨ih1 h.1, ih2 h.2⟩
  | lam A b ih1 ih2 => exact ⟨ih1 h.1, ih2 h.2⟩
  | dlam b ih => exact ih (ρ := Tm.upr ρ) h
  | pi A B ih1 ih2 => exact ⟨ih1 h.1, ih2 h.2⟩
  | _ => exact h

omit hT cr in
theorem RedE.noKind {t u : Tm} (h : RedE T.rules t u) (ht : t.NoKind) : u.NoKind := by
  induction h with
  | refl t => exact ht
  | trans _ _ ih1 ih2 => exact ih2 (ih1 ht)
  | app _ _ ih1 ih2 => exact ⟨ih1 ht.1, ih2 ht.2⟩
  | lam _ _ ih1 ih2 => exact ⟨ih1 ht.1, ih2 ht.2⟩
  | dlam _ ih => exact ih ht
  | annot A b => exact ht.2
  | pi _ _ ih1 ih2 => exact ⟨ih1 ht.1, ih2 ht.2⟩
  | beta b a => exact Tm.NoKind.inst (t := b) ht.1 ht.2
  | eta f => exact Tm.NoKind.unren (show (f.shift 1).NoKind from ht.1)
  | delta h =>
    obtain ⟨rs, r, -, -, -, rfl⟩ := h
    exact r.rhs.noKind

/-- a well-sorted type is not convertible with `Kind` -/
theorem Strict.sort_not_kind {Γ : List Tm} {A s : Tm} (h : Strict T Γ A s) (hΓ : WfCtx T Γ) : ¬ T.Conv A .kind := by
  intro hc
  obtain ⟨v, ⟨h1, h2⟩ | ⟨h1, h2⟩⟩ := cr.join hc
  · have := h2.of_kind rfl
    subst this
    exact (Strict.red hT cr h1 h hΓ).not_kind rfl
  · have := h2.of_kind rfl
    subst this
    exact h1.noKind h.noKind

end

/-- `A` is convertible with a kind with `n` arguments -/
inductive KL (T : Theory) : Nat → Tm → Prop
  | zero {A : Tm} : T.Conv A .type → KL T 0 A
  | succ {n : Nat} {A B C : Tm} : T.Conv A (.pi B C) → KL T n C → KL T (n + 1) A

theorem KL.conv {n : Nat} {A A' : Tm} (h : KL T n A) (hc : T.Conv A' A) : KL T n A' := by
  cases h with
  | zero h => exact .zero (hc.trans h)
  | succ h h' => exact .succ (hc.trans h) h'

theorem KL.sub {n : Nat} {A : Tm} (h : KL T n A) (σ : Nat → Tm) : KL T n (A.sub σ) := by
  induction h generalizing σ with
  | zero h => exact .zero (Kontroli.Conv.sub h σ)
  | succ h _ ih => exact .succ (Kontroli.Conv.sub h σ) (ih _)

/-- the number of missing arguments of a term that is a type or a family of types -/
inductive Fam (T : Theory) : Nat → Tm → Prop
  | const {n : Nat} {c : Sym} {A : Tm} : T.ty c = some A → KL T n A → Fam T n (.const c)
  | app {n : Nat} {f a : Tm} : Fam T (n + 1) f → Fam T n (.app f a)
  | lam {n : Nat} {A b : Tm} : Fam T n b → Fam T (n + 1) (.lam A b)
  | dlam {n : Nat} {b : Tm} : Fam T n b → Fam T (n + 1) (.dlam b)
  | pi {A B : Tm} : Fam T 0 B → Fam T 0 (.pi A B)

section
variable (cr : T.Church)
include cr

theorem KL.not_kind {n : Nat} : ¬ KL T n .kind := by
  intro h
  cases h with
  | zero h => exact cr.type_kind h.symm
  | succ h _ => exact cr.kind_pi h

theorem KL.type_zero {n : Nat} (h : KL T n .type) : n = 0 := by
  cases h with
  | zero h => rfl
  | succ h _ => exact absurd h cr.type_pi

theorem KL.pi_inv {n : Nat} {A B : Tm} (h : KL T n (.pi A B)) : ∃ m, n = m + 1 ∧ KL T m B := by
  cases h with
  | zero h => exact absurd h.symm cr.type_pi
  | succ h h' => exact ⟨_, rfl, h'.conv ((cr.pi h).2)⟩

theorem KL.unique {n m : Nat} {A : Tm} (h : KL T n A) (h' : KL T m A) : n = m := by
  induction h generalizing m with
  | zero h => exact (KL.type_zero cr (h'.conv h.symm)).symm
  | succ h _ ih =>
    obtain ⟨k, rfl, h2⟩ := KL.pi_inv cr (h'.conv h.symm)
    rw [ih h2]

/-- the type of a family is a kind -/
theorem Fam.kl {Γ : List Tm} {t A : Tm} (h : Strict T Γ t A) {n : Nat} (hf : Fam T n t) : KL T n A := by
  induction h generalizing n with
  | type => cases hf
  | const h =>
    cases hf with
    | const h1 h2 => rw [h] at h1; cases h1; exact h2
  | var h => cases hf
  | app _ _ ih1 _ =>
    cases hf with
    | app hf =>
      obtain ⟨m, e, h⟩ := KL.pi_inv cr (ih1 hf)
      cases e
      exact h.sub _
  | lam _ _ _ _ _ ih2 _ =>
    cases hf with
    | lam hf => exact .succ (.refl _) (ih2 hf)
  | dlam _ _ _ _ _ ih2 _ =>
    cases hf with
    | dlam hf => exact .succ (.refl _) (ih2 hf)
  | pi _ _ _ _ ih2 =>
    cases hf with
    | pi hf => exact ih2 hf
  | conv _ hc _ _ ih _ => exact (ih hf).conv hc.symm

variable (hT : T.WellFormed)
include hT

/-- terms whose type is not `Kind` are small -/
theorem Strict.small {Γ : List Tm} {t A : Tm} (h : Strict T Γ t A) (hA : A ≠ .kind) (hΓ : WfCtx T Γ) : t.Small := by
  induction h with
  | type => exact absurd rfl hA
  | const _ => trivial
  | var _ => trivial
  | app h1 _ ih1 ih2 => exact ⟨ih1 nofun hΓ, ih2 (h1.fun_typed hT.types hΓ).1.not_kind hΓ⟩
  | lam h1 _ h3 _ ih1 ih2 _ => exact ⟨ih1 nofun hΓ, ih2 h3.not_kind (hΓ.cons h1)⟩
  | dlam h1 _ h3 _ _ ih2 _ => exact ih2 h3.not_kind (hΓ.cons h1)
  | pi h1 _ _ ih1 ih2 => exact ⟨ih1 nofun hΓ, ih2 hA (hΓ.cons h1)⟩
  | conv _ hc h _ ih _ =>
    refine ih ?_ hΓ
    rintro rfl
    exact h.sort_not_kind hT cr hΓ hc.symm

/-- the right-hand sides of definitions have the types of the symbols -/
theorem Theory.WellFormed.body (hd : Definitional T.rules) {s : Sym} {d A : Tm} (h : Defines T.rules s d) (hA : T.ty s = some A) {Γ : List Tm}
    (hΓ : WfCtx T Γ) : Strict T Γ d A := by
  have hf := Definitional.free hd h
  obtain ⟨rs, r, h1, h2, h3, rfl⟩ := h
  have h4 := hT.rules s rs r h1 h2 Γ .var [] [] A hΓ h3 (by rw [hd.args s rs r h1 h2]; exact .nil) ⟨by simp, by simp⟩ (fun m _ => ⟨m, rfl⟩)
    (.const hA)
  rwa [Tm.sub_var] at h4

theorem RedE.smallT (hd : Definitional T.rules) (hty : ∀ s d, Defines T.rules s d → ∃ A, T.ty s = some A) {t u : Tm} (h : RedE T.rules t u)
    (ht : t.Small) : u.Small := by
  induction h with
  | refl t => exact ht
  | trans _ _ ih1 ih2 => exact ih2 (ih1 ht)
  | app _ _ ih1 ih2 => exact ⟨ih1 ht.1, ih2 ht.2⟩
  | lam _ _ ih1 ih2 => exact ⟨ih1 ht.1, ih2 ht.2⟩
  | dlam _ ih => exact ih ht
  | annot A b => exact ht.2
  | pi _ _ ih1 ih2 => exact ⟨ih1 ht.1, ih2 ht.2⟩
  | beta b a => exact Tm.Small.inst (t := b) ht.1 ht.2
  | eta f => exact Tm.Small.unren (show (f.shift 1).Small from ht.1)
  | delta h =>
    obtain ⟨A, hA⟩ := hty _ _ h
    obtain ⟨s, _, h1⟩ := hT.types _ _ hA
    exact (Theory.WellFormed.body cr hT hd h hA .nil).small cr hT h1.not_kind .nil

/-- small terms are not kinds -/
theorem KL.not_smallE (hd : Definitional T.rules) (hty : ∀ s d, Defines T.rules s d → ∃ A, T.ty s = some A) (he : T.eta = true) {n : Nat} {B : Tm}
    (h : KL T n B) : ¬ B.Small := by
  induction n generalizing B with
  | zero =>
    intro hs
    cases h with
    | zero h =>
      unfold Theory.Conv at h
      rw [he] at h
      obtain ⟨v, h1, h2⟩ := hd.confluent h
      have := h2.of_type rfl
      subst this
      exact h1.smallT cr hT hd hty hs
  | succ n ih =>
    intro hs
    cases h with
    | succ h hk =>
      unfold Theory.Conv at h
      rw [he] at h
      obtain ⟨v, h1, h2⟩ := hd.confluent h
      obtain ⟨B', C', rfl, h3, h4⟩ := h2.piInv
      refine ih (hk.conv ?_) (h1.smallT cr hT hd hty hs).2
      unfold Theory.Conv
      rw [he]
      exact (h4.conv hd).symm

/-- small types are not kinds -/
theorem KL.not_type {n : Nat} {B : Tm} (h : KL T n B) {Γ : List Tm} (hB : Strict T Γ B .type) (hΓ : WfCtx T Γ) : False := by
  cases cr with
  | plain he cf =>
    have cr : T.Church := .plain he cf
    induction n generalizing Γ B with
    | zero =>
      cases h with
      | zero h =>
        obtain ⟨v, h1, h2⟩ := cf _ _ (h.plain he)
        have := h2.of_type rfl
        subst this
        have h3 := (Strict.red hT cr h1 hB hΓ).gen
        exact cr.type_kind h3.1.symm
    | succ n ih =>
      cases h with
      | succ h hk =>
        obtain ⟨v, h1, h2⟩ := cf _ _ (h.plain he)
        obtain ⟨B', C', rfl, h3, h4⟩ := h2.pi_inv
        obtain ⟨s, hs, h5, h6, h7, _⟩ := (Strict.red hT cr h1 hB hΓ).gen
        cases hs with
        | type => exact ih (hk.conv h4.convT.symm) h6 (hΓ.cons h5)
        | kind => exact cr.type_kind h7.symm
  | eta he hd hty => exact h.not_smallE (.eta he hd hty) hT hd hty he (hB.small (.eta he hd hty) hT nofun hΓ)

/-- terms of type `Kind` -/
theorem Strict.kind_kl {Γ : List Tm} {B C : Tm} (h : Strict T Γ B C) (e : C = .kind) (hΓ : WfCtx T Γ) : ∃ n, KL T n B := by
  induction h with
  | type => exact ⟨0, .zero (.refl _)⟩
  | const h =>
    subst e
    obtain ⟨s, _, h⟩ := hT.types _ _ h
    exact absurd rfl h.not_kind
  | var h =>
    have h1 := hΓ.get hT.types.closed h
    exact absurd e h1.not_kind
  | app h1 h2 _ _ =>
    obtain ⟨s, _, h3⟩ := h1.app_sort hT.types h2 hΓ
    exact absurd e h3.not_kind
  | lam => cases e
  | dlam => cases e
  | pi h1 _ _ _ ih2 =>
    obtain ⟨n, h⟩ := ih2 e (hΓ.cons h1)
    exact ⟨n + 1, .succ (.refl _) h⟩
  | conv _ _ h _ _ _ => exact absurd e h.not_kind

/-- terms whose type is a kind are families -/
theorem Strict.fam {Γ : List Tm} {t A : Tm} (h : Strict T Γ t A) {n : Nat} (hk : KL T n A) (hΓ : WfCtx T Γ) : Fam T n t := by
  induction h generalizing n with
  | type => exact absurd hk (KL.not_kind cr)
  | const h => exact .const h hk
  | var h => exact (hk.not_type cr hT (hΓ.get hT.types.closed h) hΓ).elim
  | @app Γ f a A B h1 h2 ih1 _ =>
    refine .app (ih1 ?_ hΓ)
    obtain ⟨h3, s, hs, h4⟩ := h1.fun_typed hT.types hΓ
    cases hs with
    | type =>
      have h5 := h4.inst hT.types.closed h2
      exact (hk.not_type cr hT h5 hΓ).elim
    | kind =>
      obtain ⟨m, h5⟩ := h4.kind_kl cr hT rfl (hΓ.cons h3)
      have h6 := (h5.sub (Tm.one a)).unique cr hk
      subst h6
      exact .succ (.refl _) h5
  | lam h1 _ _ _ _ ih2 _ =>
    obtain ⟨m, rfl, h⟩ := KL.pi_inv cr hk
    exact .lam (ih2 h (hΓ.cons h1))
  | dlam h1 _ _ _ _ ih2 _ =>
    obtain ⟨m, rfl, h⟩ := KL.pi_inv cr hk
    exact .dlam (ih2 h (hΓ.cons h1))
  | pi h1 _ hs _ ih2 =>
    cases hs with
    | type =>
      have := KL.type_zero cr hk
      subst this
      exact .pi (ih2 hk (hΓ.cons h1))
    | kind => exact absurd hk (KL.not_kind cr)
  | conv _ hc _ _ ih _ => exact ih (hk.conv hc) hΓ

/-! ### With eta: families and objects -/

omit cr hT in
theorem Fam.sub {n : Nat} {t : Tm} (h : Fam T n t) (σ : Nat → Tm) : Fam T n (t.sub σ) := by
  induction h generalizing σ with
  | const h1 h2 => exact .const h1 h2
  | app _ ih => exact .app (ih σ)
  | lam _ ih => exact .lam (ih _)
  | dlam _ ih => exact .dlam (ih _)
  | pi _ ih => exact .pi (ih _)

omit cr hT in
theorem Fam.unren {n : Nat} {t : Tm} {ρ : Nat → Nat} (h : Fam T n (t.ren ρ)) : Fam T n t := by
  induction t generalizing n ρ with
  | const c => exact h
  | app f a ih1 _ =>
    cases h with
    | app h => exact .app (ih1 h)
  | lam A b _ ih =>
    cases h with
    | lam h => exact .lam (ih h)
  | dlam b ih =>
    cases h with
    | dlam h => exact .dlam (ih h)
  | pi A B _ ih =>
    cases h with
    | pi h => exact .pi (ih h)
  | var => cases h
  | type => cases h
  | kind => cases h

omit hT in
theorem Fam.unique {n m : Nat} {t : Tm} (h : Fam T n t) (h' : Fam T m t) : n = m := by
  induction h generalizing m with
  | const h1 h2 =>
    cases h' with
    | const h3 h4 =>
      rw [h1] at h3
      cases h3
      exact h2.unique cr h4
  | app _ ih =>
    cases h' with
    | app h' =>
      have := ih h'
      omega
  | lam _ ih =>
    cases h' with
    | lam h' => rw [ih h']
  | dlam _ ih =>
    cases h' with
    | dlam h' => rw [ih h']
  | pi _ _ =>
    cases h'
    rfl

theorem Fam.redE (hd : Definitional T.rules) {t u : Tm} (h : RedE T.rules t u) {n : Nat} (hf : Fam T n t) : Fam T n u := by
  induction h generalizing n with
  | refl t => exact hf
  | trans _ _ ih1 ih2 => exact ih2 (ih1 hf)
  | app _ _ ih1 _ =>
    cases hf with
    | app hf => exact .app (ih1 hf)
  | lam _ _ _ ih2 =>
    cases hf with
    | lam hf => exact .lam (ih2 hf)
  | dlam _ ih =>
    cases hf with
    | dlam hf => exact .dlam (ih hf)
  | annot A b =>
    cases hf with
    | lam hf => exact .dlam hf
  | pi _ _ _ ih2 =>
    cases hf with
    | pi hf => exact .pi (ih2 hf)
  | beta b a =>
    cases hf with
    | app hf =>
      cases hf with
      | dlam hf => exact hf.sub _
  | eta f =>
    cases hf with
    | dlam hf =>
      cases hf with
      | app hf => exact hf.unren
  | delta h =>
    cases hf with
    | const h1 h2 => exact (Theory.WellFormed.body cr hT hd h h1 .nil).fam cr hT h2 .nil

/-- the terms that are neither types nor families of types -/
inductive Objective (T : Theory) : Tm → Prop
  | var (n : Nat) : Objective T (.var n)
  | const {c : Sym} {A : Tm} : T.ty c = some A → (∀ n, ¬ KL T n A) → Objective T (.const c)
  | app {f a : Tm} : Objective T f → Objective T a → Objective T (.app f a)
  | lam {A b : Tm} : Objective T b → Objective T (.lam A b)
  | dlam {b : Tm} : Objective T b → Objective T (.dlam b)

omit cr hT in
theorem Objective.not_fam {t : Tm} (h : Objective T t) {n : Nat} : ¬ Fam T n t := by
  induction h generalizing n with
  | var n => nofun
  | const h1 h2 =>
    intro h
    cases h with
    | const h3 h4 =>
      rw [h1] at h3
      cases h3
      exact h2 _ h4
  | app _ _ ih _ =>
    intro h
    cases h with
    | app h => exact ih h
  | lam _ ih =>
    intro h
    cases h with
    | lam h => exact ih h
  | dlam _ ih =>
    intro h
    cases h with
    | dlam h => exact ih h

omit cr hT in
theorem Objective.ren {t : Tm} (h : Objective T t) (ρ : Nat → Nat) : Objective T (t.ren ρ) := by
  induction h generalizing ρ with
  | var n => exact .var _
  | const h1 h2 => exact .const h1 h2
  | app _ _ ih1 ih2 => exact .app (ih1 ρ) (ih2 ρ)
  | lam _ ih => exact .lam (ih _)
  | dlam _ ih => exact .dlam (ih _)

omit cr hT in
theorem Objective.unren {t : Tm} {ρ : Nat → Nat} (h : Objective T (t.ren ρ)) : Objective T t := by
  induction t generalizing ρ with
  | const c => exact h
  | app f a ih1 ih2 =>
    cases h with
    | app h h' => exact .app (ih1 h) (ih2 h')
  | lam A b _ ih =>
    cases h with
    | lam h => exact .lam (ih h)
  | dlam b ih =>
    cases h with
    | dlam h => exact .dlam (ih h)
  | var n => exact .var n
  | pi => cases h
  | type => cases h
  | kind => cases h

omit cr hT in
theorem Objective.sub {t : Tm} (h : Objective T t) {σ : Nat → Tm} (hσ : ∀ n, Objective T (σ n)) : Objective T (t.sub σ) := by
  have up : ∀ {σ : Nat → Tm}, (∀ n, Objective T (σ n)) → ∀ n, Objective T (Tm.up σ n) := by
    intro σ hσ n
    cases n with
    | zero => exact .var 0
    | succ n => exact (hσ n).ren _
  induction h generalizing σ with
  | var n => exact hσ n
  | const h1 h2 => exact .const h1 h2
  | app _ _ ih1 ih2 => exact .app (ih1 hσ) (ih2 hσ)
  | lam _ ih => exact .lam (ih (up hσ))
  | dlam _ ih => exact .dlam (ih (up hσ))

/-- terms of small types are objects -/
theorem Strict.objective {Γ : List Tm} {t A : Tm} (h : Strict T Γ t A) (hA : Strict T Γ A .type) (hΓ : WfCtx T Γ) : Objective T t := by
  have body : ∀ {Γ : List Tm} {A B : Tm}, Strict T Γ (.pi A B) .type → Strict T (A :: Γ) B .type := by
    intro Γ A B h
    obtain ⟨s, hs, _, h2, h3, _⟩ := h.gen
    cases hs with
    | type => exact h2
    | kind => exact absurd h3.symm cr.type_kind
  induction h with
  | type => exact absurd rfl hA.not_kind
  | const h => exact .const h fun n hn => hn.not_type cr hT hA hΓ
  | var _ => exact .var _
  | app h1 h2 ih1 ih2 =>
    obtain ⟨h3, s, hs, h4⟩ := h1.fun_typed hT.types hΓ
    cases hs with
    | type => exact .app (ih1 (.pi h3 h4 .type) hΓ) (ih2 h3 hΓ)
    | kind =>
      obtain ⟨m, h5⟩ := h4.kind_kl cr hT rfl (hΓ.cons h3)
      exact ((h5.sub (Tm.one _)).not_type cr hT hA hΓ).elim
  | lam h1 _ _ _ _ ih2 _ => exact .lam (ih2 (body hA) (hΓ.cons h1))
  | dlam h1 _ _ _ _ ih2 _ => exact .dlam (ih2 (body hA) (hΓ.cons h1))
  | pi _ _ hs _ _ =>
    cases hs with
    | type => exact absurd hA.gen.1.symm cr.type_kind
    | kind => exact absurd rfl hA.not_kind
  | conv h hc _ _ ih _ =>
    refine ih ?_ hΓ
    rcases h.typed hT.types hΓ with rfl | ⟨s, hs, h3⟩
    · exact absurd hc.symm (hA.sort_not_kind hT cr hΓ)
    · cases hs with
      | type => exact h3
      | kind =>
        obtain ⟨n, h4⟩ := h3.kind_kl cr hT rfl hΓ
        exact ((h4.conv hc.symm).not_type cr hT hA hΓ).elim

theorem Objective.redE (hd : Definitional T.rules) (hty : ∀ s d, Defines T.rules s d → ∃ A, T.ty s = some A) {t u : Tm} (h : RedE T.rules t u)
    (ho : Objective T t) : Objective T u := by
  induction h with
  | refl t => exact ho
  | trans _ _ ih1 ih2 => exact ih2 (ih1 ho)
  | app _ _ ih1 ih2 =>
    cases ho with
    | app h h' => exact .app (ih1 h) (ih2 h')
  | lam _ _ _ ih2 =>
    cases ho with
    | lam h => exact .lam (ih2 h)
  | dlam _ ih =>
    cases ho with
    | dlam h => exact .dlam (ih h)
  | annot A b =>
    cases ho with
    | lam h => exact .dlam h
  | pi => cases ho
  | beta b a =>
    cases ho with
    | app h h' =>
      cases h with
      | dlam h =>
        refine h.sub fun n => ?_
        cases n with
        | zero => exact h'
        | succ n => exact .var n
  | eta f =>
    cases ho with
    | dlam h =>
      cases h with
      | app h _ => exact h.unren
  | delta h =>
    cases ho with
    | const h1 h2 =>
      obtain ⟨s, hs, h3⟩ := hT.types _ _ h1
      cases hs with
      | type => exact (Theory.WellFormed.body cr hT hd h h1 .nil).objective cr hT h3 .nil
      | kind =>
        obtain ⟨n, h4⟩ := h3.kind_kl cr hT rfl .nil
        exact absurd h4 (h2 n)

/-- a typable term convertible with a small type is a small type -/
theorem Strict.type_of_conv {Γ : List Tm} {A A' X : Tm} (hA : Strict T Γ A .type) (hA' : Strict T Γ A' X) (hc : T.Conv A A') (hΓ : WfCtx T Γ) :
    Strict T Γ A' .type := by
  have cr' := cr
  cases cr with
  | plain he cf =>
    obtain ⟨v, h1, h2⟩ := cf _ _ (hc.plain he)
    have k1 := Strict.red hT cr' h1 hA hΓ
    have k2 := Strict.red hT cr' h2 hA' hΓ
    have k3 := k1.fam cr' hT (.zero (.refl _)) hΓ
    have k4 := Fam.kl cr' k2 k3
    cases k4 with
    | zero h => exact .conv hA' h .type .kind
  | eta he hd hty =>
    have hc' := hc
    unfold Theory.Conv at hc'
    rw [he] at hc'
    obtain ⟨v, h1, h2⟩ := hd.confluent hc'
    have k1 := Fam.redE cr' hT hd h1 (hA.fam cr' hT (.zero (.refl _)) hΓ)
    rcases hA'.typed hT.types hΓ with rfl | ⟨s, hs, h3⟩
    · obtain ⟨n, h4⟩ := hA'.kind_kl cr' hT rfl hΓ
      exact ((h4.conv hc).not_type cr' hT hA hΓ).elim
    · cases hs with
      | type => exact absurd k1 ((hA'.objective cr' hT h3 hΓ).redE cr' hT hd hty h2).not_fam
      | kind =>
        obtain ⟨n, h4⟩ := h3.kind_kl cr' hT rfl hΓ
        have := (Fam.redE cr' hT hd h2 (hA'.fam cr' hT h4 hΓ)).unique cr' k1
        subst this
        cases h4 with
        | zero h => exact .conv hA' h .type .kind

/-- a typable term convertible with a well-sorted type is a well-sorted type, of the same sort -/
theorem Strict.sort_of_conv {Γ : List Tm} {A A' s X : Tm} (hA : Strict T Γ A s) (hs : IsSort s) (hA' : Strict T Γ A' X) (hc : T.Conv A A')
    (hΓ : WfCtx T Γ) : Strict T Γ A' s := by
  cases hs with
  | type => exact hA.type_of_conv cr hT hA' hc hΓ
  | kind =>
    have cr' := cr
    cases cr with
    | plain he cf =>
      obtain ⟨v, h1, h2⟩ := cf _ _ (hc.plain he)
      have k1 := Strict.red hT cr' h1 hA hΓ
      have k2 := Strict.red hT cr' h2 hA' hΓ
      have key : T.Conv .kind X → Strict T Γ A' .kind := by
        intro h
        rcases hA'.typed hT.types hΓ with rfl | ⟨s, _, h'⟩
        · exact hA'
        · exact absurd h.symm (h'.sort_not_kind hT cr' hΓ)
      obtain ⟨n, k3⟩ := k1.kind_kl cr' hT rfl hΓ
      have key2 : T.Conv .type X → False := by
        intro h
        exact k3.not_type cr' hT (.conv k2 h.symm .type .kind) hΓ
      rcases k1.kind_inv hT.types rfl hΓ with rfl | ⟨B, D, rfl, k4, k5⟩
      · exact key k2.gen.1
      · obtain ⟨s, hs, _, _, k6, _⟩ := k2.gen
        cases hs with
        | type => exact (key2 k6).elim
        | kind => exact key k6
    | eta he hd hty =>
      obtain ⟨n, k3⟩ := hA.kind_kl cr' hT rfl hΓ
      by_cases hX : X = .kind
      · exact hX ▸ hA'
      · exact absurd (hA'.small cr' hT hX hΓ) ((k3.conv hc.symm).not_smallE cr' hT hd hty he)

end

end Kontroli
