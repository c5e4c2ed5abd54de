import Verif.Spec.Reading
import Verif.Proofs.Strict

/-! # Typed terms belong to what their types are read as -/

namespace Kontroli

section
variable {T : Theory} {W : Type} [SemilatticeSup W] {B : Tm → Sem W → Prop}

theorem Reads.conv (hB : Basis T B) {A A' : Tm} {P : Sem W} (h : Reads T B A P) (hc : T.Conv A A') : Reads T B A' P := by
  cases h with
  | base h => exact .base (hB.conv h hc)
  | pi h h1 h2 => exact .pi (.trans (.symm hc) h) h1 h2

theorem Reads.unique (hB : Basis T B) (cr : T.Church) {A : Tm} {P P' : Sem W} (h : Reads T B A P) (h' : Reads T B A P') : P = P' := by
  induction h generalizing P' with
  | base h =>
    cases h' with
    | base h' => exact hB.unique h h'
    | pi hc _ _ => exact absurd hc (hB.notPi h)
  | @pi A A₁ A₂ P Q hc h1 h2 ih1 ih2 =>
    cases h' with
    | base h' => exact absurd hc (hB.notPi h')
    | @pi _ A₁' A₂' P' Q' hc' h1' h2' =>
      obtain ⟨e1, e2⟩ := cr.pi (.trans (.symm hc) hc')
      have e := ih1 (h1'.conv hB (.symm e1))
      subst e
      funext w f
      refine propext (forall_congr' fun w' => forall_congr' fun _ => forall_congr' fun a => forall_congr' fun ha => ?_)
      rw [ih2 w' a ha ((h2' w' a ha).conv hB (.symm (e2.sub _)))]

theorem Reads.later (hB : Basis T B) {A : Tm} {P : Sem W} (h : Reads T B A P) {w w' : W} {t : Tm} (hw : w ≤ w') (ht : P w t) : P w' t := by
  cases h with
  | base h => exact hB.later h hw ht
  | pi hc h1 h2 => exact fun w'' h a ha => ht w'' (le_trans hw h) a ha

theorem Reads.elems (hB : Basis T B) {A : Tm} {P : Sem W} (h : Reads T B A P) {w : W} {t t' : Tm} (hc : T.Conv t t') (ht : P w t) : P w t' := by
  induction h generalizing w t t' with
  | base h => exact hB.elems h hc ht
  | pi _ _ _ _ ih => exact fun w' h a ha => ih w' a ha (.app hc (.refl a)) (ht w' h a ha)

theorem Reads.mono {B' : Tm → Sem W → Prop} (hB : ∀ A P, B A P → B' A P) {A : Tm} {P : Sem W} (h : Reads T B A P) : Reads T B' A P := by
  induction h with
  | base h => exact .base (hB _ _ h)
  | pi hc _ _ ih1 ih2 => exact .pi hc ih1 ih2

theorem Reading.typesBasis (hM : Reading T B) (cr : T.Church) : Basis T (Basis.types T B) where
  conv := by
    rintro A A' P (h | ⟨h, rfl⟩) hc
    · exact .inl (hM.basis.conv h hc)
    · exact .inr ⟨.trans (.symm hc) h, rfl⟩
  unique := by
    rintro A P P' (h | ⟨h, rfl⟩) (h' | ⟨h', rfl⟩)
    · exact hM.basis.unique h h'
    · exact absurd h' (hM.small h).1
    · exact absurd h (hM.small h').1
    · rfl
  notPi := by
    rintro A P A₁ A₂ (h | ⟨h, rfl⟩) hc
    · exact hM.basis.notPi h hc
    · exact cr.type_pi (.trans (.symm h) hc)
  later := by
    rintro A P w w' t (h | ⟨h, rfl⟩) hw ht
    · exact hM.basis.later h hw ht
    · exact ht
  elems := by
    rintro A P w t t' (h | ⟨h, rfl⟩) hc ht
    · exact hM.basis.elems h hc ht
    · exact ht.imp fun Q hQ => hQ.conv hM.basis hc

theorem Reading.kindsBasis (hM : Reading T B) (cr : T.Church) : Basis T (Basis.kinds T B) where
  conv := by
    rintro A A' P (h | ⟨h, rfl⟩) hc
    · exact .inl ((hM.typesBasis cr).conv h hc)
    · exact .inr ⟨.trans (.symm hc) h, rfl⟩
  unique := by
    rintro A P P' (h | ⟨h, rfl⟩) (h' | ⟨h', rfl⟩)
    · exact (hM.typesBasis cr).unique h h'
    · rcases h with h | h
      · exact absurd h' (hM.small h).2
      · exact absurd (.trans (.symm h.1) h') cr.type_kind
    · rcases h' with h' | h'
      · exact absurd h (hM.small h').2
      · exact absurd (.trans (.symm h'.1) h) cr.type_kind
    · rfl
  notPi := by
    rintro A P A₁ A₂ (h | ⟨h, rfl⟩) hc
    · exact (hM.typesBasis cr).notPi h hc
    · exact cr.kind_pi (.trans (.symm h) hc)
  later := by
    rintro A P w w' t (h | ⟨h, rfl⟩) hw ht
    · exact (hM.typesBasis cr).later h hw ht
    · exact ht
  elems := by
    rintro A P w t t' (h | ⟨h, rfl⟩) hc ht
    · exact (hM.typesBasis cr).elems h hc ht
    · exact ht.imp fun Q hQ => hQ.conv (hM.typesBasis cr) hc

theorem Reads.type_inv (hM : Reading T B) (cr : T.Church) {P : Sem W} (h : Reads T (Basis.kinds T B) .type P) : P = fun _ t => ∃ Q, Reads T B t Q :=
  h.unique (hM.kindsBasis cr) cr (.base (.inl (.inr ⟨.refl _, rfl⟩)))

theorem Reads.kind_inv (hM : Reading T B) (cr : T.Church) {P : Sem W} (h : Reads T (Basis.kinds T B) .kind P) :
    P = fun _ t => ∃ Q, Reads T (Basis.types T B) t Q :=
  h.unique (hM.kindsBasis cr) cr (.base (.inr ⟨.refl _, rfl⟩))

theorem Belongs.type_inv (hM : Reading T B) (cr : T.Church) {w : W} {t : Tm} (h : Belongs T B w t .type) : ∃ Q, Reads T B t Q := by
  obtain ⟨P, h1, h2⟩ := h
  rw [h1.type_inv hM cr] at h2
  exact h2

/-- substitution of variable 0, with a substitution for the others -/
def Tm.ext (a : Tm) (σ : Nat → Tm) : Nat → Tm
  | 0 => a
  | n + 1 => σ n

theorem Tm.sub_up_inst (t a : Tm) (σ : Nat → Tm) : (t.sub (Tm.up σ)).inst a = t.sub (Tm.ext a σ) := by
  rw [Tm.inst, Tm.sub_sub]
  congr 1
  funext n
  cases n with
  | zero => rfl
  | succ n => exact Tm.ren_inst (σ n) a

theorem Tm.shift_sub_ext (A a : Tm) (σ : Nat → Tm) (n : Nat) : (A.shift (n + 1)).sub (Tm.ext a σ) = (A.shift n).sub σ := by
  simp only [Tm.shift, Tm.ren_sub]
  rfl

theorem Tm.inst_sub_ext (t a : Tm) (σ : Nat → Tm) : (t.inst a).sub σ = t.sub (Tm.ext (a.sub σ) σ) := by
  rw [Tm.inst_sub, Tm.sub_up_inst]

/-- the variables belong to their types -/
def Fits.Env (T : Theory) (B : Tm → Sem W → Prop) (w : W) (σ : Nat → Tm) (Γ : List Tm) : Prop :=
  ∀ n A, Γ[n]? = some A → Belongs T B w (σ n) ((A.shift (n + 1)).sub σ)

theorem Belongs.later (hM : Reading T B) (cr : T.Church) {w w' : W} {t A : Tm} (h : Belongs T B w t A) (hw : w ≤ w') : Belongs T B w' t A :=
  h.imp fun _ h => ⟨h.1, h.1.later (hM.kindsBasis cr) hw h.2⟩

theorem Fits.Env.cons (hM : Reading T B) (cr : T.Church) {w w' : W} {σ : Nat → Tm} {Γ : List Tm} {A a : Tm} (h : Fits.Env T B w σ Γ) (hw : w ≤ w')
    (ha : Belongs T B w' a (A.sub σ)) : Fits.Env T B w' (Tm.ext a σ) (A :: Γ) := by
  intro n C hC
  rw [Tm.shift_sub_ext]
  cases n with
  | zero =>
    cases hC
    rw [Tm.shift_zero]
    exact ha
  | succ n => exact (h n C hC).later hM cr hw

theorem Reads.toTypes {A : Tm} {P : Sem W} (h : Reads T B A P) : Reads T (Basis.types T B) A P := h.mono fun _ _ => .inl

theorem Reads.toKinds {A : Tm} {P : Sem W} (h : Reads T (Basis.types T B) A P) : Reads T (Basis.kinds T B) A P := h.mono fun _ _ => .inl

/-- reading products -/
theorem Reads.prod {B' : Tm → Sem W → Prop} {A C : Tm} {P : Sem W} (hA : Reads T B' A P) (hlater : ∀ {w w' : W} {t : Tm}, w ≤ w' → P w t → P w' t) (w : W)
    (h : ∀ w', w ≤ w' → ∀ a, P w' a → ∃ Q, Reads T B' (C.inst a) Q) :
    ∃ Q : Tm → Sem W, (∀ w a, P w a → Reads T B' (C.inst a) (Q a)) ∧ Reads T B' (.pi A C) fun w f => ∀ w', w ≤ w' → ∀ a, P w' a → Q a w' (.app f a) := by
  have key : ∀ a, ∃ Q, ∀ w', P w' a → Reads T B' (C.inst a) Q := by
    intro a
    by_cases ha : ∃ w', P w' a
    · obtain ⟨w', ha⟩ := ha
      obtain ⟨Q, hQ⟩ := h (w ⊔ w') le_sup_left a (hlater le_sup_right ha)
      exact ⟨Q, fun _ _ => hQ⟩
    · exact ⟨fun _ _ => True, fun w' h => absurd ⟨w', h⟩ ha⟩
  choose Q hQ using key
  exact ⟨Q, fun w a => hQ a w, .pi (.refl _) hA fun w a => hQ a w⟩

theorem Reading.abs (hM : Reading T B) (cr : T.Church) {w : W} {σ : Nat → Tm} {Γ : List Tm} {A b C t : Tm} (hσ : Fits.Env T B w σ Γ)
    (hA : Belongs T B w (A.sub σ) .type) (hb : ∀ {w σ}, Fits.Env T B w σ (A :: Γ) → Belongs T B w (b.sub σ) (C.sub σ))
    (ht : T.Conv t (.dlam (b.sub (Tm.up σ)))) : Belongs T B w t ((Tm.pi A C).sub σ) := by
  have hK := hM.kindsBasis cr
  obtain ⟨P, hP⟩ := hA.type_inv hM cr
  have hP' := hP.toTypes.toKinds
  have hbody : ∀ w', w ≤ w' → ∀ a, P w' a → Belongs T B w' ((b.sub (Tm.up σ)).inst a) ((C.sub (Tm.up σ)).inst a) := by
    intro w' hw a ha
    rw [Tm.sub_up_inst, Tm.sub_up_inst]
    exact hb (hσ.cons hM cr hw ⟨P, hP', ha⟩)
  obtain ⟨Q, h1, h2⟩ := hP'.prod (C := C.sub (Tm.up σ)) (hP'.later hK) w fun w' hw a ha => (hbody w' hw a ha).imp fun _ h => h.1
  refine ⟨_, h2, fun w' hw a ha => ?_⟩
  obtain ⟨Q', h3, h4⟩ := hbody w' hw a ha
  rw [h3.unique hK cr (h1 w' a ha)] at h4
  exact (h1 w' a ha).elems hK (.symm (.trans (.app ht (.refl a)) (.beta _ _))) h4

/-- Typed terms belong to what their types are read as. -/
theorem Strict.belongs (hM : Reading T B) (cr : T.Church) (hS : T.Sorted) {Γ : List Tm} {t A : Tm} (h : Strict T Γ t A) {w : W} {σ : Nat → Tm}
    (hσ : Fits.Env T B w σ Γ) : Belongs T B w (t.sub σ) (A.sub σ) := by
  have hK := hM.kindsBasis cr
  induction h generalizing w σ with
  | type => exact ⟨_, .base (.inr ⟨.refl _, rfl⟩), _, .base (.inr ⟨.refl _, rfl⟩)⟩
  | const h =>
    rw [(hS.closed _ _ h).sub_eq]
    exact hM.consts w _ _ h
  | var h => exact hσ _ _ h
  | app _ _ ihf iha =>
    obtain ⟨P, h1, h2⟩ := ihf hσ
    obtain ⟨Q, h3, h4⟩ := iha hσ
    rw [Tm.inst_sub]
    cases h1 with
    | base h1 => exact absurd (.refl _) (hK.notPi h1)
    | @pi _ A₁ A₂ P' Q' hc h5 h6 =>
      obtain ⟨e1, e2⟩ := cr.pi hc
      rw [(h3.conv hK e1).unique hK cr h5] at h4
      exact ⟨_, (h6 w _ h4).conv hK (.symm (e2.sub _)), h2 w le_rfl _ h4⟩
  | lam _ _ _ _ ihA ihb _ => exact hM.abs cr hσ (ihA hσ) ihb (.annot _ _)
  | dlam _ _ _ _ ihA ihb _ => exact hM.abs cr hσ (ihA hσ) ihb (.refl _)
  | @pi Γ A C s _ _ hs ihA ihB =>
    obtain ⟨P, hP⟩ := (ihA hσ).type_inv hM cr
    have hP' := hP.toTypes.toKinds
    have hbody : ∀ w', w ≤ w' → ∀ a, P w' a → Belongs T B w' ((C.sub (Tm.up σ)).inst a) (s.sub σ) := by
      intro w' hw a ha
      rw [Tm.sub_up_inst]
      have := ihB (hσ.cons hM cr hw ⟨P, hP', ha⟩)
      cases hs <;> exact this
    cases hs with
    | type =>
      obtain ⟨Q, -, h2⟩ := hP.prod (C := C.sub (Tm.up σ)) (hP.later hM.basis) w fun w' hw a ha => (hbody w' hw a ha).type_inv hM cr
      exact ⟨_, .base (.inl (.inr ⟨.refl _, rfl⟩)), _, h2⟩
    | kind =>
      obtain ⟨Q, -, h2⟩ := hP.toTypes.prod (C := C.sub (Tm.up σ)) (hP.later hM.basis) w fun w' hw a ha => by
        obtain ⟨X, h1, h2⟩ := hbody w' hw a ha
        rw [Reads.kind_inv hM cr h1] at h2
        exact h2
      exact ⟨_, .base (.inr ⟨.refl _, rfl⟩), _, h2⟩
  | conv _ hc _ _ ih _ =>
    obtain ⟨P, h1, h2⟩ := ih hσ
    exact ⟨P, h1.conv hK (hc.sub σ), h2⟩

end

end Kontroli
