import Verif.Proofs.Drops
import Verif.Spec.Candidate
import Verif.Proofs.Reading

/-!
# Strong normalisation where rules compute types
-/

namespace Kontroli

/-- terms that do not interact with an argument and are no types by themselves -/
structure Inert (R : RuleMap) (t : Tm) : Prop where
  neutral : Neutral R t
  pi : ∀ A B, t ≠ .pi A B
  type : t ≠ .type
  kind : t ≠ .kind

/-- sets of terms that serve as types -/
structure Cand (R : RuleMap) (P : Tm → Prop) : Prop where
  sn : ∀ t, P t → SN R false t
  step : ∀ t u, P t → Step R false t u → P u
  inert : ∀ t, Inert R t → (∀ u, Step R false t u → P u) → P t

/-- a way to read types that are no products -/
structure CandBase (R : RuleMap) (B : Tm → (Tm → Prop) → Prop) : Prop where
  conv : ∀ {A A' P}, B A P → Conv R false A A' → B A' P
  unique : ∀ {A P P'}, B A P → B A P' → P = P'
  notPi : ∀ {A P A₁ A₂}, B A P → ¬ Conv R false A (.pi A₁ A₂)
  cand : ∀ {A P}, B A P → Cand R P

section
variable {R : RuleMap} {B : Tm → (Tm → Prop) → Prop}

theorem Inert.var (n : Nat) : Inert R (.var n) := ⟨.var n, nofun, nofun, nofun⟩

theorem Inert.app {t : Tm} (h : Inert R t) (u : Tm) : Inert R (.app t u) := ⟨h.neutral.app u, nofun, nofun, nofun⟩

theorem Still.var (n : Nat) : Still R (.var n) := by
  intro u h
  generalize e : Tm.var n = t at h
  cases h with
  | rule => exact absurd e.symm Tm.apps_const_ne_var
  | _ => cases e

theorem Cand.var {P : Tm → Prop} (h : Cand R P) (n : Nat) : P (.var n) := h.inert _ (.var n) fun u hu => absurd hu (Still.var n u)

theorem Cand.all : Cand R (SN R false) := ⟨fun _ h => h, fun _ _ h => h.step, fun _ _ h => ⟨_, h⟩⟩

theorem Step.conv {t u : Tm} (h : Step R false t u) : Conv R false t u := h.red.conv

theorem Conv.inst_arg (A : Tm) {a a' : Tm} (h : Conv R false a a') : Conv R false (A.inst a) (A.inst a') := by
  refine Conv.sub_congr A fun n => ?_
  cases n with
  | zero => exact h
  | succ n => exact .refl _

theorem Denotes.conv (hB : CandBase R B) {A A' : Tm} {P : Tm → Prop} (h : Denotes R B A P) (hc : Conv R false A A') : Denotes R B A' P := by
  cases h with
  | base h => exact .base (hB.conv h hc)
  | pi h h1 h2 => exact .pi (.trans (.symm hc) h) h1 h2

theorem Denotes.unique (hB : CandBase R B) (cr : Confluent R) {A : Tm} {P P' : Tm → Prop} (h : Denotes R B A P) (h' : Denotes R B A P') : P = P' := by
  induction h generalizing P' with
  | base h =>
    cases h' with
    | base h' => exact hB.unique h h'
    | pi hc _ _ => exact absurd hc (hB.notPi h)
  | @pi A A₁ A₂ P Q hc h1 h2 ih1 ih2 =>
    cases h' with
    | base h' => exact absurd hc (hB.notPi h')
    | @pi _ A₁' A₂' P' Q' hc' h1' h2' =>
      obtain ⟨e1, e2⟩ := cr.pi (.trans (.symm hc) hc')
      have e := ih1 (h1'.conv hB (.symm e1))
      subst e
      funext f
      refine propext (forall_congr' fun a => forall_congr' fun ha => ?_)
      rw [ih2 a ha ((h2' a ha).conv hB (.symm (e2.sub _)))]

theorem Denotes.mono {B' : Tm → (Tm → Prop) → Prop} (hB : ∀ A P, B A P → B' A P) {A : Tm} {P : Tm → Prop} (h : Denotes R B A P) : Denotes R B' A P := by
  induction h with
  | base h => exact .base (hB _ _ h)
  | pi hc _ _ ih1 ih2 => exact .pi hc ih1 ih2

/-- functions between candidates -/
theorem Cand.pi {P : Tm → Prop} {Q : Tm → Tm → Prop} (hP : Cand R P) (hQ : ∀ a, P a → Cand R (Q a)) (hE : ∀ a a', P a → Step R false a a' → Q a' = Q a) :
    Cand R fun f => ∀ a, P a → Q a (.app f a) where
  sn t h := SN.pull (fun t => .app t (.var 0)) (fun _ _ h => .appL h) ((hQ _ (hP.var 0)).sn _ (h _ (hP.var 0)))
  step t u h hs a ha := (hQ a ha).step _ _ (h a ha) (.appL hs)
  inert t ht h a ha := by
    have hsn := hP.sn a ha
    induction hsn with
    | intro a _ ih =>
      refine (hQ a ha).inert _ (ht.app a) fun v hv => ?_
      rcases ht.neutral.step hv with ⟨t', h1, rfl⟩ | ⟨a', h1, rfl⟩
      · exact h t' h1 a ha
      · have := ih a' h1 (hP.step _ _ ha h1)
        rwa [hE a a' ha h1] at this

theorem Denotes.cand (hB : CandBase R B) (cr : Confluent R) {A : Tm} {P : Tm → Prop} (h : Denotes R B A P) : Cand R P := by
  induction h with
  | base h => exact hB.cand h
  | @pi A A₁ A₂ P Q hc h1 h2 ih1 ih2 =>
    refine .pi ih1 ih2 fun a a' ha hs => ?_
    exact (h2 a' (ih1.step _ _ ha hs)).unique hB cr ((h2 a ha).conv hB (Conv.inst_arg _ hs.conv))

/-- abstractions -/
theorem Cand.lam (hR : ClosedRules R) {P : Tm → Prop} {Q : Tm → Tm → Prop} (hP : Cand R P) (hQ : ∀ a, P a → Cand R (Q a))
    (hE : ∀ a a', P a → Step R false a a' → Q a' = Q a) {A t : Tm} (hA : SN R false A) (h : ∀ a, P a → Q a (t.inst a)) : ∀ a, P a → Q a (.app (.lam A t) a) := by
  have ht : SN R false t := SN.of_inst hR ((hQ _ (hP.var 0)).sn _ (h _ (hP.var 0)))
  induction hA generalizing t with
  | intro A hA ihA =>
    induction ht with
    | intro t ht iht =>
      intro u hu
      have hsn := hP.sn u hu
      induction hsn with
      | intro u _ ihu =>
        refine (hQ u hu).inert _ ⟨.beta A t u, nofun, nofun, nofun⟩ fun v hv => ?_
        generalize e : Tm.app (.lam A t) u = x at hv
        cases hv with
        | appL h' =>
          cases e
          generalize e : Tm.lam A t = x at h'
          cases h' with
          | lamL h' => cases e; exact ihA _ h' h ⟨_, ht⟩ u hu
          | lamR h' => cases e; exact iht _ h' (fun u hu => (hQ u hu).step _ _ (h u hu) (h'.sub hR _)) u hu
          | rule => exact absurd e.symm Tm.apps_const_ne_lam
          | _ => cases e
        | appR h' =>
          cases e
          have := ihu _ h' (hP.step _ _ hu h')
          rwa [hE _ _ hu h'] at this
        | beta => cases e; exact h u hu
        | rule =>
          obtain ⟨us, -, h⟩ := Tm.apps_const_app e.symm
          exact absurd h.symm Tm.apps_const_ne_lam
        | _ => cases e

theorem Cand.dlam (hR : ClosedRules R) {P : Tm → Prop} {Q : Tm → Tm → Prop} (hP : Cand R P) (hQ : ∀ a, P a → Cand R (Q a))
    (hE : ∀ a a', P a → Step R false a a' → Q a' = Q a) {t : Tm} (h : ∀ a, P a → Q a (t.inst a)) : ∀ a, P a → Q a (.app (.dlam t) a) := by
  have ht : SN R false t := SN.of_inst hR ((hQ _ (hP.var 0)).sn _ (h _ (hP.var 0)))
  induction ht with
  | intro t ht iht =>
    intro u hu
    have hsn := hP.sn u hu
    induction hsn with
    | intro u _ ihu =>
      refine (hQ u hu).inert _ ⟨.dbeta t u, nofun, nofun, nofun⟩ fun v hv => ?_
      generalize e : Tm.app (.dlam t) u = x at hv
      cases hv with
      | appL h' =>
        cases e
        generalize e : Tm.dlam t = x at h'
        cases h' with
        | dlam h' => cases e; exact iht _ h' (fun u hu => (hQ u hu).step _ _ (h u hu) (h'.sub hR _)) u hu
        | rule => exact absurd e.symm Tm.apps_const_ne_dlam
        | _ => cases e
      | appR h' =>
        cases e
        have := ihu _ h' (hP.step _ _ hu h')
        rwa [hE _ _ hu h'] at this
      | dbeta => cases e; exact h u hu
      | rule =>
        obtain ⟨us, -, h⟩ := Tm.apps_const_app e.symm
        exact absurd h.symm Tm.apps_const_ne_dlam
      | _ => cases e

end

/-! ## The reading of types -/

section
variable {R : RuleMap} (cr : Confluent R)
include cr

theorem Inert.flat {t : Tm} (h : Inert R t) (hs : Still R t) : Flat R t (SN R false) := by
  refine ⟨rfl, fun A₁ A₂ hc => ?_, fun hc => ?_, fun hc => ?_⟩
  · obtain ⟨_, _, hr⟩ := cr.to_pi hc
    exact h.pi _ _ (hs.red hr).symm
  · exact h.type (hs.red (cr.to_type hc)).symm
  · exact h.kind (hs.red (cr.to_kind hc)).symm

omit cr in
theorem Flat.base : CandBase R (Flat R) where
  conv := by
    rintro A A' P ⟨h0, h1, h2, h3⟩ hc
    exact ⟨h0, fun _ _ h => h1 _ _ (.trans hc h), fun h => h2 (.trans hc h), fun h => h3 (.trans hc h)⟩
  unique := fun h h' => h.1.trans h'.1.symm
  notPi := fun h => h.2.1 _ _
  cand := fun h => h.1 ▸ .all

/-- the candidate of the types that can be read -/
theorem Denotes.sort {B : Tm → (Tm → Prop) → Prop} (hB : CandBase R B) (h0 : ∀ A P, Flat R A P → B A P) : Cand R fun t => SN R false t ∧ ∃ Q, Denotes R B t Q where
  sn _ h := h.1
  step _ _ h hs := ⟨h.1.step hs, h.2.imp fun _ h => h.conv hB hs.conv⟩
  inert t ht h := by
    refine ⟨⟨_, fun u hu => (h u hu).1⟩, ?_⟩
    by_cases hs : Still R t
    · exact ⟨_, .base (h0 _ _ (ht.flat cr hs))⟩
    · simp only [Still, not_forall, not_not] at hs
      obtain ⟨u, hu⟩ := hs
      obtain ⟨Q, hQ⟩ := (h u hu).2
      exact ⟨Q, hQ.conv hB hu.conv.symm⟩

theorem Conf.type_pi {A C : Tm} : ¬ Conv R false .type (.pi A C) := by
  intro h
  obtain ⟨v, h1, h2⟩ := cr _ _ h
  have := h1.of_type rfl
  subst this
  obtain ⟨_, _, h, _⟩ := h2.pi_inv
  cases h

theorem Conf.kind_pi {A C : Tm} : ¬ Conv R false .kind (.pi A C) := by
  intro h
  obtain ⟨v, h1, h2⟩ := cr _ _ h
  have := h1.of_kind rfl
  subst this
  obtain ⟨_, _, h, _⟩ := h2.pi_inv
  cases h

theorem Conf.type_kind : ¬ Conv R false .type .kind := by
  intro h
  obtain ⟨v, h1, h2⟩ := cr _ _ h
  have := h1.of_type rfl
  subst this
  cases h2.of_kind rfl

theorem FlatT.base : CandBase R (FlatT R) where
  conv := by
    rintro A A' P (h | ⟨h, rfl⟩) hc
    · exact .inl (Flat.base.conv h hc)
    · exact .inr ⟨.trans (.symm hc) h, rfl⟩
  unique := by
    rintro A P P' (h | ⟨h, rfl⟩) (h' | ⟨h', rfl⟩)
    · exact Flat.base.unique h h'
    · exact absurd h' h.2.2.1
    · exact absurd h h'.2.2.1
    · rfl
  notPi := by
    rintro A P A₁ A₂ (h | ⟨h, rfl⟩) hc
    · exact Flat.base.notPi h hc
    · exact Conf.type_pi cr (.trans (.symm h) hc)
  cand := by
    rintro A P (h | ⟨h, rfl⟩)
    · exact Flat.base.cand h
    · exact Denotes.sort cr Flat.base fun _ _ h => h

theorem FlatK.base : CandBase R (FlatK R) where
  conv := by
    rintro A A' P (h | ⟨h, rfl⟩) hc
    · exact .inl ((FlatT.base cr).conv h hc)
    · exact .inr ⟨.trans (.symm hc) h, rfl⟩
  unique := by
    rintro A P P' (h | ⟨h, rfl⟩) (h' | ⟨h', rfl⟩)
    · exact (FlatT.base cr).unique h h'
    · rcases h with h | h
      · exact absurd h' h.2.2.2
      · exact absurd (.trans (.symm h.1) h') (Conf.type_kind cr)
    · rcases h' with h' | h'
      · exact absurd h h'.2.2.2
      · exact absurd (.trans (.symm h'.1) h) (Conf.type_kind cr)
    · rfl
  notPi := by
    rintro A P A₁ A₂ (h | ⟨h, rfl⟩) hc
    · exact (FlatT.base cr).notPi h hc
    · exact Conf.kind_pi cr (.trans (.symm h) hc)
  cand := by
    rintro A P (h | ⟨h, rfl⟩)
    · exact (FlatT.base cr).cand h
    · exact Denotes.sort cr (FlatT.base cr) fun _ _ h => .inl h

omit cr in
theorem Denotes.toT {A : Tm} {P : Tm → Prop} (h : Denotes R (Flat R) A P) : Denotes R (FlatT R) A P := h.mono fun _ _ => .inl
omit cr in
theorem Denotes.toK {A : Tm} {P : Tm → Prop} (h : Denotes R (FlatT R) A P) : Denotes R (FlatK R) A P := h.mono fun _ _ => .inl

theorem Fine.type_inv {t : Tm} (h : Fine R t .type) : SN R false t ∧ ∃ Q, Denotes R (Flat R) t Q := by
  obtain ⟨P, h1, h2⟩ := h
  rwa [h1.unique (FlatK.base cr) cr (.base (.inl (.inr ⟨.refl _, rfl⟩)))] at h2

theorem Fine.kind_inv {t : Tm} (h : Fine R t .kind) : SN R false t ∧ ∃ Q, Denotes R (FlatT R) t Q := by
  obtain ⟨P, h1, h2⟩ := h
  rwa [h1.unique (FlatK.base cr) cr (.base (.inr ⟨.refl _, rfl⟩))] at h2

theorem Fine.sort_inv {t s : Tm} (hs : IsSort s) (h : Fine R t s) : ∃ Q, Denotes R (FlatK R) t Q := by
  cases hs with
  | type => exact (h.type_inv cr).2.imp fun _ h => h.toT.toK
  | kind => exact (h.kind_inv cr).2.imp fun _ h => h.toK

omit cr in
theorem Fine.type {t : Tm} {Q : Tm → Prop} (h : SN R false t) (h' : Denotes R (Flat R) t Q) : Fine R t .type := ⟨_, .base (.inl (.inr ⟨.refl _, rfl⟩)), h, Q, h'⟩
omit cr in
theorem Fine.kind {t : Tm} {Q : Tm → Prop} (h : SN R false t) (h' : Denotes R (FlatT R) t Q) : Fine R t .kind := ⟨_, .base (.inr ⟨.refl _, rfl⟩), h, Q, h'⟩

theorem Fine.sn {t A : Tm} (h : Fine R t A) : SN R false t := by
  obtain ⟨P, h1, h2⟩ := h
  exact (h1.cand (FlatK.base cr) cr).sn _ h2

omit cr in
/-- reading products -/
theorem Denotes.prod {B : Tm → (Tm → Prop) → Prop} {A C : Tm} {P : Tm → Prop} (hA : Denotes R B A P) (h : ∀ a, P a → ∃ Q, Denotes R B (C.inst a) Q) :
    ∃ Q : Tm → Tm → Prop, (∀ a, P a → Denotes R B (C.inst a) (Q a)) ∧ Denotes R B (.pi A C) fun f => ∀ a, P a → Q a (.app f a) := by
  have key : ∀ a, ∃ Q, P a → Denotes R B (C.inst a) Q := by
    intro a
    by_cases ha : P a
    · obtain ⟨Q, hQ⟩ := h a ha
      exact ⟨Q, fun _ => hQ⟩
    · exact ⟨fun _ => True, fun h => absurd h ha⟩
  choose Q hQ using key
  exact ⟨Q, hQ, .pi (.refl _) hA hQ⟩

/-- functions -/
theorem Fine.abs {A C f : Tm} (hA : Fine R A .type) (hC : ∀ a, Fine R a A → ∃ Q, Denotes R (FlatK R) (C.inst a) Q)
    (hf : ∀ (P : Tm → Prop) (Q : Tm → Tm → Prop), Cand R P → (∀ a, P a → Cand R (Q a)) → (∀ a a', P a → Step R false a a' → Q a' = Q a) → (∀ a, P a → Fine R a A) →
      (∀ a t, P a → Fine R t (C.inst a) → Q a t) → ∀ a, P a → Q a (.app f a)) : Fine R f (.pi A C) := by
  have hK := FlatK.base cr
  obtain ⟨-, P, hP⟩ := hA.type_inv cr
  have hP' := hP.toT.toK
  obtain ⟨Q, h1, h2⟩ := hP'.prod (C := C) fun a ha => hC a ⟨P, hP', ha⟩
  have hc := hP'.cand hK cr
  refine ⟨_, h2, hf P Q hc (fun a ha => (h1 a ha).cand hK cr) (fun a a' ha hs => ?_) (fun a ha => ⟨P, hP', ha⟩) fun a t ha ht => ?_⟩
  · exact (h1 a' (hc.step _ _ ha hs)).unique hK cr ((h1 a ha).conv hK (Conv.inst_arg C hs.conv))
  · obtain ⟨Q', h3, h4⟩ := ht
    rwa [h3.unique hK cr (h1 a ha)] at h4

/-- the variables belong to their types -/
def FineEnv (R : RuleMap) (σ : Nat → Tm) (Γ : List Tm) : Prop := ∀ n A, Γ[n]? = some A → Fine R (σ n) ((A.shift (n + 1)).sub σ)

omit cr in
theorem FineEnv.cons {σ : Nat → Tm} {Γ : List Tm} {A a : Tm} (h : FineEnv R σ Γ) (ha : Fine R a (A.sub σ)) : FineEnv R (Tm.ext a σ) (A :: Γ) := by
  intro n C hC
  rw [Tm.shift_sub_ext]
  cases n with
  | zero =>
    cases hC
    rw [Tm.shift_zero]
    exact ha
  | succ n => exact h n C hC

/-- Typed terms belong to what their types are read as. -/
theorem Strict.fine (hR : ClosedRules R) {T : Theory} (hT : ∀ t u, T.Conv t u → Conv R false t u) (hS : T.Sorted)
    (hc : ∀ c A, T.ty c = some A → Fine R (.const c) A) {Γ : List Tm} {t A : Tm} (h : Strict T Γ t A) {σ : Nat → Tm} (hσ : FineEnv R σ Γ) :
    Fine R (t.sub σ) (A.sub σ) := by
  have hK := FlatK.base cr
  induction h generalizing σ with
  | type => exact .kind SN.type (.base (.inr ⟨.refl _, rfl⟩))
  | const h =>
    rw [(hS.closed _ _ h).sub_eq]
    exact hc _ _ h
  | var h => exact hσ _ _ h
  | app _ _ ihf iha =>
    obtain ⟨P, h1, h2⟩ := ihf hσ
    obtain ⟨Q, h3, h4⟩ := iha hσ
    rw [Tm.inst_sub]
    cases h1 with
    | base h1 => exact absurd (.refl _) (hK.notPi h1)
    | @pi _ A₁ A₂ P' Q' hc h5 h6 =>
      obtain ⟨e1, e2⟩ := cr.pi hc
      rw [(h3.conv hK e1).unique hK cr h5] at h4
      exact ⟨_, (h6 _ h4).conv hK (.symm (e2.sub _)), h2 _ h4⟩
  | @lam Γ A b C s _ _ _ hs ihA ihb ihC =>
    refine Fine.abs cr (ihA hσ) (fun a ha => ?_) fun P Q hP hQ hE k1 k2 => hP.lam hR hQ hE ((ihA hσ).sn cr) fun a ha => k2 a _ ha ?_
    · rw [Tm.sub_up_inst]
      have := ihC (hσ.cons ha)
      exact Fine.sort_inv cr hs (by cases hs <;> exact this)
    · rw [Tm.sub_up_inst, Tm.sub_up_inst]
      exact ihb (hσ.cons (k1 a ha))
  | @dlam Γ A b C s _ _ _ hs ihA ihb ihC =>
    refine Fine.abs cr (ihA hσ) (fun a ha => ?_) fun P Q hP hQ hE k1 k2 => hP.dlam hR hQ hE fun a ha => k2 a _ ha ?_
    · rw [Tm.sub_up_inst]
      have := ihC (hσ.cons ha)
      exact Fine.sort_inv cr hs (by cases hs <;> exact this)
    · rw [Tm.sub_up_inst, Tm.sub_up_inst]
      exact ihb (hσ.cons (k1 a ha))
  | @pi Γ A C s _ _ hs ihA ihB =>
    obtain ⟨hA, P, hP⟩ := (ihA hσ).type_inv cr
    have hP' := hP.toT.toK
    have hbody : ∀ a, P a → Fine R ((C.sub (Tm.up σ)).inst a) s := by
      intro a ha
      rw [Tm.sub_up_inst]
      have := ihB (hσ.cons ⟨P, hP', ha⟩)
      cases hs <;> exact this
    have hsn : SN R false (.pi (A.sub σ) (C.sub (Tm.up σ))) := .pi hA (SN.of_inst hR ((hbody _ ((hP'.cand hK cr).var 0)).sn cr))
    cases hs with
    | type =>
      obtain ⟨Q, -, h2⟩ := hP.prod (C := C.sub (Tm.up σ)) fun a ha => ((hbody a ha).type_inv cr).2
      exact .type hsn h2
    | kind =>
      obtain ⟨Q, -, h2⟩ := hP.toT.prod (C := C.sub (Tm.up σ)) fun a ha => ((hbody a ha).kind_inv cr).2
      exact .kind hsn h2
  | conv _ hcv _ _ ih _ =>
    obtain ⟨P, h1, h2⟩ := ih hσ
    exact ⟨P, h1.conv hK ((hT _ _ hcv).sub σ), h2⟩

theorem WfCtx.fine (hR : ClosedRules R) {T : Theory} (hT : ∀ t u, T.Conv t u → Conv R false t u) (hS : T.Sorted)
    (hc : ∀ c A, T.ty c = some A → Fine R (.const c) A) {Γ : List Tm} (h : WfCtx T Γ) (ρ : Nat → Nat) : FineEnv R (fun n => .var (ρ n)) Γ := by
  induction h generalizing ρ with
  | nil => intro n A h; cases h
  | @cons Γ A _ hA ih =>
    have h1 := ih fun n => ρ (n + 1)
    obtain ⟨-, P, hP⟩ := (hA.fine cr hR hT hS hc h1).type_inv cr
    have h2 := h1.cons (a := .var (ρ 0)) ⟨P, hP.toT.toK, (hP.cand Flat.base cr).var _⟩
    convert h2 using 2 with n
    cases n <;> rfl

/-- If all constants belong to what their types are read as, typed terms are strongly normalising. -/
theorem Theory.normalising_fine (hR : ClosedRules R) {T : Theory} (he : T.eta = false) (hr : T.rules = R) (hS : T.Sorted)
    (hc : ∀ c A, T.ty c = some A → Fine R (.const c) A) : T.Normalising := by
  intro Γ t A hΓ h
  have hT : ∀ t u, T.Conv t u → Kontroli.Conv R false t u := fun t u h => hr ▸ h.plain he
  have := (h.fine cr hR hT hS hc (hΓ.fine cr hR hT hS hc id)).sn cr
  rw [show (fun n => Tm.var (id n)) = Tm.var from rfl, Tm.sub_var] at this
  rw [he, hr]
  exact this

end

end Kontroli
