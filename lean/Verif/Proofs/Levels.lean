import Verif.Spec.Levels
import Verif.Proofs.Stable
import Verif.Proofs.Bidir
import Verif.Proofs.EtaApart

/-!
# Levels are respected, and types are unique
-/

namespace Kontroli

namespace Tm

theorem Small.ren {t : Tm} (h : Small t) (ρ : Nat → Nat) : Small (t.ren ρ) := by
  induction t generalizing ρ with
  | app f a ih1 ih2 => exact ⟨ih1 h.1 ρ, ih2 h.2 ρ⟩
  | lam A b ih1 ih2 => exact ⟨ih1 h.1 ρ, ih2 h.2 _⟩
  | dlam b ih => exact ih h _
  | pi A B ih1 ih2 => exact ⟨ih1 h.1 ρ, ih2 h.2 _⟩
  | _ => exact h

theorem Small.up {σ : Nat → Tm} (hσ : ∀ n, Small (σ n)) (n : Nat) : Small (up σ n) := by
  cases n with
  | zero => trivial
  | succ n => exact (hσ n).ren _

theorem Small.sub {t : Tm} (h : Small t) {σ : Nat → Tm} (hσ : ∀ n, Small (σ n)) : Small (t.sub σ) := by
  induction t generalizing σ with
  | app f a ih1 ih2 => exact ⟨ih1 h.1 hσ, ih2 h.2 hσ⟩
  | lam A b ih1 ih2 => exact ⟨ih1 h.1 hσ, ih2 h.2 (Small.up hσ)⟩
  | dlam b ih => exact ih h (Small.up hσ)
  | pi A B ih1 ih2 => exact ⟨ih1 h.1 hσ, ih2 h.2 (Small.up hσ)⟩
  | var n => exact hσ n
  | _ => exact h

theorem Small.instσ {u : Tm} (hu : Small u) (n : Nat) : Small ((fun | 0 => u | n + 1 => .var n : Nat → Tm) n) := by
  cases n with
  | zero => exact hu
  | succ n => trivial

theorem Small.inst {t u : Tm} (h : Small t) (hu : Small u) : Small (t.inst u) :=
  Small.sub h (by intro n; cases n with
    | zero => exact hu
    | succ n => trivial)

theorem small_apps {f : Tm} {as : List Tm} : Small (f.apps as) ↔ Small f ∧ ∀ a ∈ as, Small a := by
  induction as generalizing f with
  | nil => simp [apps]
  | cons a as ih => simp [apps, ih, Small, and_assoc]

theorem Small.unren {t : Tm} {ρ : Nat → Nat} (h : Small (t.ren ρ)) : Small t := by
  induction t generalizing ρ with
  | app f a ih1 ih2 => exact ⟨ih1 h.1, ih2 h.2⟩
  | lam A b ih1 ih2 => exact ⟨ih1 h.1, ih2 h.2⟩
  | dlam b ih => exact ih (ρ := upr ρ) h
  | pi A B ih1 ih2 => exact ⟨ih1 h.1, ih2 h.2⟩
  | _ => exact h

theorem IsKind.ren {t : Tm} (h : IsKind t) (ρ : Nat → Nat) : IsKind (t.ren ρ) := by
  induction t generalizing ρ with
  | pi A B ih1 ih2 => exact ⟨h.1.ren ρ, ih2 h.2 _⟩
  | type => trivial
  | _ => exact h.elim

theorem IsKind.sub {t : Tm} (h : IsKind t) {σ : Nat → Tm} (hσ : ∀ n, Small (σ n)) : IsKind (t.sub σ) := by
  induction t generalizing σ with
  | pi A B ih1 ih2 => exact ⟨h.1.sub hσ, ih2 h.2 (Small.up hσ)⟩
  | type => trivial
  | _ => exact h.elim

theorem IsKind.inst {t u : Tm} (h : IsKind t) (hu : Small u) : IsKind (t.inst u) :=
  IsKind.sub h (by intro n; cases n with
    | zero => exact hu
    | succ n => trivial)

theorem IsKind.not_small {t : Tm} (h : IsKind t) : ¬ Small t := by
  induction t with
  | pi A B ih1 ih2 => exact fun hs => ih2 h.2 hs.2
  | type => exact id
  | _ => exact h.elim

theorem IsKind.not_apps {s : Sym} {ts : List Tm} : ¬ IsKind (apps (.const s) ts) := by
  intro h
  cases ts using List.reverseRecOn with
  | nil => exact h
  | append_singleton init a => rw [apps_snoc] at h; exact h

theorem Small.noKind {t : Tm} (h : Small t) : NoKind t := by
  induction t with
  | app f a ih1 ih2 => exact ⟨ih1 h.1, ih2 h.2⟩
  | lam A b ih1 ih2 => exact ⟨ih1 h.1, ih2 h.2⟩
  | dlam b ih => exact ih h
  | pi A B ih1 ih2 => exact ⟨ih1 h.1, ih2 h.2⟩
  | kind => exact h.elim
  | _ => trivial

end Tm

mutual
  theorem PBind.small {p : Pattern} {t : Tm} {bs : List (Nat × Tm)} (h : PBind p t bs) (ht : t.Small) :
      ∀ b ∈ bs, b.2.Small := by
    cases h with
    | mvar m => simpa using ht
    | joker => simp
    | symb h => exact PBinds.small h (Tm.small_apps.1 ht).2
  theorem PBinds.small {ps : List Pattern} {ts : List Tm} {bs : List (Nat × Tm)} (h : PBinds ps ts bs)
      (ht : ∀ t ∈ ts, t.Small) : ∀ b ∈ bs, b.2.Small := by
    cases h with
    | nil => simp
    | cons h1 h2 =>
      intro b hb
      rcases List.mem_append.1 hb with hb | hb
      · exact PBind.small h1 (ht _ List.mem_cons_self) b hb
      · exact PBinds.small h2 (fun t h => ht t (List.mem_cons_of_mem _ h)) b hb
end

/-- levels for plain theories -/
structure Theory.Levelled (T : Theory) : Prop where
  types : ∀ c A, T.ty c = some A → A.Small ∨ A.IsKind
  rules : ∀ s rs r, T.rules s = some rs → r ∈ rs → r.rhs.den.Small

theorem GCtx.Levelled.theory {gc : GCtx} (h : gc.Levelled) : gc.theory.Levelled where
  types := by
    intro c A hA
    simp only [GCtx.theory, Option.map_eq_some_iff] at hA
    obtain ⟨t, ht, rfl⟩ := hA
    exact (h.types c t ht).imp id And.left
  rules := h.rules

section
variable {R : RuleMap}

theorem RedA.small (hR : ∀ s rs r, R s = some rs → r ∈ rs → r.rhs.den.Small) {t u : Tm} (h : RedA R t u) (ht : t.Small) :
    u.Small := by
  induction h with
  | refl t => exact ht
  | trans _ _ ih1 ih2 => exact ih2 (ih1 ht)
  | app _ _ ih1 ih2 => exact ⟨ih1 ht.1, ih2 ht.2⟩
  | lam _ _ ih1 ih2 => exact ⟨ih1 ht.1, ih2 ht.2⟩
  | dlam _ ih => exact ih ht
  | annot A b => exact ht.2
  | pi _ _ ih1 ih2 => exact ⟨ih1 ht.1, ih2 ht.2⟩
  | beta b a => exact Tm.Small.inst (t := b) ht.1 ht.2
  | @rule s rs r σ ts bs h1 h2 h3 h4 h5 h6 =>
    refine Tm.Small.sub (hR _ _ _ h1 h2) fun m => ?_
    by_cases hm : m < r.ctx.length
    · have : m ∈ bs.map Prod.fst := by rw [h4.vars]; exact (h3 m).2 hm
      obtain ⟨t, ht'⟩ := lookup_isSome this
      rw [h5.1 m t ht']
      exact h4.small (Tm.small_apps.1 ht).2 _ (mem_of_lookup ht')
    · obtain ⟨n, hn⟩ := h6 m (by omega)
      rw [hn]; trivial

theorem RedA.isKind (hR : ∀ s rs r, R s = some rs → r ∈ rs → r.rhs.den.Small) {t u : Tm} (h : RedA R t u) (ht : t.IsKind) :
    u.IsKind := by
  induction h with
  | refl t => exact ht
  | trans _ _ ih1 ih2 => exact ih2 (ih1 ht)
  | pi h1 _ _ ih2 => exact ⟨h1.small hR ht.1, ih2 ht.2⟩
  | rule => exact absurd ht Tm.IsKind.not_apps
  | _ => exact ht.elim

theorem RedA.pi_level (hR : ∀ s rs r, R s = some rs → r ∈ rs → r.rhs.den.Small) {t A B : Tm} (h : RedA R t (.pi A B))
    (ht : t.Small ∨ t.IsKind) : A.Small ∧ (B.Small ∨ B.IsKind) := by
  rcases ht with ht | ht
  · have := h.small hR ht
    exact ⟨this.1, .inl this.2⟩
  · have := h.isKind hR ht
    exact ⟨this.1, .inr this.2⟩

theorem RedA.of_kind {t u : Tm} (h : RedA R t u) (ht : t = .kind) : u = .kind := by
  induction h with
  | refl t => exact ht
  | trans _ _ ih1 ih2 => exact ih2 (ih1 ht)
  | rule => exact absurd ht (Tm.apps_ne_kind (by intro h; cases h))
  | _ => cases ht

theorem RedA.of_type {t u : Tm} (h : RedA R t u) (ht : t = .type) : u = .type := by
  induction h with
  | refl t => exact ht
  | trans _ _ ih1 ih2 => exact ih2 (ih1 ht)
  | @rule s rs r σ ts bs => exact absurd (by rw [ht]; trivial) (Tm.IsKind.not_apps (s := s) (ts := ts))
  | _ => cases ht

/-! With eta, and rules that only unfold definitions. -/

theorem RedE.small (hR : ∀ s rs r, R s = some rs → r ∈ rs → r.rhs.den.Small) {t u : Tm} (h : RedE R t u) (ht : t.Small) : u.Small := by
  induction h with
  | refl t => exact ht
  | trans _ _ ih1 ih2 => exact ih2 (ih1 ht)
  | app _ _ ih1 ih2 => exact ⟨ih1 ht.1, ih2 ht.2⟩
  | lam _ _ ih1 ih2 => exact ⟨ih1 ht.1, ih2 ht.2⟩
  | dlam _ ih => exact ih ht
  | annot A b => exact ht.2
  | pi _ _ ih1 ih2 => exact ⟨ih1 ht.1, ih2 ht.2⟩
  | beta b a => exact Tm.Small.inst (t := b) ht.1 ht.2
  | eta f => exact Tm.Small.unren (show (f.shift 1).Small from ht.1)
  | delta h =>
    obtain ⟨rs, r, h1, h2, -, rfl⟩ := h
    exact hR _ _ _ h1 h2

theorem RedE.isKind (hR : ∀ s rs r, R s = some rs → r ∈ rs → r.rhs.den.Small) {t u : Tm} (h : RedE R t u) (ht : t.IsKind) : u.IsKind := by
  induction h with
  | refl t => exact ht
  | trans _ _ ih1 ih2 => exact ih2 (ih1 ht)
  | pi h1 _ _ ih2 => exact ⟨h1.small hR ht.1, ih2 ht.2⟩
  | _ => exact ht.elim

theorem RedE.of_kind {t u : Tm} (h : RedE R t u) (ht : t = .kind) : u = .kind := by
  induction h with
  | refl t => exact ht
  | trans _ _ ih1 ih2 => exact ih2 (ih1 ht)
  | _ => cases ht

theorem RedE.of_type {t u : Tm} (h : RedE R t u) (ht : t = .type) : u = .type := by
  induction h with
  | refl t => exact ht
  | trans _ _ ih1 ih2 => exact ih2 (ih1 ht)
  | _ => cases ht

theorem RedE.piInv {A B v : Tm} (h : RedE R (.pi A B) v) : ∃ A' B', v = .pi A' B' ∧ RedE R A A' ∧ RedE R B B' := by
  generalize ht : Tm.pi A B = t at h
  induction h generalizing A B with
  | refl => exact ⟨A, B, ht.symm, .refl _, .refl _⟩
  | trans _ _ ih1 ih2 =>
    obtain ⟨A1, B1, e, r1, r2⟩ := ih1 ht
    obtain ⟨A2, B2, e', r3, r4⟩ := ih2 e.symm
    exact ⟨A2, B2, e', r1.trans r3, r2.trans r4⟩
  | pi h1 h2 _ _ => cases ht; exact ⟨_, _, rfl, h1, h2⟩
  | _ => cases ht

theorem Conv.toEta {eta : Bool} {t u : Tm} (h : Conv R false t u) : Conv R eta t u := by
  induction h with
  | refl => exact .refl _
  | symm _ ih => exact ih.symm
  | trans _ _ ih1 ih2 => exact ih1.trans ih2
  | app _ _ ih1 ih2 => exact .app ih1 ih2
  | dlam _ ih => exact .dlam ih
  | annot => exact .annot _ _
  | pi _ _ ih1 ih2 => exact .pi ih1 ih2
  | beta => exact .beta _ _
  | eta h => cases h
  | rule h1 h2 h3 h4 => exact .rule h1 h2 h3 h4

/-- with definitions only, the reductions of the machine do not depend on eta -/
theorem Definitional.toA (hd : Definitional R) {eta : Bool} {t u : Tm} (h : Red R eta t u) : RedA R t u := by
  induction h with
  | refl => exact .refl _
  | trans _ _ ih1 ih2 => exact ih1.trans ih2
  | app _ _ ih1 ih2 => exact .app ih1 ih2
  | lam _ _ ih1 ih2 => exact .lam ih1 ih2
  | dlam _ ih => exact .dlam ih
  | pi _ _ ih1 ih2 => exact .pi ih1 ih2
  | beta A b a => exact (RedA.app (.annot A b) (.refl a)).trans (.beta b a)
  | dbeta => exact .beta _ _
  | rule h1 h2 h3 h4 h5 h6 =>
    refine .rule h1 h2 h3 h4 ⟨h5.1, ?_⟩ h6
    rw [hd.args _ _ _ h1 h2] at h4
    cases h4
    simp

end

section
variable {T : Theory}

theorem Theory.Conv.plain {t u : Tm} (h : T.Conv t u) (he : T.eta = false) : Kontroli.Conv T.rules false t u := he ▸ h
theorem Theory.Conv.of (he : T.eta = false) {t u : Tm} (h : Kontroli.Conv T.rules false t u) : T.Conv t u := by
  unfold Theory.Conv
  rw [he]
  exact h

/-! ## The two kinds of theories -/

theorem Theory.Church.toA (cr : T.Church) {t u : Tm} (h : Red T.rules T.eta t u) : RedA T.rules t u := by
  cases cr with
  | plain he _ => exact Red.toA (he ▸ h)
  | eta _ hd _ => exact hd.toA h

theorem RedA.convT {t u : Tm} (h : RedA T.rules t u) : T.Conv t u := Kontroli.Conv.toEta h.conv

theorem Theory.Church.pi (cr : T.Church) {A B A' B' : Tm} (h : T.Conv (.pi A B) (.pi A' B')) : T.Conv A A' ∧ T.Conv B B' := by
  cases cr with
  | plain he cr => exact ⟨.of he (cr.pi (h.plain he)).1, .of he (cr.pi (h.plain he)).2⟩
  | eta he hd _ =>
    unfold Theory.Conv at h ⊢
    rw [he] at h ⊢
    exact Definitional.pi hd h

/-- convertible terms have common reducts, for a reduction that respects what is needed below -/
theorem Theory.Church.join (cr : T.Church) {t u : Tm} (h : T.Conv t u) :
    ∃ v, (RedA T.rules t v ∧ RedA T.rules u v) ∨ (RedE T.rules t v ∧ RedE T.rules u v) := by
  cases cr with
  | plain he cr =>
    obtain ⟨v, h1⟩ := cr _ _ (h.plain he)
    exact ⟨v, .inl h1⟩
  | eta he hd _ =>
    unfold Theory.Conv at h
    rw [he] at h
    obtain ⟨v, h1⟩ := hd.confluent h
    exact ⟨v, .inr h1⟩

theorem Theory.Church.type_pi (cr : T.Church) {A B : Tm} : ¬ T.Conv .type (.pi A B) := by
  intro h
  obtain ⟨v, ⟨h1, h2⟩ | ⟨h1, h2⟩⟩ := cr.join h
  · have := h1.of_type rfl
    subst this
    obtain ⟨_, _, h, _⟩ := h2.pi_inv
    cases h
  · have := h1.of_type rfl
    subst this
    obtain ⟨_, _, h, _⟩ := h2.piInv
    cases h

theorem Theory.Church.kind_pi (cr : T.Church) {A B : Tm} : ¬ T.Conv .kind (.pi A B) := by
  intro h
  obtain ⟨v, ⟨h1, h2⟩ | ⟨h1, h2⟩⟩ := cr.join h
  · have := h1.of_kind rfl
    subst this
    obtain ⟨_, _, h, _⟩ := h2.pi_inv
    cases h
  · have := h1.of_kind rfl
    subst this
    obtain ⟨_, _, h, _⟩ := h2.piInv
    cases h

theorem Theory.Church.type_kind (cr : T.Church) : ¬ T.Conv .type .kind := by
  intro h
  obtain ⟨v, ⟨h1, h2⟩ | ⟨h1, h2⟩⟩ := cr.join h
  · have := h1.of_type rfl
    subst this
    cases h2.of_kind rfl
  · have := h1.of_type rfl
    subst this
    cases h2.of_kind rfl

section
variable (hR : ∀ s rs r, T.rules s = some rs → r ∈ rs → r.rhs.den.Small) (cr : T.Church)
include hR cr

theorem Theory.Church.small_kind {t u : Tm} (ht : t.Small) (hu : u.IsKind) : ¬ T.Conv t u := by
  intro h
  obtain ⟨v, ⟨h1, h2⟩ | ⟨h1, h2⟩⟩ := cr.join h
  · exact (h2.isKind hR hu).not_small (h1.small hR ht)
  · exact (h2.isKind hR hu).not_small (h1.small hR ht)

theorem Theory.Church.not_kind {t : Tm} (ht : t.Small ∨ t.IsKind) : ¬ T.Conv t .kind := by
  intro h
  obtain ⟨v, ⟨h1, h2⟩ | ⟨h1, h2⟩⟩ := cr.join h
  · have := h2.of_kind rfl
    subst this
    rcases ht with ht | ht
    · exact h1.small hR ht
    · exact h1.isKind hR ht
  · have := h2.of_kind rfl
    subst this
    rcases ht with ht | ht
    · exact h1.small hR ht
    · exact h1.isKind hR ht

/-- a small type or a kind that equals `Type` is `Type` -/
theorem Theory.Church.eq_type {t : Tm} (ht : t.Small ∨ t.IsKind) (h : T.Conv t .type) : t = .type := by
  have : t.IsKind := by
    refine ht.resolve_left fun ht => ?_
    exact cr.small_kind hR ht (u := .type) trivial h
  cases t with
  | type => rfl
  | pi A B => exact absurd (Kontroli.Conv.symm h) cr.type_pi
  | _ => exact this.elim

end

/-- the levels of a term and its type -/
def Level (t A : Tm) : Prop := (t.Small ∧ (A.Small ∨ A.IsKind)) ∨ (t.IsKind ∧ A = .kind)

theorem Level.type {A : Tm} (h : Level A .type) : A.Small := by
  rcases h with h | h
  · exact h.1
  · cases h.2

variable (hL : T.Levelled) (cr : T.Church)
include hL cr

mutual
  theorem Inf.level : ∀ {Γ : List Tm} {t A : Tm}, Inf T Γ t A → (∀ B ∈ Γ, B.Small) → Level t A
    | _, _, _, .type, _ => .inr ⟨trivial, rfl⟩
    | _, _, _, .const h, _ => .inl ⟨trivial, hL.types _ _ h⟩
    | _, _, _, .var h, hΓ => .inl ⟨trivial, .inl ((hΓ _ (List.mem_of_getElem? h)).ren _)⟩
    | _, _, _, .app (A := A) (B := B) h hr h', hΓ => by
      have hr' := cr.toA hr
      rcases Inf.level h hΓ with ⟨h1, h2⟩ | ⟨h1, rfl⟩
      · rcases h2 with h2 | h2
        · have hpi := hr'.small hL.rules h2
          have ha := Chk.level h' hΓ (.inl hpi.1)
          exact .inl ⟨⟨h1, ha⟩, .inl (hpi.2.inst ha)⟩
        · have hpi := hr'.isKind hL.rules h2
          have ha := Chk.level h' hΓ (.inl hpi.1)
          exact .inl ⟨⟨h1, ha⟩, .inr (hpi.2.inst ha)⟩
      · cases hr'.of_kind rfl
    | _, _, _, .lam h h' hn, hΓ => by
      have h1 := (Inf.level h hΓ).type
      rcases Inf.level h' (by simpa using ⟨h1, hΓ⟩) with ⟨h2, h3⟩ | ⟨h2, h3⟩
      · exact .inl ⟨⟨h1, h2⟩, h3.imp (fun h => ⟨h1, h⟩) (fun h => ⟨h1, h⟩)⟩
      · exact absurd h3 hn
    | _, _, _, .pi h h' hs, hΓ => by
      have h1 := (Inf.level h hΓ).type
      rcases Inf.level h' (by simpa using ⟨h1, hΓ⟩) with ⟨h2, h3⟩ | ⟨h2, rfl⟩
      · cases hs with
        | type => exact .inl ⟨⟨h1, h2⟩, .inr trivial⟩
        | kind => exact (h3.elim id id).elim
      · exact .inr ⟨⟨h1, h2⟩, rfl⟩
  theorem Chk.level : ∀ {Γ : List Tm} {t A : Tm}, Chk T Γ t A → (∀ B ∈ Γ, B.Small) → A.Small ∨ A.IsKind → t.Small
    | _, _, _, .dlam hr h, hΓ, hA => by
      have hpi := (cr.toA hr).pi_level hL.rules hA
      have := Chk.level h (by simpa using ⟨hpi.1, hΓ⟩) hpi.2
      exact this
    | _, _, _, .lam hr h' hc h, hΓ, hA => by
      have hpi := (cr.toA hr).pi_level hL.rules hA
      refine ⟨?_, Chk.level h (by simpa using ⟨hpi.1, hΓ⟩) hpi.2⟩
      rcases Inf.level h' hΓ with h1 | h1
      · exact h1.1
      · exact absurd (Kontroli.Conv.symm hc) (cr.small_kind hL.rules hpi.1 h1.1)
    | _, _, _, .conv h hc, hΓ, hA => by
      rcases Inf.level h hΓ with h1 | h1
      · exact h1.1
      · rw [h1.2] at hc
        exact absurd (Kontroli.Conv.symm hc) (cr.not_kind hL.rules hA)
end

theorem Strict.level {Γ : List Tm} {t A : Tm} (h : Strict T Γ t A) (hΓ : ∀ B ∈ Γ, B.Small) : Level t A := by
  induction h with
  | type => exact .inr ⟨trivial, rfl⟩
  | const h => exact .inl ⟨trivial, hL.types _ _ h⟩
  | var h => exact .inl ⟨trivial, .inl ((hΓ _ (List.mem_of_getElem? h)).ren _)⟩
  | app _ _ ih1 ih2 =>
    rcases ih1 hΓ with ⟨h1, h2⟩ | ⟨h1, h2⟩
    · have ha : ∀ {a A : Tm}, Level a A → A.Small → a.Small := by
        rintro a A (h | ⟨h, rfl⟩) hA
        · exact h.1
        · exact hA.elim
      rcases h2 with h2 | h2
      · have := ha (ih2 hΓ) h2.1
        exact .inl ⟨⟨h1, this⟩, .inl (h2.2.inst this)⟩
      · have := ha (ih2 hΓ) h2.1
        exact .inl ⟨⟨h1, this⟩, .inr (h2.2.inst this)⟩
    · cases h2
  | lam _ _ _ hs ih1 ih2 ih3 =>
    have h1 := (ih1 hΓ).type
    rcases ih2 (by simpa using ⟨h1, hΓ⟩) with ⟨h2, h3⟩ | ⟨h2, rfl⟩
    · exact .inl ⟨⟨h1, h2⟩, h3.imp (fun h => ⟨h1, h⟩) (fun h => ⟨h1, h⟩)⟩
    · rcases ih3 (by simpa using ⟨h1, hΓ⟩) with h | h
      · exact h.1.elim
      · exact h.1.elim
  | dlam _ _ _ hs ih1 ih2 ih3 =>
    have h1 := (ih1 hΓ).type
    rcases ih2 (by simpa using ⟨h1, hΓ⟩) with ⟨h2, h3⟩ | ⟨h2, rfl⟩
    · exact .inl ⟨h2, h3.imp (fun h => ⟨h1, h⟩) (fun h => ⟨h1, h⟩)⟩
    · rcases ih3 (by simpa using ⟨h1, hΓ⟩) with h | h
      · exact h.1.elim
      · exact h.1.elim
  | pi _ _ hs ih1 ih2 =>
    have h1 := (ih1 hΓ).type
    rcases ih2 (by simpa using ⟨h1, hΓ⟩) with ⟨h2, h3⟩ | ⟨h2, rfl⟩
    · cases hs with
      | type => exact .inl ⟨⟨h1, h2⟩, .inr trivial⟩
      | kind => exact (h3.elim id id).elim
    · exact .inr ⟨⟨h1, h2⟩, rfl⟩
  | conv _ hc _ hs ih1 ih2 =>
    have hB : ∀ {B : Tm} {s : Tm}, Level B s → B.Small ∨ B.IsKind := fun h => h.imp And.left And.left
    rcases ih1 hΓ with ⟨h1, h2⟩ | ⟨h1, rfl⟩
    · exact .inl ⟨h1, hB (ih2 hΓ)⟩
    · exact absurd (Kontroli.Conv.symm hc) (cr.not_kind hL.rules (hB (ih2 hΓ)))

/-- In a levelled theory, the textbook system is part of `WellTyped`. -/
theorem Strict.wellTyped {Γ : List Tm} {t A : Tm} (h : Strict T Γ t A) (hΓ : ∀ B ∈ Γ, B.Small) : WellTyped T Γ t A := by
  induction h with
  | type => exact .type
  | const h => exact .const h
  | var h => exact .var h
  | app _ _ ih1 ih2 => exact .app (ih1 hΓ) (ih2 hΓ)
  | @lam Γ A b B s h1 h2 h3 hs ih1 ih2 ih3 =>
    have hA := (h1.level hL cr hΓ).type
    have hΓ' : ∀ B ∈ A :: Γ, Tm.Small B := by simpa using ⟨hA, hΓ⟩
    refine .lam (ih1 hΓ) (ih2 hΓ') ?_
    intro hc
    exact cr.not_kind hL.rules ((h3.level hL cr hΓ').imp And.left And.left) hc
  | dlam h1 h2 h3 hs ih1 ih2 ih3 =>
    have hA := (h1.level hL cr hΓ).type
    exact .dlam (ih2 (by simpa using ⟨hA, hΓ⟩))
  | pi h1 h2 hs ih1 ih2 =>
    have hA := (h1.level hL cr hΓ).type
    exact .pi (ih1 hΓ) (ih2 (by simpa using ⟨hA, hΓ⟩)) hs
  | conv _ hc _ _ ih1 _ => exact .conv (ih1 hΓ) hc

end

/-! ## Generation and uniqueness of types -/

section
variable {T : Theory} {Γ : List Tm}

theorem Theory.Conv.trans {t u v : Tm} (h : T.Conv t u) (h' : T.Conv u v) : T.Conv t v := Kontroli.Conv.trans h h'
theorem Theory.Conv.symm {t u : Tm} (h : T.Conv t u) : T.Conv u t := Kontroli.Conv.symm h
theorem Theory.Conv.refl (t : Tm) : T.Conv t t := Kontroli.Conv.refl t

theorem WellTyped.gen {t C : Tm} (h : WellTyped T Γ t C) :
    match t with
    | .kind => False
    | .type => T.Conv .kind C
    | .const c => ∃ A, T.ty c = some A ∧ T.Conv A C
    | .var n => ∃ A, Γ[n]? = some A ∧ T.Conv (A.shift (n + 1)) C
    | .app f a => ∃ A B, WellTyped T Γ f (.pi A B) ∧ WellTyped T Γ a A ∧ T.Conv (B.inst a) C
    | .lam A b => ∃ B, WellTyped T Γ A .type ∧ WellTyped T (A :: Γ) b B ∧ ¬ T.Conv B .kind ∧ T.Conv (.pi A B) C
    | .dlam b => ∃ A B, WellTyped T (A :: Γ) b B ∧ T.Conv (.pi A B) C
    | .pi A B => ∃ s, WellTyped T Γ A .type ∧ WellTyped T (A :: Γ) B s ∧ IsSort s ∧ T.Conv s C := by
  induction h with
  | type => exact .refl _
  | const h => exact ⟨_, h, .refl _⟩
  | var h => exact ⟨_, h, .refl _⟩
  | app h1 h2 => exact ⟨_, _, h1, h2, .refl _⟩
  | lam h1 h2 h3 => exact ⟨_, h1, h2, h3, .refl _⟩
  | dlam h => exact ⟨_, _, h, .refl _⟩
  | pi h1 h2 h3 => exact ⟨_, h1, h2, h3, .refl _⟩
  | @conv Γ t A B _ hc ih =>
    cases t with
    | kind => exact ih
    | type => exact Theory.Conv.trans ih hc
    | const c => obtain ⟨A, h1, h2⟩ := ih; exact ⟨A, h1, Theory.Conv.trans h2 hc⟩
    | var c => obtain ⟨A, h1, h2⟩ := ih; exact ⟨A, h1, Theory.Conv.trans h2 hc⟩
    | app f a => obtain ⟨A, B, h1, h2, h3⟩ := ih; exact ⟨A, B, h1, h2, Theory.Conv.trans h3 hc⟩
    | lam f a => obtain ⟨B, h1, h2, h3, h4⟩ := ih; exact ⟨B, h1, h2, h3, Theory.Conv.trans h4 hc⟩
    | dlam b => obtain ⟨A, B, h1, h2⟩ := ih; exact ⟨A, B, h1, Theory.Conv.trans h2 hc⟩
    | pi f a => obtain ⟨B, h1, h2, h3, h4⟩ := ih; exact ⟨B, h1, h2, h3, Theory.Conv.trans h4 hc⟩

/-- contexts that are convertible -/
def CtxConv (T : Theory) : List Tm → List Tm → Prop := List.Forall₂ T.Conv

theorem CtxConv.refl (Γ : List Tm) : CtxConv T Γ Γ := by
  induction Γ with
  | nil => exact .nil
  | cons A Γ ih => exact .cons (.refl A) ih

theorem CtxConv.get {Γ Γ' : List Tm} (h : CtxConv T Γ Γ') {n : Nat} :
    (∀ A, Γ[n]? = some A → ∃ A', Γ'[n]? = some A' ∧ T.Conv A A') ∧ (∀ A', Γ'[n]? = some A' → ∃ A, Γ[n]? = some A) := by
  unfold CtxConv at h
  induction h generalizing n with
  | nil => simp
  | cons h1 _ ih =>
    cases n with
    | zero => simp [h1]
    | succ n => simpa using ih

variable (cr : T.Church)
include cr

/-- An inferred type is convertible with every type of the term. -/
theorem Inf.unique : ∀ {Γ Γ' : List Tm} {t A A' : Tm}, Inf T Γ t A → CtxConv T Γ Γ' → WellTyped T Γ' t A' → T.Conv A A'
  | _, _, _, _, _, .type, _, h => h.gen
  | _, _, _, _, _, .const h, _, h' => by
    obtain ⟨A, h1, h2⟩ := h'.gen
    rw [h] at h1
    cases h1
    exact h2
  | _, _, _, _, _, .var h, hΓ, h' => by
    obtain ⟨A, h1, h2⟩ := h'.gen
    obtain ⟨A', h3, h4⟩ := hΓ.get.1 _ h
    rw [h1] at h3
    cases h3
    exact Theory.Conv.trans (Conv.ren h4 _) h2
  | _, _, _, _, _, .app h hr h', hΓ, hw => by
    obtain ⟨A', B', h1, h2, h3⟩ := hw.gen
    have h4 := Inf.unique h hΓ h1
    have h5 : T.Conv _ _ := Theory.Conv.trans (Theory.Conv.symm hr.conv) h4
    have h6 := (cr.pi h5).2
    exact Theory.Conv.trans (Kontroli.Conv.sub h6 _) h3
  | _, _, _, _, _, .lam h h' hn, hΓ, hw => by
    obtain ⟨B', h1, h2, h3, h4⟩ := hw.gen
    exact Theory.Conv.trans (Conv.pi (.refl _) (Inf.unique h' (.cons (.refl _) hΓ) h2)) h4
  | _, _, _, _, _, .pi h h' hs, hΓ, hw => by
    obtain ⟨s, h1, h2, h3, h4⟩ := hw.gen
    exact Theory.Conv.trans (Inf.unique h' (.cons (.refl _) hΓ) h2) h4

end

end Kontroli
