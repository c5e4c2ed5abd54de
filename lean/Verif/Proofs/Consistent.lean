import Verif.Proofs.StaticNormal
import Verif.Spec.Consistent
import Verif.Spec.Normalising

/-!
# Types read as propositions: lemmas
-/

namespace Kontroli

/-- neither a variable nor one of some constants stands at the head of a term -/
def Tm.Headed (O : Sym → Prop) : Tm → Prop
  | .kind => True
  | .type => True
  | .const c => ¬ O c
  | .var _ => False
  | .app f _ => f.Headed O
  | .lam _ b => b.Headed O
  | .dlam b => b.Headed O
  | .pi A B => A.Headed O ∧ B.Headed O

section
variable {v O : Sym → Prop}

theorem Tm.holds_ren (t : Tm) (ρ : Nat → Nat) : (t.ren ρ).Holds v ↔ t.Holds v := by
  induction t generalizing ρ with
  | app f a ih _ => exact ih ρ
  | lam A b _ ih => exact ih _
  | dlam b ih => exact ih _
  | pi A B ih1 ih2 => simp only [Tm.ren, Tm.Holds, ih1, ih2]
  | _ => exact Iff.rfl

theorem Tm.headed_ren (t : Tm) (ρ : Nat → Nat) : (t.ren ρ).Headed O ↔ t.Headed O := by
  induction t generalizing ρ with
  | app f a ih _ => exact ih ρ
  | lam A b _ ih => exact ih _
  | dlam b ih => exact ih _
  | pi A B ih1 ih2 => simp only [Tm.ren, Tm.Headed, ih1, ih2]
  | _ => exact Iff.rfl

theorem Tm.Headed.sub {t : Tm} (h : t.Headed O) (σ : Nat → Tm) : (t.sub σ).Headed O := by
  induction t generalizing σ with
  | var n => exact h.elim
  | app f a ih _ => exact ih h σ
  | lam A b _ ih => exact ih h _
  | dlam b ih => exact ih h _
  | pi A B ih1 ih2 => exact ⟨ih1 h.1 σ, ih2 h.2 _⟩
  | _ => exact h

theorem Tm.Headed.holds_sub {t : Tm} (h : t.Headed O) (σ : Nat → Tm) : (t.sub σ).Holds v ↔ t.Holds v := by
  induction t generalizing σ with
  | var n => exact h.elim
  | app f a ih _ => exact ih h σ
  | lam A b _ ih => exact ih h _
  | dlam b ih => exact ih h _
  | pi A B ih1 ih2 => simp only [Tm.sub, Tm.Holds, ih1 h.1, ih2 h.2]
  | _ => exact Iff.rfl

theorem Tm.headed_apps (f : Tm) (as : List Tm) : (f.apps as).Headed O ↔ f.Headed O := by
  induction as generalizing f with
  | nil => exact Iff.rfl
  | cons a as ih => exact ih (.app f a)

theorem Tm.holds_apps (f : Tm) (as : List Tm) : (f.apps as).Holds v ↔ f.Holds v := by
  induction as generalizing f with
  | nil => exact Iff.rfl
  | cons a as ih => exact ih (.app f a)

end

theorem Strict.holds_congr {T : Theory} {v v' : Sym → Prop} (hv : ∀ c, T.ty c ≠ none → (v c ↔ v' c)) {Γ : List Tm} {t A : Tm} (h : Strict T Γ t A) :
    t.Holds v ↔ t.Holds v' := by
  induction h with
  | const h => exact hv _ (by rw [h]; nofun)
  | app _ _ ih _ => exact ih
  | lam _ _ _ _ _ ih _ => exact ih
  | dlam _ _ _ _ _ ih _ => exact ih
  | pi _ _ _ ih1 ih2 => simp only [Tm.Holds, ih1, ih2]
  | conv _ _ _ _ ih _ => exact ih
  | _ => exact Iff.rfl

/-- both sides of a rule have a common type -/
def RuleSides (T : Theory) (s : Sym) (r : Rule) : Prop :=
  ∃ Γ ts B, WfCtx T Γ ∧ Strict T Γ (Tm.apps (.const s) ts) B ∧ Strict T Γ r.rhs.den B

theorem RuleSides.mono {T T' : Theory} (hle : T.Le T') {s : Sym} {r : Rule} : RuleSides T s r → RuleSides T' s r
  | ⟨Γ, ts, B, h1, h2, h3⟩ => ⟨Γ, ts, B, h1.mono hle, h2.mono hle, h3.mono hle⟩

theorem SessionIn.sides {eta : Bool} {cmds : List Cmd} {T : Theory} (h : SessionIn eta cmds T) {s : Sym} {l : List Rule} {r : Rule} (hl : T.rules s = some l) (hr : r ∈ l) :
    RuleSides T s r := by
  induction h generalizing s l r with
  | nil => cases hl
  | @intro cmds T s' it A rs hS hs hI ih =>
    have hle := Theory.declare_le hs (hS.dom s' hs) A rs
    simp only [Theory.declare] at hl
    split at hl
    · next e =>
      subst e; subst hl
      rcases hI.rules with rfl | ⟨tm, rfl, h⟩
      · cases hr
      · rw [List.mem_singleton] at hr
        subst hr
        exact ⟨[], [], A, .nil, Strict.const (c := s) (by simp [Theory.declare]), h.mono hle⟩
    · exact (ih hl hr).mono hle
  | @rules cmds T rs hS h ih =>
    simp only [Theory.extend, Option.map_eq_some_iff] at hl
    obtain ⟨l, h1, rfl⟩ := hl
    rcases List.mem_append.1 hr with hr | hr
    · exact (ih h1 hr).mono (T.extend_le rs)
    · have h2 := List.mem_filter.1 hr
      have e : r.lhs.symbol = s := by simpa using h2.2
      obtain ⟨Γ, l', u, ⟨tys, -, -, hp, rfl⟩, hw, A, s', -, -, h3, h4⟩ := (h r h2.1).2
      refine RuleSides.mono (T.extend_le rs) ?_
      rw [e] at hp
      cases hp with
      | symb => exact ⟨Γ, _, A, hw, h3, h4⟩

section
variable {T : Theory} (hT : T.WellFormed) (cr : T.Church)
include hT cr

theorem Strict.not_type_type {Γ : List Tm} : ¬ Strict T Γ .type .type := fun h => cr.type_kind h.gen.1.symm

theorem IsSort.not_type {Γ : List Tm} {s : Tm} (hs : IsSort s) : ¬ Strict T Γ s .type := by
  cases hs with
  | type => exact Strict.not_type_type hT cr
  | kind => exact fun h => absurd rfl h.not_kind

/-- the type of a function is not small if the type of its values is not -/
theorem Strict.fun_not_type {Γ : List Tm} {f a A B : Tm} (h1 : Strict T Γ f (.pi A B)) (h2 : Strict T Γ a A) (hn : ¬ Strict T Γ (B.inst a) .type) :
    ¬ Strict T Γ (.pi A B) .type := by
  intro h
  obtain ⟨s', hs', k1, k2, k3⟩ := h.gen
  cases hs' with
  | type => exact hn (k2.inst hT.types.closed h2)
  | kind => exact cr.type_kind k3.1.symm

/-- the type of the values of a function is not small if the type of the function is not -/
theorem Strict.body_not_type {Γ : List Tm} {A B : Tm} (hA : Strict T Γ A .type) (hn : ¬ Strict T Γ (.pi A B) .type) : ¬ Strict T (A :: Γ) B .type :=
  fun h => hn (.pi hA h .type)

theorem Strict.conv_not_type {Γ : List Tm} {A B s : Tm} (hc : T.Conv A B) (hB : Strict T Γ B s) (hn : ¬ Strict T Γ B .type) (hΓ : WfCtx T Γ) :
    ¬ Strict T Γ A .type := fun h => hn (h.type_of_conv cr hT hB hc hΓ)

/-- the terms that are no objects do not begin with a variable -/
theorem Strict.headed {Γ : List Tm} {t A : Tm} (h : Strict T Γ t A) (hΓ : WfCtx T Γ) (hA : ¬ Strict T Γ A .type) : t.Headed T.Object := by
  induction h with
  | type => trivial
  | @const Γ _ _ h =>
    rintro ⟨B, h1, h2⟩
    rw [h] at h1
    cases h1
    have h6 := h2.ren hT.types.closed (Δ := Γ) (ρ := id) (by intro n B h; simp at h)
    rw [h2.freeBelow.ren_eq] at h6
    exact hA h6
  | var h => exact hA (hΓ.get hT.types.closed h)
  | app h1 h2 ih1 _ => exact ih1 hΓ (h1.fun_not_type hT cr h2 hA)
  | lam h1 _ _ _ _ ih2 _ => exact ih2 (hΓ.cons h1) (h1.body_not_type hT cr hA)
  | dlam h1 _ _ _ _ ih2 _ => exact ih2 (hΓ.cons h1) (h1.body_not_type hT cr hA)
  | pi h1 _ hs ih1 ih2 => exact ⟨ih1 hΓ (Strict.not_type_type hT cr), ih2 (hΓ.cons h1) (hs.not_type hT cr)⟩
  | conv h1 hc h2 _ ih1 _ => exact ih1 hΓ (Strict.conv_not_type hT cr hc h2 hA hΓ)

/-- applications of constants that are no objects are no objects -/
theorem Strict.apps_not_type {s : Sym} (hs : ¬ T.Object s) {Γ : List Tm} {ts : List Tm} {B : Tm} (h : Strict T Γ (Tm.apps (.const s) ts) B)
    (hΓ : WfCtx T Γ) : ¬ Strict T Γ B .type := by
  intro hB
  have key : ∀ {C : Tm} {X : Tm}, Strict T Γ C X → GenTy T Γ C B → Strict T Γ C .type := by
    rintro C X hC ⟨hc, rfl | ⟨s, hs, hB'⟩⟩
    · exact hB
    · exact hB.type_of_conv cr hT hC hc.symm hΓ
  induction ts using List.reverseRecOn generalizing B with
  | nil =>
    obtain ⟨A, h3, h4⟩ := h.gen
    obtain ⟨s', hs', h5⟩ := hT.types s A h3
    have h6 := h5.ren hT.types.closed (Δ := Γ) (ρ := id) (by intro n B h; simp at h)
    rw [h5.freeBelow.ren_eq] at h6
    have h7 := key h6 h4
    cases hs' with
    | type => exact hs ⟨A, h3, h5⟩
    | kind =>
      obtain ⟨n, hn⟩ := h5.kind_kl cr hT rfl .nil
      exact (hn.not_type cr hT h7 hΓ).elim
  | append_singleton ts a ih =>
    rw [Tm.apps_concat] at h
    obtain ⟨C, D, h3, h4, h5⟩ := h.gen
    obtain ⟨k1, s', hs', k2⟩ := h3.fun_typed hT.types hΓ
    have k3 := key (k2.inst hT.types.closed h4) h5
    have k4 : Strict T Γ (.pi C D) .type := by
      cases hs' with
      | type => exact .pi k1 k2 .type
      | kind =>
        obtain ⟨n, hn⟩ := (k2.inst hT.types.closed h4).kind_kl cr hT rfl hΓ
        exact (hn.not_type cr hT k3 hΓ).elim
    refine ih h3 k4 ?_
    rintro E X hE ⟨hc, rfl | ⟨s, hs, hB'⟩⟩
    · exact k4
    · exact k4.type_of_conv cr hT hE hc.symm hΓ

variable {v : Sym → Prop} (hv : T.Models v) (hR : ∀ s l r, T.rules s = some l → r ∈ l → RuleSides T s r)
include hv hR

/-- the right-hand sides of rules for types are types -/
theorem RuleSides.headed {s : Sym} {l : List Rule} {r : Rule} (h1 : T.rules s = some l) (h2 : r ∈ l) (hs : ¬ T.Object s) :
    r.rhs.den.Headed T.Object ∧ (v s ↔ r.rhs.den.Holds v) := by
  obtain ⟨Δ, ts, B, k1, k2, k3⟩ := hR _ _ _ h1 h2
  exact ⟨k3.headed hT cr k1 (Strict.apps_not_type hT cr hs k2 k1), hv _ _ _ h1 h2 hs⟩

/-- reduction preserves the truth values of types -/
theorem RedA.holds {t u : Tm} (h : RedA T.rules t u) (ht : t.Headed T.Object) : u.Headed T.Object ∧ (t.Holds v ↔ u.Holds v) := by
  induction h with
  | refl t => exact ⟨ht, Iff.rfl⟩
  | trans h1 _ ih1 ih2 => exact ⟨(ih2 (ih1 ht).1).1, (ih1 ht).2.trans (ih2 (ih1 ht).1).2⟩
  | app h1 h2 ih1 ih2 => exact ih1 ht
  | lam h1 h2 ih1 ih2 => exact ih2 ht
  | dlam h2 ih2 => exact ih2 ht
  | annot B b => exact ⟨ht, Iff.rfl⟩
  | pi h1 h2 ih1 ih2 =>
    refine ⟨⟨(ih1 ht.1).1, (ih2 ht.2).1⟩, ?_⟩
    simp only [Tm.Holds, (ih1 ht.1).2, (ih2 ht.2).2]
  | beta b a => exact ⟨Tm.Headed.sub (t := b) ht _, (Tm.Headed.holds_sub (t := b) ht _).symm⟩
  | rule h1 h2 h3 h4 h5 h6 =>
    rw [Tm.headed_apps] at ht
    obtain ⟨k1, k2⟩ := RuleSides.headed hT cr hv hR h1 h2 ht
    exact ⟨k1.sub _, by rw [Tm.holds_apps, k1.holds_sub]; exact k2⟩

/-- reduction with eta preserves the truth values of types -/
theorem RedE.holds {t u : Tm} (h : RedE T.rules t u) (ht : t.Headed T.Object) : u.Headed T.Object ∧ (t.Holds v ↔ u.Holds v) := by
  induction h with
  | refl t => exact ⟨ht, Iff.rfl⟩
  | trans h1 _ ih1 ih2 => exact ⟨(ih2 (ih1 ht).1).1, (ih1 ht).2.trans (ih2 (ih1 ht).1).2⟩
  | app h1 h2 ih1 ih2 => exact ih1 ht
  | lam h1 h2 ih1 ih2 => exact ih2 ht
  | dlam h2 ih2 => exact ih2 ht
  | annot B b => exact ⟨ht, Iff.rfl⟩
  | pi h1 h2 ih1 ih2 =>
    refine ⟨⟨(ih1 ht.1).1, (ih2 ht.2).1⟩, ?_⟩
    simp only [Tm.Holds, (ih1 ht.1).2, (ih2 ht.2).2]
  | beta b a => exact ⟨Tm.Headed.sub (t := b) ht _, (Tm.Headed.holds_sub (t := b) ht _).symm⟩
  | eta f => exact ⟨(Tm.headed_ren f _).1 ht, Tm.holds_ren f _⟩
  | delta h =>
    obtain ⟨rs, r, h1, h2, -, rfl⟩ := h
    exact RuleSides.headed hT cr hv hR h1 h2 ht

/-- convertible types have the same truth value -/
theorem Strict.holds_conv {Γ : List Tm} {A B X Y : Tm} (hA : Strict T Γ A X) (hX : IsSort X) (hB : Strict T Γ B Y) (hY : IsSort Y) (hΓ : WfCtx T Γ)
    (hc : T.Conv A B) : A.Holds v ↔ B.Holds v := by
  have k1 := hA.headed hT cr hΓ (hX.not_type hT cr)
  have k2 := hB.headed hT cr hΓ (hY.not_type hT cr)
  cases id cr with
  | plain he cr' =>
    obtain ⟨w, h1, h2⟩ := cr' _ _ (hc.plain he)
    exact (RedA.holds hT cr hv hR h1 k1).2.trans (RedA.holds hT cr hv hR h2 k2).2.symm
  | eta he hd _ =>
    unfold Theory.Conv at hc
    rw [he] at hc
    obtain ⟨w, h1, h2⟩ := Definitional.confluent hd hc
    exact (RedE.holds hT cr hv hR h1 k1).2.trans (RedE.holds hT cr hv hR h2 k2).2.symm

/-- The types of typed terms are true, if those of the constants and variables are.  The term may be typed in a smaller theory. -/
theorem Strict.holds {T' : Theory} (hle : T'.Le T) (hc : ∀ c A, T'.ty c = some A → A.Holds v) {Γ : List Tm} {t A : Tm} (h : Strict T' Γ t A)
    (hΓ : WfCtx T Γ) (hv' : ∀ B ∈ Γ, B.Holds v) : A.Holds v := by
  have up : ∀ {Γ : List Tm} {A : Tm}, (∀ B ∈ Γ, B.Holds v) → A.Holds v → ∀ B ∈ A :: Γ, B.Holds v := by
    intro Γ A h hA B hB
    rcases List.mem_cons.1 hB with rfl | hB
    · exact hA
    · exact h B hB
  induction h with
  | type => trivial
  | const h => exact hc _ _ h
  | var h => rw [Tm.shift, Tm.holds_ren]; exact hv' _ (List.mem_of_getElem? h)
  | app h1 h2 ih1 ih2 =>
    obtain ⟨k1, s, hs, k2⟩ := (h1.mono hle).fun_typed hT.types hΓ
    have k3 := k2.headed hT cr (hΓ.cons k1) (hs.not_type hT cr)
    exact (k3.holds_sub _).2 (ih1 hΓ hv' (ih2 hΓ hv'))
  | lam h1 _ _ _ _ ih2 _ => exact fun hA => ih2 (hΓ.cons (h1.mono hle)) (up hv' hA)
  | dlam h1 _ _ _ _ ih2 _ => exact fun hA => ih2 (hΓ.cons (h1.mono hle)) (up hv' hA)
  | pi _ _ hs _ _ => cases hs <;> trivial
  | conv h1 hcv h2 hs ih1 _ =>
    have hcv' : T.Conv _ _ := hle.conv hcv
    rcases (h1.mono hle).typed hT.types hΓ with rfl | ⟨s', hs', h3⟩
    · exact absurd hcv'.symm ((h2.mono hle).sort_not_kind hT cr hΓ)
    · exact (h3.holds_conv hT cr hv hR hs' (h2.mono hle) hs hΓ hcv').1 (ih1 hΓ hv')

end

/-- kinds are true -/
theorem Strict.kind_holds {T : Theory} {v : Sym → Prop} (hT : T.Sorted) {Γ : List Tm} {B C : Tm} (h : Strict T Γ B C) (e : C = .kind) (hΓ : WfCtx T Γ) :
    B.Holds v := by
  induction h with
  | type => trivial
  | const h =>
    subst e
    obtain ⟨s, _, h⟩ := hT _ _ h
    exact absurd rfl h.not_kind
  | var h =>
    have h1 := hΓ.get hT.closed h
    exact absurd e h1.not_kind
  | app h1 h2 _ _ =>
    obtain ⟨s, _, h3⟩ := h1.app_sort hT h2 hΓ
    exact absurd e h3.not_kind
  | lam => cases e
  | dlam => cases e
  | pi h1 _ _ _ ih2 => exact fun _ => ih2 e (hΓ.cons h1)
  | conv _ _ h _ _ _ => exact absurd e h.not_kind

/-! ## Sessions -/

theorem SessionIn.church_of {eta : Bool} {cmds : List Cmd} {T : Theory} (h : SessionIn eta cmds T) (cr : Coherent eta T.rules) : T.Church := by
  cases eta with
  | false => exact .plain h.eta cr
  | true =>
    refine .eta h.eta cr ?_
    rintro s d ⟨rs, r, h1, -⟩
    cases hA : T.ty s with
    | none => rw [h.dom s hA] at h1; cases h1
    | some A => exact ⟨A, rfl⟩


theorem Theory.Le.refl (T : Theory) : T.Le T := ⟨fun _ _ h => h, fun _ rs h => ⟨rs, h, fun _ h => h⟩, rfl⟩

theorem Theory.Le.trans {T T' T'' : Theory} (h : T.Le T') (h' : T'.Le T'') : T.Le T'' where
  ty s A hs := h'.ty s A (h.ty s A hs)
  rules s rs hs := by
    obtain ⟨rs', h1, h2⟩ := h.rules s rs hs
    obtain ⟨rs'', h3, h4⟩ := h'.rules s rs' h1
    exact ⟨rs'', h3, fun r hr => h4 r (h2 r hr)⟩
  eta := h'.eta.trans h.eta

theorem Introduces.body {T : Theory} {s : Sym} {it : Intro LTerm} {A : Tm} {rs : Option (List Rule)} (h : Introduces T s it A rs) :
    it.body = none ∨ ∃ tm : LTerm, it.body = some tm ∧ Strict T [] tm.den A := by
  cases h with
  | declared | injective | definable => exact .inl rfl
  | defined _ h | inferred _ h | proved _ h => exact .inr ⟨_, rfl, h⟩

theorem Introduces.rules_body {T : Theory} {s : Sym} {it : Intro LTerm} {A : Tm} {l : List Rule} (h : Introduces T s it A (some l)) {r : Rule}
    (hr : r ∈ l) : ∃ tm : LTerm, it.body = some tm ∧ r.rhs = tm ∧ Strict T [] tm.den A := by
  cases h with
  | injective | definable => cases hr
  | defined _ h | inferred _ h => rw [List.mem_singleton.1 hr]; exact ⟨_, rfl, rfl, h⟩

/-- what is introduced has a type, which is the given one, and which the body has -/
theorem SessionIn.introduced {eta : Bool} {cmds : List Cmd} {T : Theory} (h : SessionIn eta cmds T) {s : Sym} {it : Intro LTerm} (hm : .intro s it ∈ cmds) :
    ∃ A, T.ty s = some A ∧ T.IsType A ∧ (∀ ty : LTerm, it.given = some ty → A = ty.den) ∧ ∀ tm : LTerm, it.body = some tm → Strict T [] tm.den A := by
  induction h with
  | nil => cases hm
  | @intro cmds T s' it' A rs hS hs hI ih =>
    have hle := Theory.declare_le hs (hS.dom s' hs) A rs
    rcases List.mem_append.1 hm with hm | hm
    · obtain ⟨B, h1, ⟨s1, h2, h3⟩, h4, h5⟩ := ih hm
      exact ⟨B, hle.ty _ _ h1, ⟨s1, h2, h3.mono hle⟩, h4, fun tm ht => (h5 tm ht).mono hle⟩
    · simp only [List.mem_singleton, Cmd.intro.injEq] at hm
      obtain ⟨rfl, rfl⟩ := hm
      obtain ⟨s1, h2, h3⟩ := hI.strict.2
      refine ⟨A, by simp [Theory.declare], ⟨s1, h2, h3.mono hle⟩, ?_, ?_⟩
      · intro ty hg
        cases hI <;> cases hg <;> rfl
      · intro tm hb
        rcases hI.body with h | ⟨tm', h, ht⟩
        · rw [hb] at h; cases h
        · rw [hb] at h; cases h; exact ht.mono hle
  | @rules cmds T rs hS h ih =>
    have hle := T.extend_le rs
    obtain ⟨B, h1, ⟨s1, h2, h3⟩, h4, h5⟩ := ih (by simpa using hm)
    exact ⟨B, hle.ty _ _ h1, ⟨s1, h2, h3.mono hle⟩, h4, fun tm ht => (h5 tm ht).mono hle⟩

/-- the types of all constants are true, if those of the postulated ones are -/
theorem SessionIn.types_hold {eta : Bool} {T : Theory} (hT : T.WellFormed) (cr : T.Church) {v : Sym → Prop} (hv : T.Models v)
    (hR : ∀ s l r, T.rules s = some l → r ∈ l → RuleSides T s r) {cmds : List Cmd} {T' : Theory} (h : SessionIn eta cmds T') (hle : T'.Le T)
    (hax : ∀ s A, Postulated cmds s → T.ty s = some A → A.Holds v) : ∀ c A, T'.ty c = some A → A.Holds v := by
  induction h with
  | nil => nofun
  | @intro cmds T' s it A rs hS hs hI ih =>
    have hle' := (Theory.declare_le hs (hS.dom s hs) A rs).trans hle
    have ih := ih hle' fun s B ⟨it, h1, h2⟩ => hax s B ⟨it, List.mem_append_left _ h1, h2⟩
    intro c B hB
    have hB' := hle.ty _ _ hB
    simp only [Theory.declare] at hB
    split at hB
    · next e =>
      subst e; cases hB
      rcases hI.body with h | ⟨tm, h, ht⟩
      · exact hax c _ ⟨it, by simp, h⟩ hB'
      · exact ht.holds hT cr hv hR hle' ih .nil nofun
    · exact ih c B hB
  | @rules cmds T' rs hS h ih =>
    exact ih ((T'.extend_le rs).trans hle) fun s B ⟨it, h1, h2⟩ => hax s B ⟨it, List.mem_append_left _ h1, h2⟩

/-- truth values for the postulated symbols can be extended to all symbols, if the rules are for objects -/
theorem SessionIn.exists_models {eta : Bool} {T : Theory} (v₀ : Sym → Prop) {cmds : List Cmd} {T' : Theory} (h : SessionIn eta cmds T') (hle : T'.Le T)
    (ho : ∀ rs, Cmd.rules rs ∈ cmds → ∀ r ∈ rs, T.Object r.lhs.symbol) :
    ∃ v : Sym → Prop, (∀ s rs r, T'.rules s = some rs → r ∈ rs → ¬ T.Object s → (v s ↔ r.rhs.den.Holds v)) ∧
      ∀ s, Postulated cmds s → (v s ↔ v₀ s) := by
  induction h with
  | nil => exact ⟨v₀, nofun, fun _ _ => Iff.rfl⟩
  | @intro cmds T' s it A rs hS hs hI ih =>
    have hle' := (Theory.declare_le hs (hS.dom s hs) A rs).trans hle
    obtain ⟨v, h1, h2⟩ := ih hle' fun rs h => ho rs (List.mem_append_left _ h)
    let k : Prop := match it.body with
      | some tm => tm.den.Holds v
      | none => v₀ s
    let v' : Sym → Prop := fun c => if c = s then k else v c
    have hcc : ∀ c, T'.ty c ≠ none → (v c ↔ v' c) := by
      intro c hc
      simp only [v']
      split
      · next e => subst e; exact absurd hs hc
      · exact Iff.rfl
    refine ⟨v', ?_, ?_⟩
    · intro c l r hl hr hn
      simp only [Theory.declare] at hl
      split at hl
      · next e =>
        subst e; subst hl
        obtain ⟨tm, k1, k2, k3⟩ := hI.rules_body hr
        rw [k2, ← k3.holds_congr hcc]
        simp only [v', k, if_true, k1]
      · have hty : T'.ty c ≠ none := fun h => by rw [hS.dom c h] at hl; cases hl
        obtain ⟨Γ, ts, B, -, -, k3⟩ := hS.sides hl hr
        rw [← k3.holds_congr hcc, ← hcc c hty]
        exact h1 c l r hl hr hn
    · rintro c ⟨it', k1, k2⟩
      rcases List.mem_append.1 k1 with k1 | k1
      · rw [← hcc c (by obtain ⟨A, h, -⟩ := hS.introduced k1; rw [h]; nofun)]
        exact h2 c ⟨it', k1, k2⟩
      · simp only [List.mem_singleton, Cmd.intro.injEq] at k1
        obtain ⟨rfl, rfl⟩ := k1
        simp only [v', k, if_true, k2]
  | @rules cmds T' rs hS h ih =>
    obtain ⟨v, h1, h2⟩ := ih ((T'.extend_le rs).trans hle) fun rs h => ho rs (List.mem_append_left _ h)
    refine ⟨v, ?_, ?_⟩
    · intro c l r hl hr hn
      simp only [Theory.extend, Option.map_eq_some_iff] at hl
      obtain ⟨l, k1, rfl⟩ := hl
      rcases List.mem_append.1 hr with hr | hr
      · exact h1 c l r k1 hr hn
      · have k2 := List.mem_filter.1 hr
        have e : r.lhs.symbol = c := by simpa using k2.2
        exact absurd (e ▸ ho rs (by simp) r k2.1) hn
    · rintro c ⟨it', k1, k2⟩
      exact h2 c ⟨it', by simpa using k1, k2⟩

end Kontroli
