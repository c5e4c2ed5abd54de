import Verif.Proofs.Normal
import Verif.Proofs.Static
import Verif.Proofs.Preserve
import Verif.Proofs.Orthogonal
import Verif.Spec.Normalising

/-!
# Reducible terms

Simple types are assigned to types; a term is reducible at a simple type if it is strongly normalising and, at a function type, if applications of it to
reducible arguments are reducible.
-/

namespace Kontroli

/-- simple types -/
inductive Ty where
  | base
  | arr (a b : Ty)
  deriving DecidableEq

/-- reducible terms -/
def Rc (R : RuleMap) (eta : Bool) : Ty → Tm → Prop
  | .base, t => SN R eta t
  | .arr a b, t => ∀ u, Rc R eta a u → Rc R eta b (.app t u)

/-- terms that do not interact with an argument -/
structure Neutral (R : RuleMap) (t : Tm) : Prop where
  lam : ∀ A b, t ≠ .lam A b
  dlam : ∀ b, t ≠ .dlam b
  const : ∀ s ts rs r, t = Tm.apps (.const s) ts → R s = some rs → r ∈ rs → r.lhs.args.length ≤ ts.length

section
variable {R : RuleMap} {eta : Bool}

theorem SN.step {t u : Tm} (h : SN R eta t) (h' : Step R eta t u) : SN R eta u := h.inv h'

theorem SN.pull (f : Tm → Tm) (hf : ∀ t u, Step R eta t u → Step R eta (f t) (f u)) {t : Tm} (h : SN R eta (f t)) : SN R eta t := by
  generalize e : f t = t' at h
  induction h generalizing t with
  | intro t' _ ih =>
    subst e
    exact ⟨_, fun u hu => ih _ (hf _ _ hu) rfl⟩

theorem Tm.apps_const_ne_var {s : Sym} {ts : List Tm} {n : Nat} : Tm.apps (.const s) ts ≠ .var n := by
  rcases Tm.apps_const_cases (s := s) (as := ts) with ⟨-, h⟩ | ⟨_, _, -, h⟩ <;> rw [h] <;> nofun

theorem Tm.apps_const_ne_type {s : Sym} {ts : List Tm} : Tm.apps (.const s) ts ≠ .type := by
  rcases Tm.apps_const_cases (s := s) (as := ts) with ⟨-, h⟩ | ⟨_, _, -, h⟩ <;> rw [h] <;> nofun

theorem Tm.apps_const_ne_lam {s : Sym} {ts : List Tm} {A b : Tm} : Tm.apps (.const s) ts ≠ .lam A b := by
  rcases Tm.apps_const_cases (s := s) (as := ts) with ⟨-, h⟩ | ⟨_, _, -, h⟩ <;> rw [h] <;> nofun

theorem Tm.apps_const_ne_dlam {s : Sym} {ts : List Tm} {b : Tm} : Tm.apps (.const s) ts ≠ .dlam b := by
  rcases Tm.apps_const_cases (s := s) (as := ts) with ⟨-, h⟩ | ⟨_, _, -, h⟩ <;> rw [h] <;> nofun

theorem Tm.apps_const_ne_pi {s : Sym} {ts : List Tm} {A B : Tm} : Tm.apps (.const s) ts ≠ .pi A B := by
  rcases Tm.apps_const_cases (s := s) (as := ts) with ⟨-, h⟩ | ⟨_, _, -, h⟩ <;> rw [h] <;> nofun

theorem Tm.apps_const_app {s : Sym} {ts : List Tm} {f a : Tm} (h : Tm.apps (.const s) ts = .app f a) :
    ∃ us, ts = us ++ [a] ∧ f = Tm.apps (.const s) us := by
  rcases Tm.apps_const_cases (s := s) (as := ts) with ⟨-, e⟩ | ⟨us, b, rfl, e⟩
  · rw [e] at h; cases h
  · rw [e] at h; cases h; exact ⟨us, rfl, rfl⟩

theorem Neutral.var (n : Nat) : Neutral R (.var n) :=
  ⟨nofun, nofun, fun _ _ _ _ e => absurd e.symm Tm.apps_const_ne_var⟩

theorem Neutral.app {t : Tm} (h : Neutral R t) (u : Tm) : Neutral R (.app t u) := by
  refine ⟨nofun, nofun, ?_⟩
  intro s ts rs r e hs hr
  obtain ⟨us, rfl, rfl⟩ := Tm.apps_const_app e.symm
  have := h.const s us rs r rfl hs hr
  simp only [List.length_append, List.length_cons, List.length_nil]
  omega

theorem Neutral.beta (A b u : Tm) : Neutral R (.app (.lam A b) u) := by
  refine ⟨nofun, nofun, ?_⟩
  intro s ts rs r e hs hr
  obtain ⟨us, rfl, h⟩ := Tm.apps_const_app e.symm
  exact absurd h.symm Tm.apps_const_ne_lam

theorem Neutral.dbeta (b u : Tm) : Neutral R (.app (.dlam b) u) := by
  refine ⟨nofun, nofun, ?_⟩
  intro s ts rs r e hs hr
  obtain ⟨us, rfl, h⟩ := Tm.apps_const_app e.symm
  exact absurd h.symm Tm.apps_const_ne_dlam

theorem Neutral.step {t u v : Tm} (h : Neutral R t) (hs : Step R eta (.app t u) v) :
    (∃ t', Step R eta t t' ∧ v = .app t' u) ∨ ∃ u', Step R eta u u' ∧ v = .app t u' := by
  generalize e : Tm.app t u = x at hs
  cases hs with
  | appL h' => cases e; exact .inl ⟨_, h', rfl⟩
  | appR h' => cases e; exact .inr ⟨_, h', rfl⟩
  | beta A b a => cases e; exact absurd rfl (h.lam _ _)
  | dbeta b a => cases e; exact absurd rfl (h.dlam _)
  | rule h1 h2 h3 h4 h5 h6 =>
    obtain ⟨us, rfl, rfl⟩ := Tm.apps_const_app e.symm
    have k1 := h.const _ us _ _ rfl h1 h2
    have k2 := h4.length
    simp only [List.length_append, List.length_cons, List.length_nil] at k2
    omega
  | _ => cases e

/-- all variables of the right-hand sides are those of the rules -/
def ClosedRules (R : RuleMap) : Prop := ∀ s rs r, R s = some rs → r ∈ rs → r.rhs.den.FreeBelow r.ctx.length

theorem Step.sub (hR : ClosedRules R) {t u : Tm} (h : Step R eta t u) (τ : Nat → Tm) : Step R eta (t.sub τ) (u.sub τ) := by
  induction h generalizing τ with
  | appL _ ih => exact .appL (ih τ)
  | appR _ ih => exact .appR (ih τ)
  | lamL _ ih => exact .lamL (ih τ)
  | lamR _ ih => exact .lamR (ih _)
  | dlam _ ih => exact .dlam (ih _)
  | piL _ ih => exact .piL (ih τ)
  | piR _ ih => exact .piR (ih _)
  | beta A b a => rw [Tm.inst_sub]; exact .beta _ _ _
  | dbeta b a => rw [Tm.inst_sub]; exact .dbeta _ _
  | @rule s rs r σ ts bs h1 h2 h3 h4 h5 h6 =>
    rw [Tm.apps_sub, Tm.sub_sub]
    rw [(hR s rs r h1 h2).sub_congr (τ := fun n => if n < r.ctx.length then (σ n).sub τ else .var 0) (fun n hn => by simp [hn])]
    refine .rule h1 h2 h3 (PBinds.sub τ h4) ⟨?_, ?_⟩ fun m hm => ⟨0, by simp [Nat.not_lt.2 hm]⟩
    · intro m t hl
      have hm : m < r.ctx.length := by
        refine (h3 m).1 ?_
        rw [← (PBinds.sub τ h4).vars]
        exact List.mem_map.2 ⟨_, mem_of_lookup hl, rfl⟩
      simp only [hm, if_true]
      exact (h5.sub τ).1 m t hl
    · intro p hp
      have hm : p.1 < r.ctx.length := by
        refine (h3 p.1).1 ?_
        rw [← (PBinds.sub τ h4).vars]
        exact List.mem_map.2 ⟨_, hp, rfl⟩
      simp only [hm, if_true]
      exact (h5.sub τ).2 p hp

theorem SN.var (n : Nat) : SN R eta (.var n) := by
  refine ⟨_, fun u h => ?_⟩
  generalize e : Tm.var n = t at h
  cases h with
  | rule => exact absurd e.symm Tm.apps_const_ne_var
  | _ => cases e

theorem SN.type : SN R eta .type := by
  refine ⟨_, fun u h => ?_⟩
  generalize e : Tm.type = t at h
  cases h with
  | rule => exact absurd e.symm Tm.apps_const_ne_type
  | _ => cases e

theorem SN.pi {A B : Tm} (hA : SN R eta A) (hB : SN R eta B) : SN R eta (.pi A B) := by
  induction hA generalizing B with
  | intro A hA ihA =>
    induction hB with
    | intro B hB ihB =>
      refine ⟨_, fun u h => ?_⟩
      generalize e : Tm.pi A B = t at h
      cases h with
      | piL h => cases e; exact ihA _ h ⟨_, hB⟩
      | piR h => cases e; exact ihB _ h
      | rule => exact absurd e.symm Tm.apps_const_ne_pi
      | _ => cases e

theorem Rc.step {τ : Ty} {t u : Tm} (h : Rc R eta τ t) (hs : Step R eta t u) : Rc R eta τ u := by
  induction τ generalizing t u with
  | base => exact SN.step h hs
  | arr a b _ ih => exact fun v hv => ih (h v hv) (.appL hs)

theorem Rc.both (τ : Ty) : (∀ t, Rc R eta τ t → SN R eta t) ∧ ∀ t, Neutral R t → (∀ u, Step R eta t u → Rc R eta τ u) → Rc R eta τ t := by
  induction τ with
  | base => exact ⟨fun _ h => h, fun t _ h => ⟨_, h⟩⟩
  | arr a b iha ihb =>
    have hv : Rc R eta a (.var 0) := iha.2 _ (.var 0) fun u h => by
      exact absurd h (fun h => by
        generalize e : Tm.var 0 = t at h
        cases h with
        | rule => exact absurd e.symm Tm.apps_const_ne_var
        | _ => cases e)
    refine ⟨fun t h => ?_, fun t hn h u hu => ?_⟩
    · exact SN.pull (fun t => .app t (.var 0)) (fun _ _ h => .appL h) (ihb.1 _ (h _ hv))
    · have hsn := iha.1 u hu
      induction hsn with
      | intro u _ ih =>
        refine ihb.2 _ (hn.app u) fun v hv => ?_
        rcases hn.step hv with ⟨t', h1, rfl⟩ | ⟨u', h1, rfl⟩
        · exact h t' h1 u hu
        · exact ih u' h1 (hu.step h1)

theorem Rc.sn {τ : Ty} {t : Tm} (h : Rc R eta τ t) : SN R eta t := (Rc.both τ).1 t h

theorem Rc.neutral {τ : Ty} {t : Tm} (hn : Neutral R t) (h : ∀ u, Step R eta t u → Rc R eta τ u) : Rc R eta τ t := (Rc.both τ).2 t hn h

theorem Rc.var (τ : Ty) (n : Nat) : Rc R eta τ (.var n) := by
  refine Rc.neutral (.var n) fun u h => ?_
  generalize e : Tm.var n = t at h
  cases h with
  | rule => exact absurd e.symm Tm.apps_const_ne_var
  | _ => cases e

theorem SN.of_inst (hR : ClosedRules R) {b u : Tm} (h : SN R eta (b.inst u)) : SN R eta b :=
  SN.pull (fun b => b.inst u) (fun _ _ h => h.sub hR _) h

theorem Rc.lam (hR : ClosedRules R) {a b : Ty} {A t : Tm} (hA : SN R eta A) (h : ∀ u, Rc R eta a u → Rc R eta b (t.inst u)) :
    Rc R eta (.arr a b) (.lam A t) := by
  have ht : SN R eta t := SN.of_inst hR (h _ (Rc.var a 0)).sn
  induction hA generalizing t with
  | intro A hA ihA =>
    induction ht with
    | intro t ht iht =>
      intro u hu
      have hsn := hu.sn
      induction hsn with
      | intro u _ ihu =>
        refine Rc.neutral (.beta A t u) fun v hv => ?_
        generalize e : Tm.app (.lam A t) u = x at hv
        cases hv with
        | appL h' =>
          cases e
          generalize e : Tm.lam A t = x at h'
          cases h' with
          | lamL h' => cases e; exact ihA _ h' h ⟨_, ht⟩ u hu
          | lamR h' => cases e; exact iht _ h' (fun u hu => (h u hu).step (h'.sub hR _)) u hu
          | rule => exact absurd e.symm Tm.apps_const_ne_lam
          | _ => cases e
        | appR h' => cases e; exact ihu _ h' (hu.step h')
        | beta => cases e; exact h u hu
        | rule =>
          obtain ⟨us, -, h⟩ := Tm.apps_const_app e.symm
          exact absurd h.symm Tm.apps_const_ne_lam
        | _ => cases e

theorem Rc.dlam (hR : ClosedRules R) {a b : Ty} {t : Tm} (h : ∀ u, Rc R eta a u → Rc R eta b (t.inst u)) :
    Rc R eta (.arr a b) (.dlam t) := by
  have ht : SN R eta t := SN.of_inst hR (h _ (Rc.var a 0)).sn
  induction ht with
  | intro t ht iht =>
    intro u hu
    have hsn := hu.sn
    induction hsn with
    | intro u _ ihu =>
      refine Rc.neutral (.dbeta t u) fun v hv => ?_
      generalize e : Tm.app (.dlam t) u = x at hv
      cases hv with
      | appL h' =>
        cases e
        generalize e : Tm.dlam t = x at h'
        cases h' with
        | dlam h' => cases e; exact iht _ h' (fun u hu => (h u hu).step (h'.sub hR _)) u hu
        | rule => exact absurd e.symm Tm.apps_const_ne_dlam
        | _ => cases e
      | appR h' => cases e; exact ihu _ h' (hu.step h')
      | dbeta => cases e; exact h u hu
      | rule =>
        obtain ⟨us, -, h⟩ := Tm.apps_const_app e.symm
        exact absurd h.symm Tm.apps_const_ne_dlam
      | _ => cases e

end

/-! ## Simple types of types -/

/-- the simple type of a type; the constants have given ones -/
def Tm.simple (κ : Sym → Ty) : Tm → Ty
  | .kind => .base
  | .type => .base
  | .const c => κ c
  | .var _ => .base
  | .app f _ => f.simple κ
  | .lam _ b => b.simple κ
  | .dlam b => b.simple κ
  | .pi A B => .arr (A.simple κ) (B.simple κ)

section
variable {κ : Sym → Ty}

theorem Tm.simple_ren (t : Tm) (ρ : Nat → Nat) : (t.ren ρ).simple κ = t.simple κ := by
  induction t generalizing ρ with
  | app f a ih _ => exact ih ρ
  | lam A b _ ih => exact ih _
  | dlam b ih => exact ih _
  | pi A B ih1 ih2 => simp only [Tm.ren, Tm.simple, ih1, ih2]
  | _ => rfl

theorem Tm.simple_sub (t : Tm) {σ : Nat → Tm} (hσ : ∀ n, (σ n).simple κ = .base) : (t.sub σ).simple κ = t.simple κ := by
  have up : ∀ {σ : Nat → Tm}, (∀ n, (σ n).simple κ = .base) → ∀ n, (Tm.up σ n).simple κ = .base := by
    intro σ h n
    cases n with
    | zero => rfl
    | succ n => simp only [Tm.up, Tm.simple_ren, h]
  induction t generalizing σ with
  | var n => exact hσ n
  | app f a ih _ => exact ih hσ
  | lam A b _ ih => exact ih (up hσ)
  | dlam b ih => exact ih (up hσ)
  | pi A B ih1 ih2 => simp only [Tm.sub, Tm.simple, ih1 hσ, ih2 (up hσ)]
  | _ => rfl

theorem Tm.simple_inst (t : Tm) {u : Tm} (hu : u.simple κ = .base) : (t.inst u).simple κ = t.simple κ :=
  Tm.simple_sub t fun n => by cases n <;> simp [Tm.one, hu, Tm.simple]

theorem Tm.simple_apps (f : Tm) (as : List Tm) : (f.apps as).simple κ = f.simple κ := by
  induction as generalizing f with
  | nil => rfl
  | cons a as ih => exact ih (.app f a)

end

/-- all arguments have the base type -/
def Tm.BaseArgs (κ : Sym → Ty) : Tm → Prop
  | .app f a => f.BaseArgs κ ∧ a.BaseArgs κ ∧ a.simple κ = .base
  | .lam A b => A.BaseArgs κ ∧ b.BaseArgs κ
  | .dlam b => b.BaseArgs κ
  | .pi A B => A.BaseArgs κ ∧ B.BaseArgs κ
  | _ => True

section
variable {κ : Sym → Ty}

theorem Tm.baseArgs_ren (t : Tm) (ρ : Nat → Nat) : (t.ren ρ).BaseArgs κ ↔ t.BaseArgs κ := by
  induction t generalizing ρ with
  | app f a ih1 ih2 => simp only [Tm.ren, Tm.BaseArgs, ih1, ih2, Tm.simple_ren]
  | lam A b ih1 ih2 => simp only [Tm.ren, Tm.BaseArgs, ih1, ih2]
  | dlam b ih => simp only [Tm.ren, Tm.BaseArgs, ih]
  | pi A B ih1 ih2 => simp only [Tm.ren, Tm.BaseArgs, ih1, ih2]
  | _ => exact Iff.rfl

theorem Tm.BaseArgs.sub {t : Tm} (h : t.BaseArgs κ) {σ : Nat → Tm} (hσ : ∀ n, (σ n).BaseArgs κ ∧ (σ n).simple κ = .base) : (t.sub σ).BaseArgs κ := by
  have up : ∀ {σ : Nat → Tm}, (∀ n, (σ n).BaseArgs κ ∧ (σ n).simple κ = .base) → ∀ n, (Tm.up σ n).BaseArgs κ ∧ (Tm.up σ n).simple κ = .base := by
    intro σ h n
    cases n with
    | zero => exact ⟨trivial, rfl⟩
    | succ n => simpa only [Tm.up, Tm.simple_ren, Tm.baseArgs_ren] using h n
  induction t generalizing σ with
  | var n => exact (hσ n).1
  | app f a ih1 ih2 => exact ⟨ih1 h.1 hσ, ih2 h.2.1 hσ, (Tm.simple_sub a fun n => (hσ n).2).trans h.2.2⟩
  | lam A b ih1 ih2 => exact ⟨ih1 h.1 hσ, ih2 h.2 (up hσ)⟩
  | dlam b ih => exact ih h (up hσ)
  | pi A B ih1 ih2 => exact ⟨ih1 h.1 hσ, ih2 h.2 (up hσ)⟩
  | _ => trivial

/-- if arguments have the base type, reduction with eta preserves simple types -/
theorem RedE.base {R : RuleMap} (hdef : ∀ s d, Defines R s d → d.BaseArgs κ ∧ κ s = d.simple κ) {t u : Tm} (h : RedE R t u) (ht : t.BaseArgs κ) :
    u.BaseArgs κ ∧ t.simple κ = u.simple κ := by
  induction h with
  | refl t => exact ⟨ht, rfl⟩
  | trans _ _ ih1 ih2 =>
    obtain ⟨h1, h2⟩ := ih1 ht
    obtain ⟨h3, h4⟩ := ih2 h1
    exact ⟨h3, h2.trans h4⟩
  | app _ _ ih1 ih2 =>
    obtain ⟨h1, h2⟩ := ih1 ht.1
    obtain ⟨h3, h4⟩ := ih2 ht.2.1
    exact ⟨⟨h1, h3, h4 ▸ ht.2.2⟩, h2⟩
  | lam _ _ ih1 ih2 => exact ⟨⟨(ih1 ht.1).1, (ih2 ht.2).1⟩, (ih2 ht.2).2⟩
  | dlam _ ih => exact ih ht
  | annot A b => exact ⟨ht.2, rfl⟩
  | pi _ _ ih1 ih2 => exact ⟨⟨(ih1 ht.1).1, (ih2 ht.2).1⟩, by simp only [Tm.simple, (ih1 ht.1).2, (ih2 ht.2).2]⟩
  | beta b a =>
    refine ⟨Tm.BaseArgs.sub (t := b) ht.1 fun n => ?_, (Tm.simple_inst b ht.2.2).symm⟩
    cases n with
    | zero => exact ht.2
    | succ n => exact ⟨trivial, rfl⟩
  | eta f => exact ⟨(Tm.baseArgs_ren f _).1 ht.1, Tm.simple_ren f _⟩
  | delta h => exact hdef _ _ h

end

/-- The simple types of the constants fit a theory: objects have the base type, and constants defined by a term have the simple type of this term.  Other
rules are rules for objects. -/
structure Fits (T : Theory) (κ : Sym → Ty) : Prop where
  obj : ∀ c A, T.ty c = some A → Strict T [] A .type → κ c = .base
  rule : ∀ s rs r, T.rules s = some rs → r ∈ rs → (r.rhs.den.FreeBelow 0 ∧ r.rhs.den.simple κ = κ s) ∨ ∃ A, T.ty s = some A ∧ Strict T [] A .type

section
variable {T : Theory} {κ : Sym → Ty} (hT : T.WellFormed) (hC : T.Church)
include hT hC

/-- objects have the base type -/
theorem Strict.simple_base (hobj : ∀ c A, T.ty c = some A → Strict T [] A .type → κ c = .base) {Γ : List Tm} {t A : Tm} (h : Strict T Γ t A)
    (hΓ : WfCtx T Γ) (hA : Strict T Γ A .type) : t.simple κ = .base := by
  induction h with
  | type => exact absurd rfl hA.not_kind
  | @const Γ c A h =>
    refine hobj c A h ?_
    obtain ⟨s, hs, h1⟩ := hT.types c A h
    cases hs with
    | type => exact h1
    | kind =>
      obtain ⟨n, hn⟩ := h1.kind_kl hC hT rfl .nil
      exact (hn.not_type hC hT hA hΓ).elim
  | var _ => rfl
  | @app Γ f a A B h1 h2 ih1 ih2 =>
    refine ih1 hΓ ?_
    obtain ⟨k1, s, hs, k2⟩ := h1.fun_typed hT.types hΓ
    cases hs with
    | type => exact .pi k1 k2 .type
    | kind =>
      obtain ⟨n, hn⟩ := (k2.inst hT.types.closed h2).kind_kl hC hT rfl hΓ
      exact (hn.not_type hC hT hA hΓ).elim
  | @lam Γ A b B s h1 h2 h3 hs ih1 ih2 ih3 =>
    obtain ⟨s', hs', k1, k2, k3⟩ := hA.gen
    have : s' = .type := by
      cases hs' with
      | type => rfl
      | kind => exact absurd k3.1.symm hC.type_kind
    subst this
    exact ih2 (hΓ.cons k1) k2
  | @dlam Γ A b B s h1 h2 h3 hs ih1 ih2 ih3 =>
    obtain ⟨s', hs', k1, k2, k3⟩ := hA.gen
    have : s' = .type := by
      cases hs' with
      | type => rfl
      | kind => exact absurd k3.1.symm hC.type_kind
    subst this
    exact ih2 (hΓ.cons k1) k2
  | @pi Γ A B s h1 h2 hs ih1 ih2 =>
    cases hs with
    | type => exact absurd hA.gen.1.symm hC.type_kind
    | kind => exact absurd rfl hA.not_kind
  | @conv Γ t A B s h1 hc h2 hs ih1 ih2 =>
    refine ih1 hΓ ?_
    rcases h1.typed hT.types hΓ with rfl | ⟨s', hs', h3⟩
    · exact absurd hc.symm (h2.sort_not_kind hT hC hΓ)
    · exact hA.type_of_conv hC hT h3 hc.symm hΓ

/-- arguments of typed terms have the base type -/
theorem Strict.baseArgs (hobj : ∀ c A, T.ty c = some A → Strict T [] A .type → κ c = .base) {Γ : List Tm} {t A : Tm} (h : Strict T Γ t A)
    (hΓ : WfCtx T Γ) : t.BaseArgs κ := by
  induction h with
  | type => trivial
  | const _ => trivial
  | var _ => trivial
  | app h1 h2 ih1 ih2 => exact ⟨ih1 hΓ, ih2 hΓ, h2.simple_base hT hC hobj hΓ (h1.fun_typed hT.types hΓ).1⟩
  | lam h1 _ _ _ ih1 ih2 _ => exact ⟨ih1 hΓ, ih2 (hΓ.cons h1)⟩
  | dlam h1 _ _ _ _ ih2 _ => exact ih2 (hΓ.cons h1)
  | pi h1 _ _ ih1 ih2 => exact ⟨ih1 hΓ, ih2 (hΓ.cons h1)⟩
  | conv _ _ _ _ ih1 _ => exact ih1 hΓ

/-- applications of objects are objects -/
theorem Strict.obj_apps {s : Sym} {A : Tm} (h1 : T.ty s = some A) (h2 : Strict T [] A .type) {Γ : List Tm} {ts : List Tm} {B : Tm}
    (h : Strict T Γ (Tm.apps (.const s) ts) B) (hΓ : WfCtx T Γ) : Strict T Γ B .type := by
  have key : ∀ {C : Tm}, Strict T Γ C .type → GenTy T Γ C B → Strict T Γ B .type := by
    rintro C hk ⟨hc, rfl | ⟨s, hs, hB⟩⟩
    · exact hk
    · exact hk.type_of_conv hC hT hB hc hΓ
  induction ts using List.reverseRecOn generalizing B with
  | nil =>
    obtain ⟨A', h3, h4⟩ := h.gen
    rw [h1] at h3
    cases h3
    refine key ?_ h4
    have := h2.ren hT.types.closed (Δ := Γ) (ρ := id) (by intro n B h; simp at h)
    rwa [h2.freeBelow.ren_eq] at this
  | append_singleton ts a ih =>
    rw [Tm.apps_concat] at h
    obtain ⟨C, D, h3, h4, h5⟩ := h.gen
    have h6 := ih h3 fun hk hg => by
      rcases hg with ⟨hc, rfl | ⟨s, hs, hB⟩⟩
      · exact hk
      · exact hk.type_of_conv hC hT hB hc hΓ
    obtain ⟨s', hs', k1, k2, k3⟩ := h6.gen
    have : s' = .type := by
      cases hs' with
      | type => rfl
      | kind => exact absurd k3.1.symm hC.type_kind
    subst this
    exact key (k2.inst hT.types.closed h4) h5

/-- reduction preserves the simple types of typed terms -/
theorem Strict.simple_red (hκ : Fits T κ) {t u : Tm} (h : RedA T.rules t u) {Γ : List Tm} {A : Tm} (ht : Strict T Γ t A) (hΓ : WfCtx T Γ) :
    t.simple κ = u.simple κ := by
  induction h generalizing Γ A with
  | refl t => rfl
  | trans h1 _ ih1 ih2 => exact (ih1 ht hΓ).trans (ih2 (ht.red hT hC h1 hΓ) hΓ)
  | @app f f' a a' h1 h2 ih1 ih2 =>
    obtain ⟨B, C, h3, h4, h5⟩ := ht.gen
    exact ih1 h3 hΓ
  | @lam B B' b b' h1 h2 ih1 ih2 =>
    obtain ⟨C, s, hs, h3, h4, h5, h6⟩ := ht.gen
    exact ih2 h4 (hΓ.cons h3)
  | @dlam b b' h2 ih2 =>
    obtain ⟨B, C, s, hs, h3, h4, h5, h6⟩ := ht.gen
    exact ih2 h4 (hΓ.cons h3)
  | annot B b => rfl
  | @pi B B' C C' h1 h2 ih1 ih2 =>
    obtain ⟨s, hs, h3, h4, h5⟩ := ht.gen
    simp only [Tm.simple, ih1 h3 hΓ, ih2 h4 (hΓ.cons h3)]
  | beta b a =>
    obtain ⟨B, C, h1, h2, h3⟩ := ht.gen
    obtain ⟨k1, -⟩ := h1.fun_typed hT.types hΓ
    exact (Tm.simple_inst b (h2.simple_base hT hC hκ.obj hΓ k1)).symm
  | rule h1 h2 h3 h4 h5 h6 =>
    rw [Tm.simple_apps]
    rcases hκ.rule _ _ _ h1 h2 with ⟨h7, h8⟩ | ⟨B, h7, h8⟩
    · rw [h7.sub_eq, h8]; rfl
    · have h9 := ht.red hT hC (.rule h1 h2 h3 h4 h5 h6) hΓ
      rw [h9.simple_base hT hC hκ.obj hΓ (Strict.obj_apps hT hC h7 h8 ht hΓ)]
      exact hκ.obj _ _ h7 h8

/-- convertible types have the same simple type -/
theorem Strict.simple_conv (hκ : Fits T κ) {Γ : List Tm} {A B X Y : Tm} (hA : Strict T Γ A X) (hB : Strict T Γ B Y) (hΓ : WfCtx T Γ)
    (hc : T.Conv A B) : A.simple κ = B.simple κ := by
  cases hC with
  | plain he cr =>
    obtain ⟨v, h1, h2⟩ := cr _ _ (hc.plain he)
    exact (hA.simple_red hT (.plain he cr) hκ h1 hΓ).trans (hB.simple_red hT (.plain he cr) hκ h2 hΓ).symm
  | eta he hd hty =>
    have hC : T.Church := .eta he hd hty
    have hdef : ∀ s d, Defines T.rules s d → d.BaseArgs κ ∧ κ s = d.simple κ := by
      intro s d h
      obtain ⟨D, hD⟩ := hty s d h
      have h1 := Theory.WellFormed.body hC hT hd h hD .nil
      refine ⟨h1.baseArgs hT hC hκ.obj .nil, ?_⟩
      obtain ⟨rs, r, k1, k2, -, rfl⟩ := h
      rcases hκ.rule _ _ _ k1 k2 with ⟨-, k3⟩ | ⟨B, k3, k4⟩
      · exact k3.symm
      · rw [hD] at k3
        cases k3
        rw [h1.simple_base hT hC hκ.obj .nil k4]
        exact hκ.obj _ _ hD k4
    have hc' : Conv T.rules true A B := by rw [← he]; exact hc
    obtain ⟨v, h1, h2⟩ := Definitional.confluent hd hc'
    exact (h1.base hdef (hA.baseArgs hT hC hκ.obj hΓ)).2.trans (h2.base hdef (hB.baseArgs hT hC hκ.obj hΓ)).2.symm

/-- Typed terms are reducible, if the constants are. -/
theorem Strict.reducible (hκ : Fits T κ) {R : RuleMap} {eta : Bool} (hR : ClosedRules R)
    (hc : ∀ c A, T.ty c = some A → Rc R eta (A.simple κ) (.const c)) {Γ : List Tm} {t A : Tm} (h : Strict T Γ t A) (hΓ : WfCtx T Γ)
    {σ : Nat → Tm} (hσ : ∀ n (B : Tm), Γ[n]? = some B → Rc R eta (B.simple κ) (σ n)) : Rc R eta (A.simple κ) (t.sub σ) := by
  have up : ∀ {Γ : List Tm} {σ : Nat → Tm} {A u : Tm}, (∀ n (B : Tm), Γ[n]? = some B → Rc R eta (B.simple κ) (σ n)) → Rc R eta (A.simple κ) u →
      ∀ n (B : Tm), (A :: Γ)[n]? = some B → Rc R eta (B.simple κ) (match n with | 0 => u | n + 1 => σ n) := by
    intro Γ σ A u h hu n B hn
    cases n with
    | zero => simp at hn; exact hn ▸ hu
    | succ n => exact h n B (by simpa using hn)
  have inst : ∀ (t : Tm) (σ : Nat → Tm) (u : Tm), (t.sub (Tm.up σ)).inst u = t.sub (fun n => match n with | 0 => u | n + 1 => σ n) := by
    intro t σ u
    rw [Tm.inst, Tm.sub_sub]
    congr 1
    funext n
    cases n with
    | zero => rfl
    | succ n => exact Tm.ren_inst _ _
  induction h generalizing σ with
  | type => exact SN.type
  | const h => exact hc _ _ h
  | var h => rw [Tm.shift, Tm.simple_ren]; exact hσ _ _ h
  | @app Γ f a A B h1 h2 ih1 ih2 =>
    obtain ⟨k1, -⟩ := h1.fun_typed hT.types hΓ
    rw [Tm.simple_inst B (h2.simple_base hT hC hκ.obj hΓ k1)]
    exact ih1 hΓ hσ _ (ih2 hΓ hσ)
  | @lam Γ A b B s h1 h2 h3 hs ih1 ih2 ih3 =>
    refine Rc.lam hR (ih1 hΓ hσ) fun u hu => ?_
    rw [inst]
    exact ih2 (hΓ.cons h1) (up hσ hu)
  | @dlam Γ A b B s h1 h2 h3 hs ih1 ih2 ih3 =>
    refine Rc.dlam hR fun u hu => ?_
    rw [inst]
    exact ih2 (hΓ.cons h1) (up hσ hu)
  | @pi Γ A B s h1 h2 hs ih1 ih2 =>
    have hB : SN R eta (B.sub (Tm.up σ)) := by
      refine SN.of_inst hR (u := .var 0) ?_
      rw [inst]
      exact (ih2 (hΓ.cons h1) (up hσ (Rc.var _ 0))).sn
    have : s.simple κ = .base := by cases hs <;> rfl
    rw [this]
    exact SN.pi (ih1 hΓ hσ) hB
  | @conv Γ t A B s h1 hcv h2 hs ih1 ih2 =>
    rcases h1.typed hT.types hΓ with rfl | ⟨s', hs', h3⟩
    · exact absurd hcv.symm (h2.sort_not_kind hT hC hΓ)
    · rw [← h3.simple_conv hT hC hκ h2 hΓ hcv]
      exact ih1 hΓ hσ

/-- Typed terms are strongly normalising, if the constants are reducible. -/
theorem Theory.normalising (hκ : Fits T κ) (hR : ClosedRules T.rules)
    (hc : ∀ c A, T.ty c = some A → Rc T.rules T.eta (A.simple κ) (.const c)) : T.Normalising := by
  intro Γ t A hΓ h
  have := (h.reducible hT hC hκ hR hc hΓ (σ := .var) fun n B _ => Rc.var _ n).sn
  rwa [Tm.sub_var] at this

end

end Kontroli
