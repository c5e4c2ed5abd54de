import Verif.Proofs.Preserve
import Verif.Proofs.NoErr

/-!
# What inference and checking refuse is not typable
-/

namespace Kontroli

/-! ## The written form of kinds -/

/-- the term is written as products that end in `Type` -/
inductive STerm.Skel : STerm → Prop
  | type : STerm.Skel .type
  | scomb {id : Str} {a b : STerm} : STerm.Skel b → STerm.Skel (.scomb (.prod id a b))
  | lcomb {id : Str} {a b : LTerm} : LTerm.KindForm b → STerm.Skel (.lcomb (.prod id a b))

theorem STerm.Skel.ofL : ∀ {t : LTerm}, t.KindForm → STerm.Skel (STerm.ofL t)
  | .type, _ => .type
  | .comb (.prod _ _ _), h => .lcomb h
  | .comb (.appl _ _), h => h.elim
  | .comb (.abst _ _ _), h => h.elim
  | .const _, h => h.elim
  | .var _, h => h.elim

theorem STerm.Skel.eq_type {t : STerm} (h : t.Skel) (ht : t.den = .type) : t = .type := by
  cases h with
  | type => rfl
  | scomb => simp [STerm.den, SComb.den] at ht
  | lcomb => simp [STerm.den, LComb.den] at ht

theorem STerm.Skel.getProd {t : STerm} (h : t.Skel) {id : Str} {a b : STerm} (hp : t.getProd = some (id, a, b)) : b.Skel := by
  cases h with
  | type => cases hp
  | scomb h => cases hp; exact h
  | lcomb h => cases hp; exact .ofL h

/-- what the computation returns -/
def Ret {α : Type} (m : M α) (P : α → Prop) : Prop := ∀ s a s', m s = .ok (a, s') → P a

section
variable {α β : Type}

theorem Ret.pure {a : α} {P : α → Prop} (h : P a) : Ret (M.pure a) P := by
  intro s a' s' e
  cases e
  exact h

theorem Ret.bind {m : M α} {f : α → M β} {P : α → Prop} {Q : β → Prop} (h : Ret m P) (h' : ∀ a, P a → Ret (f a) Q) :
    Ret (M.bind m f) Q := by
  intro s b s' e
  unfold M.bind at e
  split at e
  · next a s1 e1 => exact h' a (h _ _ _ e1) _ _ _ e
  · cases e
  · cases e
  · cases e

theorem Ret.any {m : M α} : Ret m (fun _ => True) := fun _ _ _ _ => trivial

end

theorem applySubstL_skel (S : Nat → Nat → M STerm) : ∀ (t : LTerm) (k : Nat), t.KindForm →
    Ret (applySubstL S t k) (fun r => r.1.Skel)
  | .type, _, _ => Ret.pure .type
  | .comb (.prod id a b), k, h => by
    unfold applySubstL applySubstLC
    refine Ret.bind (P := fun r => (STerm.scomb r.1).Skel) ?_ fun r hr => Ret.pure hr
    refine Ret.bind Ret.any fun a' _ => Ret.bind (applySubstL_skel S b (k + 1) h) fun b' hb => Ret.pure (.scomb hb)
  | .comb (.appl _ _), _, h => h.elim
  | .comb (.abst _ _ _), _, h => h.elim
  | .const _, _, h => h.elim
  | .var _, _, h => h.elim

theorem applySubst_skel (S : Nat → Nat → M STerm) {t : STerm} (h : t.Skel) (k : Nat) :
    Ret (applySubst S t k) (fun r => r.1.Skel) := by
  induction h generalizing k with
  | type => exact Ret.pure .type
  | @lcomb id a b h =>
    have := applySubstL_skel S (.comb (.prod id a b)) k h
    unfold applySubstL at this
    unfold applySubst
    exact this
  | scomb h ih =>
    unfold applySubst applySubstC
    refine Ret.bind Ret.any fun u _ => Ret.bind (P := fun r => (STerm.scomb r.1).Skel) ?_ fun r hr => ?_
    · exact Ret.bind Ret.any fun a' _ => Ret.bind (ih (k + 1)) fun b' hb => Ret.pure (.scomb hb)
    · split
      · exact Ret.pure hr
      · split
        · exact Ret.pure hr
        · exact Ret.pure (.scomb h)

theorem subst_skel {t : STerm} (h : t.Skel) (u : STerm) : Ret (subst t u) STerm.Skel :=
  Ret.bind (applySubst_skel _ h 0) fun _ hr => Ret.pure hr

/-- evaluation of kinds does nothing -/
theorem whnfTerm_skel (gc : GCtx) (n : Nat) {t : STerm} (h : t.Skel) : Ret (whnfTerm (ops gc n) t) (fun w => w = t) := by
  cases n with
  | zero => intro s a s' e; cases e
  | succ n =>
    have hw : whnfBody gc (ops gc n) { ctx := [], term := t, stack := [] } = M.pure { ctx := [], term := t, stack := [] } := by
      cases h <;> rfl
    intro s a s' e
    unfold whnfTerm at e
    simp only [ops, hw] at e
    cases e
    rfl

/-! ## Triples with errors -/

section
variable {gc : GCtx} {G : Ghost} {q : ℚ} {α β : Type}

/-- as `Tri`, and errors satisfy `E` -/
def TriX (gc : GCtx) (G : Ghost) (q : ℚ) {α : Type} (m : M α) (Φ : α → Prop) (E : KError → Prop) : Prop :=
  TriG gc G q m Φ ∧ ∀ s, World gc.rules gc.eta G q s → ∀ e, m s = .err e → E e

theorem TriX.pure {a : α} {Φ : α → Prop} {E : KError → Prop} (h : Φ a) : TriX gc G q (M.pure a) Φ E :=
  ⟨Tri.pure h, fun _ _ _ e => by cases e⟩

theorem TriX.throw {e : KError} {Φ : α → Prop} {E : KError → Prop} (h : E e) : TriX gc G q (M.throw e : M α) Φ E :=
  ⟨Tri.throw, fun _ _ _ e => by cases e; exact h⟩

theorem TriX.okOr {e : KError} {o : Option α} {Φ : α → Prop} {E : KError → Prop} (h : ∀ a, o = some a → Φ a)
    (h' : o = none → E e) : TriX gc G q (M.okOr e o) Φ E := by
  cases o with
  | none => exact TriX.throw (h' rfl)
  | some a => exact TriX.pure (h a rfl)

theorem TriX.of {m : M α} {Φ : α → Prop} {E : KError → Prop} (h : TriG gc G q m Φ) (hn : NoErr m) : TriX gc G q m Φ E :=
  ⟨h, fun s _ e he => absurd he (hn s e)⟩

theorem TriX.ret {m : M α} {Φ P : α → Prop} {E : KError → Prop} (h : TriX gc G q m Φ E) (hr : Ret m P) :
    TriX gc G q m (fun a => Φ a ∧ P a) E :=
  ⟨fun s hW => wp_mono' (h.1 s hW) fun a s' e ⟨G', h1, h2, h3, h4⟩ => ⟨G', h1, h2, h3, h4, hr s a s' e⟩, h.2⟩

theorem TriX.mono {m : M α} {Φ Φ' : α → Prop} {E E' : KError → Prop} (h : TriX gc G q m Φ E) (hΦ : ∀ a, Φ a → Φ' a)
    (hE : ∀ e, E e → E' e) : TriX gc G q m Φ' E' :=
  ⟨h.1.mono fun _ a _ ha => hΦ a ha, fun s hW e he => hE e (h.2 s hW e he)⟩

theorem TriX.bind {m : M α} {f : α → M β} {Φ : α → Prop} {Ψ : β → Prop} {E : KError → Prop} (hm : TriX gc G q m Φ E)
    (hf : ∀ G' a, Φ a → TriX gc G' q (f a) Ψ E) : TriX gc G q (M.bind m f) Ψ E := by
  refine ⟨Tri.bind hm.1 fun G' a _ h => (hf G' a h).1, ?_⟩
  intro s hW e he
  have hp := hm.1 s hW
  unfold wp at hp
  unfold M.bind at he
  split at he
  · next a s' h1 =>
    rw [h1] at hp
    obtain ⟨G', _, hW', _, hΦ⟩ := hp
    exact (hf G' a hΦ).2 s' hW' e he
  · next e' h1 =>
    cases he
    exact hm.2 s hW _ h1
  · cases he
  · cases he

theorem TriX.ite {c : Prop} [Decidable c] {m m' : M α} {Φ : α → Prop} {E : KError → Prop}
    (h : c → TriX gc G q m Φ E) (h' : ¬ c → TriX gc G q m' Φ E) : TriX gc G q (if c then m else m') Φ E := by
  split
  · exact h ‹_›
  · exact h' ‹_›

theorem TriX.timeout {Φ : α → Prop} {E : KError → Prop} : TriX gc G q (M.timeout : M α) Φ E :=
  .of Tri.timeout .timeout

end

/-! ## Refusals -/

/-- no type in any convertible context -/
def Untypable (T : Theory) (Γ : List Tm) (t : Tm) : Prop := ∀ Γ' A, CtxConv T Γ Γ' → ¬ WellTyped T Γ' t A

/-- not of this type -/
def Uncheckable (T : Theory) (Γ : List Tm) (t A : Tm) : Prop :=
  ∀ Γ' A', CtxConv T Γ Γ' → T.Conv A A' → ¬ WellTyped T Γ' t A'

/-- the context is small -/
def LCtx.Small (lc : LCtx) : Prop := ∀ e ∈ lc, e.den.Small

theorem LCtx.Small.den {lc : LCtx} (h : LCtx.Small lc) : ∀ B ∈ LCtx.den lc, B.Small := by
  intro B hB
  obtain ⟨e, he, rfl⟩ := List.mem_map.1 hB
  exact h e he

theorem LCtx.Small.nk {lc : LCtx} (h : LCtx.Small lc) : LCtx.NK lc := fun e he => (h e he).noKind

theorem LCtx.Small.cons {lc : LCtx} {A : STerm} (hA : A.den.Small) (h : LCtx.Small lc) : LCtx.Small (A :: lc) := by
  intro e he
  rcases List.mem_cons.1 he with rfl | he
  · exact hA
  · exact h e he

theorem WellTyped.apps_head {T : Theory} {Γ : List Tm} {f A : Tm} {as : List Tm} (h : WellTyped T Γ (f.apps as) A) :
    ∃ B, WellTyped T Γ f B := by
  induction as generalizing f A with
  | nil => exact ⟨A, h⟩
  | cons a as ih =>
    obtain ⟨B, hB⟩ := ih h
    obtain ⟨A, B, h, -⟩ := hB.gen
    exact ⟨_, h⟩

section
variable {R : RuleMap}

/-- a weak-head normal form convertible with a product is a product -/
theorem Confluent.whnf_pi (cr : Confluent R) {t : STerm} (hf : HForm t) (hw : Whnf R false t.den) {A B : Tm}
    (hc : Conv R false t.den (.pi A B)) : ∃ p, t.getProd = some p := by
  have hp : Stable R (Tm.apps (.pi A B) []) := Whnf.stable cr (.pi A B [])
  cases hf with
  | abs h =>
    obtain ⟨b, hb⟩ := h.abs
    exact absurd hc (cr.abs_atom (ts := []) hb (.pi A B) hp)
  | app h hne =>
    rename_i f args
    have hden : STerm.den (.scomb (.appl f args)) = f.den.apps (args.map STerm.den) := by
      simp [STerm.den, SComb.den, STerm.denList_eq]
    rw [hden] at hc hw
    obtain ⟨-, -, vs, h1, h2⟩ := cr.atoms (ts' := []) h.atom (.pi A B) (Whnf.stable cr hw) hp hc
    cases h2
    have := h1.length_eq
    simp at this
    exact absurd this hne
  | atom h =>
    obtain ⟨hs, -⟩ := cr.atoms (ts := []) (ts' := []) h.atom (.pi A B) (Whnf.stable cr hw) hp hc
    cases t with
    | lcomb c =>
      cases c with
      | prod id a b => exact ⟨_, rfl⟩
      | appl => exact h.elim
      | abst => exact h.elim
    | scomb c =>
      cases c with
      | prod id a b => exact ⟨_, rfl⟩
      | appl => exact h.elim
      | abst => exact h.elim
    | _ => cases hs

end

section
variable {gc : GCtx}

/-- post-condition of inference -/
def InfX (gc : GCtx) (lc : LCtx) (t : Tm) (r : STerm × LCtx) : Prop :=
  r.2 = lc ∧ Inf gc.theory (LCtx.den lc) t r.1.den ∧ Kindish r.1 ∧ (r.1.den.IsKind → r.1.Skel)

/-- errors -/
def ErrX (P : Prop) (e : KError) : Prop := e ≠ .domainFreeAbstraction → P

/-- the local context is small, and with eta it is well-formed -/
def LCtx.Fit (gc : GCtx) (lc : LCtx) : Prop := LCtx.Small lc ∧ (gc.eta = true → WfCtx gc.theory (LCtx.den lc))

/-- the type is small or a kind, and with eta it has a sort -/
def TyFit (gc : GCtx) (lc : LCtx) (A : Tm) : Prop :=
  (A.Small ∨ A.IsKind) ∧ (gc.eta = true → ∃ s, IsSort s ∧ Strict gc.theory (LCtx.den lc) A s)

/-- Refusals of inference and checking are justified. -/
structure IOpsRef (gc : GCtx) (ic : IOps) : Prop where
  inf : ∀ G q lc t, LCtx.Fit gc lc →
    TriX gc G q (ic.inf lc t) (InfX gc lc t.den) (ErrX (Untypable gc.theory (LCtx.den lc) t.den))
  chk : ∀ G q lc t ty, LCtx.Fit gc lc → TyFit gc lc ty.den →
    TriX gc G q (ic.chk lc t ty)
      (fun r => r.2 = lc ∧ (r.1 = true → Chk gc.theory (LCtx.den lc) t.den ty.den) ∧
        (r.1 = false → Uncheckable gc.theory (LCtx.den lc) t.den ty.den))
      (ErrX (Uncheckable gc.theory (LCtx.den lc) t.den ty.den))

theorem ErrX.mono {P Q : Prop} (h : P → Q) (e : KError) (he : ErrX P e) : ErrX Q e := fun hn => h (he hn)

theorem Inf.kindish_level {T : Theory} (hL : T.Levelled) (cr : T.Church) {Γ : List Tm}
    (hΓ : ∀ B ∈ Γ, B.Small) {t A : Tm} (h : Inf T Γ t A) : (A.Small ∨ A.IsKind) ∨ A = .kind :=
  (h.level hL cr hΓ).imp And.right And.right

theorem Apart.notConvT {T : Theory} (cr : T.Church) {t u : Tm} (h : Apart T.rules T.eta t u) : ¬ T.Conv t u := by
  unfold Theory.Conv
  cases cr with
  | plain he cr => rw [he] at h ⊢; exact Apart.notConv cr h
  | eta he hd _ => rw [he] at h ⊢; exact Apart.notConvE hd h

/-- a typable weak-head normal form convertible with a product is a product -/
theorem GCtx.Apt.whnf_pi (hC : gc.Apt) {t : STerm} (hf : HForm t) (hw : Whnf gc.rules gc.eta t.den) {Γ : List Tm}
    (ht : gc.eta = true → ∃ s, IsSort s ∧ Strict gc.theory Γ t.den s) {A B : Tm} (hc : gc.theory.Conv t.den (.pi A B)) :
    ∃ p, t.getProd = some p := by
  cases hC.church with
  | plain he cr =>
    have he : gc.eta = false := he
    rw [he] at hw
    exact cr.whnf_pi hf hw (hc.plain he)
  | eta he hd hty =>
    have he : gc.eta = true := he
    obtain ⟨s, hs, hs'⟩ := ht he
    rw [he] at hw
    have hc : Conv gc.rules true t.den (.pi A B) := by
      unfold Theory.Conv at hc
      rwa [show gc.theory.eta = true from he] at hc
    have hp : Tm.Undef gc.rules (.pi A B) := by rintro s ⟨⟩
    cases hf with
    | abs h =>
      exfalso
      obtain ⟨b, hb⟩ := h.abs
      have cr : gc.theory.Church := .eta he hd hty
      have key : ∀ {A B : Tm}, ¬ gc.theory.Conv (.pi A B) s := by
        intro A B h
        cases hs with
        | type => exact cr.type_pi h.symm
        | kind => exact cr.kind_pi h.symm
      generalize t.den = d at hb hs'
      cases hb with
      | lam A b =>
        obtain ⟨B, s', _, _, _, _, h5⟩ := hs'.gen
        exact key h5.1
      | dlam b =>
        obtain ⟨A, B, s', _, _, _, _, h5⟩ := hs'.gen
        exact key h5.1
    | @app f args h hne =>
      have hden : STerm.den (.scomb (.appl f args)) = f.den.apps (args.map STerm.den) := by
        simp [STerm.den, SComb.den, STerm.denList_eq]
      rw [hden] at hc hw
      obtain ⟨-, -, h2⟩ := Definitional.atoms hd (ts' := []) h.atom (.pi A B) (Whnf.neutral hd h.atom hw) hp hc
      have := h2.length_eq
      simp at this
      exact absurd this hne
    | atom h =>
      obtain ⟨hs, -⟩ := Definitional.atoms hd (ts := []) (ts' := []) h.atom (.pi A B) (Whnf.neutral hd (ts := []) h.atom hw) hp hc
      cases t with
      | lcomb c =>
        cases c with
        | prod id a b => exact ⟨_, rfl⟩
        | appl => exact h.elim
        | abst => exact h.elim
      | scomb c =>
        cases c with
        | prod id a b => exact ⟨_, rfl⟩
        | appl => exact h.elim
        | abst => exact h.elim
      | _ => cases hs

theorem LCtx.Fit.cons {lc : LCtx} {A : STerm} (h : LCtx.Fit gc lc) (hA : A.den.Small)
    (hA' : gc.eta = true → Strict gc.theory (LCtx.den lc) A.den .type) : LCtx.Fit gc (A :: lc) :=
  ⟨h.1.cons hA, fun he => (h.2 he).cons (hA' he)⟩

variable (hC : gc.Apt) (hL : gc.Levelled)
include hC hL

/-- an inferred type that is convertible with `Type` is `Type` -/
theorem InfX.is_type {lc lc' : LCtx} (hlc : LCtx.Fit gc lc) {t : Tm} {A : STerm} (h : InfX gc lc t (A, lc'))
    (hc : gc.theory.Conv A.den .type) : A = .type := by
  obtain ⟨-, h1, h2, h3⟩ := h
  rcases h1.kindish_level hL.theory hC.church hlc.1.den with hl | hl
  · have := hC.church.eq_type hL.rules hl hc
    exact (h3 (by rw [this]; trivial)).eq_type this
  · simp only at hl
    rw [hl] at hc
    exact absurd hc.symm (hC.church.not_kind hL.rules (.inr trivial))

/-- an inferred type that is convertible with `Kind` is `Kind` -/
theorem InfX.is_kind {lc lc' : LCtx} (hlc : LCtx.Fit gc lc) {t : Tm} {A : STerm} (h : InfX gc lc t (A, lc'))
    (hc : gc.theory.Conv A.den .kind) : A = .kind := by
  obtain ⟨-, h1, h2, h3⟩ := h
  rcases h1.kindish_level hL.theory hC.church hlc.1.den with hl | hl
  · exact absurd hc (hC.church.not_kind hL.rules hl)
  · rcases h2 with h2 | h2
    · exact h2
    · simp only at hl h2
      rw [hl] at h2
      exact h2.elim

theorem TriX.bindOfType {G : Ghost} {q : ℚ} {ic : IOps} (hic : IOpsRef gc ic) {lc : LCtx} (hlc : LCtx.Fit gc lc) {arg t : STerm}
    {P : Prop} (h1 : Untypable gc.theory (LCtx.den lc) arg.den → P)
    (h2 : (∀ Γ', CtxConv gc.theory (LCtx.den lc) Γ' → ¬ WellTyped gc.theory Γ' arg.den .type) → P)
    (h3 : Untypable gc.theory (arg.den :: LCtx.den lc) t.den → P) :
    TriX gc G q (bindOfType ic lc arg fun lc => ic.inf lc t)
      (fun r => r.2 = lc ∧ Inf gc.theory (LCtx.den lc) arg.den .type ∧ LCtx.Fit gc (arg :: lc) ∧
        InfX gc (arg :: lc) t.den (r.1, arg :: lc)) (ErrX P) := by
  unfold Kontroli.bindOfType
  refine TriX.bind ((hic.inf G q lc arg hlc).mono (fun _ h => h) (ErrX.mono h1)) ?_
  rintro G1 ⟨ty, lc1⟩ hX
  have e : lc1 = lc := hX.1
  subst e
  have hno : ty ≠ .type → ErrX P .bindNoType := by
    intro hne _
    refine h2 fun Γ' hΓ hw => hne ?_
    exact hX.is_type hC hL hlc (hX.2.1.unique hC.church hΓ hw)
  cases ty with
  | type =>
    have hI : Inf gc.theory (LCtx.den lc1) arg.den .type := hX.2.1
    have hs : LCtx.Fit gc (arg :: lc1) := hlc.cons (hI.level hL.theory hC.church hlc.1.den).type fun he =>
      hI.strict (hC.wellFormed he) hC.church (hlc.2 he)
    unfold Kontroli.bindL
    refine TriX.bind ((hic.inf G1 q (arg :: lc1) t hs).mono (fun _ h => h) (ErrX.mono h3)) ?_
    rintro G2 ⟨ty, lc2⟩ h
    have e : lc2 = arg :: lc1 := h.1
    subst e
    exact TriX.pure ⟨rfl, hI, hs, h⟩
  | _ => exact TriX.throw (hno (by intro h; cases h))

theorem TriX.inferArgs {q : ℚ} {ic : IOps} (hic : IOpsRef gc ic) (n : Nat) (args : List STerm)
    (G : Ghost) (f : Tm) (ty : STerm) (lc : LCtx) (hlc : LCtx.Fit gc lc) (h : InfX gc lc f (ty, lc)) :
    TriX gc G q (inferArgs (ops gc n) ic args ty lc) (InfX gc lc (f.apps (args.map STerm.den)))
      (ErrX (Untypable gc.theory (LCtx.den lc) (f.apps (args.map STerm.den)))) := by
  induction args generalizing G f ty with
  | nil => exact TriX.pure h
  | cons arg args ih =>
    unfold Kontroli.inferArgs
    have hI : Inf gc.theory (LCtx.den lc) f ty.den := h.2.1
    have hsk : ty.den.IsKind → ty.Skel := h.2.2.2
    have hwt : ∀ {Γ' A}, CtxConv gc.theory (LCtx.den lc) Γ' →
        WellTyped gc.theory Γ' (f.apps ((arg :: args).map STerm.den)) A →
        ∃ A B, gc.theory.Conv ty.den (.pi A B) ∧ WellTyped gc.theory Γ' arg.den A := by
      intro Γ' A hΓ hw
      obtain ⟨_, hw⟩ := WellTyped.apps_head (f := .app f arg.den) hw
      obtain ⟨A, B, h1, h2, -⟩ := hw.gen
      exact ⟨A, B, hI.unique hC.church hΓ h1, h2⟩
    have hwh : TriX gc G q (whnfTerm (ops gc n) ty)
        (fun w => (Rev gc.rules gc.eta w.den ty.den ∧ Whnf gc.rules gc.eta w.den ∧ HForm w) ∧ (ty.den.IsKind → w = ty))
        (ErrX (Untypable gc.theory (LCtx.den lc) (f.apps ((arg :: args).map STerm.den)))) := by
      refine TriX.ret (TriX.of (Tri.whnfTerm (opsOk gc n) ty) (NoErr.whnfTerm (opsNE gc n) ty)) ?_
      intro s w s' e hk
      exact whnfTerm_skel gc n (hsk hk) s w s' e
    refine TriX.bind hwh ?_
    rintro G1 w ⟨⟨hr, hw, hf⟩, hweq⟩
    have hcw : gc.theory.Conv ty.den w.den := Red.conv hr
    have hsort : ∀ {A B : Tm}, gc.theory.Conv w.den (.pi A B) → gc.eta = true → ∃ s, IsSort s ∧ Strict gc.theory (LCtx.den lc) w.den s := by
      intro A B hc he
      have hT := hC.wellFormed he
      rcases (hI.strict hT hC.church (hlc.2 he)).typed hT.types (hlc.2 he) with h | ⟨s, hs, h⟩
      · exact absurd (h ▸ hcw.trans hc) hC.church.kind_pi
      · exact ⟨s, hs, Strict.red hT hC.church (hC.church.toA hr) h (hlc.2 he)⟩
    refine TriX.bind (Φ := fun p => w.getProd = some p) (TriX.okOr (fun _ h => h) ?_) ?_
    · intro hn _ Γ' A hΓ hwt'
      obtain ⟨A, B, hc, -⟩ := hwt hΓ hwt'
      obtain ⟨p, hp⟩ := hC.whnf_pi hf hw (hsort (hcw.symm.trans hc)) (hcw.symm.trans hc)
      rw [hn] at hp
      cases hp
    · rintro G2 ⟨id, A, B⟩ hp
      have hden : w.den = .pi A.den B.den := STerm.den_getProd hp
      have hred : Red gc.rules gc.eta ty.den (.pi A.den B.den) := by rw [← hden]; exact hr
      have hra : RedA gc.rules ty.den (.pi A.den B.den) := hC.church.toA hred
      have hlev := hI.kindish_level hL.theory hC.church hlc.1.den
      have hA : A.den.Small := by
        rcases hlev with (h | h) | h
        · exact (hra.small hL.rules h).1
        · exact (hra.isKind hL.rules h).1
        · cases hra.of_kind h
      have hAt : gc.eta = true → Strict gc.theory (LCtx.den lc) A.den .type := by
        intro he
        obtain ⟨s, hs, h⟩ := hsort (A := A.den) (B := B.den) (by rw [hden]; exact .refl _) he
        rw [hden] at h
        obtain ⟨s', _, h1, _⟩ := h.gen
        exact h1
      have hno : Uncheckable gc.theory (LCtx.den lc) arg.den A.den →
          Untypable gc.theory (LCtx.den lc) (f.apps ((arg :: args).map STerm.den)) := by
        intro hu Γ' C hΓ hw'
        obtain ⟨A', B', hc, h2⟩ := hwt hΓ hw'
        refine hu Γ' A' hΓ ?_ h2
        have : gc.theory.Conv (.pi A.den B.den) (.pi A' B') := Theory.Conv.trans (Theory.Conv.symm (T := gc.theory) hred.conv) hc
        exact (hC.church.pi this).1
      refine TriX.bind ((hic.chk G2 q lc arg A hlc ⟨.inl hA, fun he => ⟨_, .type, hAt he⟩⟩).mono (fun _ h => h) (ErrX.mono hno)) ?_
      rintro G3 ⟨b, lc'⟩ ⟨h1, h2, h3⟩
      simp only at h1 h2 h3
      subst h1
      refine TriX.ite (fun hb => ?_) fun hb => TriX.throw fun _ => hno (h3 (by simpa using hb))
      have hCk := h2 hb
      refine TriX.bind (TriX.of (Φ := fun ty' => ty'.den = B.den.inst arg.den ∧ (ty.den.IsKind → ty'.Skel)) ?_
        (NoErr.subst B arg)) ?_
      · refine (TriX.ret (E := fun _ => True) (TriX.of (Tri.subst B arg) (NoErr.subst B arg)) ?_).1
        intro s ty' s' e hk
        have := hweq hk
        subst this
        exact subst_skel ((hsk hk).getProd hp) arg s ty' s' e
      · rintro G4 ty' ⟨hty, hty'⟩
        refine ih G4 (.app f arg.den) ty' ⟨rfl, ?_, ?_, ?_⟩
        · rw [hty]
          exact .app hI hred hCk
        · have ha := hCk.level hL.theory hC.church hlc.1.den (.inl hA)
          refine .inr ?_
          rw [hty]
          have hpi : (Tm.pi A.den B.den).NoKind := by
            rcases h.2.2.1 with hk | hk
            · simp only at hk
              subst hk
              exact absurd (hred.of_kind rfl) (by simp)
            · exact hred.noKind hk
          exact hpi.2.inst ha.noKind
        · intro hk
          apply hty'
          simp only [hty] at hk
          rcases hlev with (h' | h') | h'
          · have := hra.small hL.rules h'
            exact absurd (this.2.inst (hCk.level hL.theory hC.church hlc.1.den (.inl hA))) hk.not_small
          · exact h'
          · cases hra.of_kind h'

theorem TriX.inferComb {G : Ghost} {q : ℚ} {ic : IOps} (hic : IOpsRef gc ic) (n : Nat) (lc : LCtx) (hlc : LCtx.Fit gc lc)
    (c : SComb) :
    TriX gc G q (inferComb (ops gc n) ic lc c) (InfX gc lc (SComb.den c))
      (ErrX (Untypable gc.theory (LCtx.den lc) (SComb.den c))) := by
  cases c with
  | appl f args =>
    unfold Kontroli.inferComb
    have hden : SComb.den (.appl f args) = f.den.apps (args.map STerm.den) := by simp [SComb.den, STerm.denList_eq]
    rw [hden]
    refine TriX.bind ((hic.inf G q lc f hlc).mono (fun _ h => h) (ErrX.mono ?_)) ?_
    · intro hu Γ' A hΓ hw
      obtain ⟨B, hB⟩ := hw.apps_head
      exact hu Γ' B hΓ hB
    · rintro G1 ⟨ty, lc1⟩ h
      have e : lc1 = lc := h.1
      subst e
      exact TriX.inferArgs hC hL hic n args G1 f.den ty lc1 hlc h
  | prod id A B =>
    unfold Kontroli.inferComb
    refine TriX.bind (TriX.bindOfType hC hL hic hlc ?_ ?_ ?_) ?_
    · intro hu Γ' C hΓ hw
      obtain ⟨s, h1, -⟩ := hw.gen
      exact hu Γ' _ hΓ h1
    · intro hu Γ' C hΓ hw
      obtain ⟨s, h1, -⟩ := hw.gen
      exact hu Γ' hΓ h1
    · intro hu Γ' C hΓ hw
      obtain ⟨s, h1, h2, -⟩ := hw.gen
      exact hu _ _ (.cons (.refl _) hΓ) h2
    · rintro G1 ⟨ty, lc1⟩ ⟨e, hA, hs, hX⟩
      simp only at e
      subst e
      split
      · next hk =>
        simp only at hk
        subst hk
        exact TriX.pure ⟨rfl, .pi hA hX.2.1 .kind, .inl rfl, fun h => h.elim⟩
      · next hk =>
        simp only at hk
        subst hk
        exact TriX.pure ⟨rfl, .pi hA hX.2.1 .type, .inr trivial, fun _ => .type⟩
      · next hk ht =>
        refine TriX.throw fun _ Γ' C hΓ hw => ?_
        obtain ⟨s, h1, h2, h3, h4⟩ := hw.gen
        have hc := hX.2.1.unique hC.church (.cons (.refl _) hΓ) h2
        cases h3 with
        | type => exact ht (hX.is_type hC hL hs hc)
        | kind => exact hk (hX.is_kind hC hL hs hc)
  | abst id A b =>
    cases A with
    | none => exact TriX.throw fun h => absurd rfl h
    | some A =>
      unfold Kontroli.inferComb
      refine TriX.bind (TriX.bindOfType hC hL hic hlc ?_ ?_ ?_) ?_
      · intro hu Γ' C hΓ hw
        obtain ⟨s, h1, -⟩ := hw.gen
        exact hu Γ' _ hΓ h1
      · intro hu Γ' C hΓ hw
        obtain ⟨s, h1, -⟩ := hw.gen
        exact hu Γ' hΓ h1
      · intro hu Γ' C hΓ hw
        obtain ⟨s, h1, h2, -⟩ := hw.gen
        exact hu _ _ (.cons (.refl _) hΓ) h2
      · rintro G1 ⟨ty, lc1⟩ ⟨e, hA, hs, hX⟩
        simp only at e
        subst e
        split
        · next hk =>
          simp only at hk
          subst hk
          refine TriX.throw fun _ Γ' C hΓ hw => ?_
          obtain ⟨B, h1, h2, h3, h4⟩ := hw.gen
          exact h3 (hX.2.1.unique hC.church (.cons (.refl _) hΓ) h2).symm
        · next hk =>
          simp only at hk
          have hB : ty.den.NoKind := hX.2.2.1.resolve_left hk
          have hI : Inf gc.theory (LCtx.den lc1) A.den .type := hA
          refine TriX.pure ⟨rfl, .lam hA hX.2.1 ?_, .inr ⟨(hI.noKind gc.theory_noKind hlc.1.nk.den).1, hB⟩, ?_⟩
          · intro hden
            simp only at hden
            rw [hden] at hB
            exact hB
          · intro h
            exact .scomb (hX.2.2.2 h.2)

theorem TriX.inferBody {G : Ghost} {q : ℚ} {ic : IOps} (hic : IOpsRef gc ic) (n : Nat) (lc : LCtx) (hlc : LCtx.Fit gc lc)
    (t : STerm) :
    TriX gc G q (inferBody gc (ops gc n) ic lc t) (InfX gc lc t.den)
      (ErrX (Untypable gc.theory (LCtx.den lc) t.den)) := by
  cases t with
  | kind => exact TriX.throw fun _ Γ' A _ hw => hw.gen
  | type => exact TriX.pure ⟨rfl, .type, .inl rfl, fun h => h.elim⟩
  | const c =>
    unfold Kontroli.inferBody
    refine TriX.bind (Φ := fun p => gc.getType c = some p) (TriX.okOr (fun _ h => h) ?_) ?_
    · intro hn _ Γ' A _ hw
      obtain ⟨A, h1, -⟩ := hw.gen
      unfold GCtx.getType at hn
      simp [GCtx.theory, hn] at h1
    · intro G1 t h
      unfold GCtx.getType at h
      refine TriX.pure ⟨rfl, .const ?_, .inr ?_, ?_⟩
      · rw [STerm.den_ofL]
        simp [GCtx.theory, h]
      · rw [STerm.den_ofL]; exact LTerm.noKind t
      · intro hk
        rw [STerm.den_ofL] at hk
        rcases hL.types c t h with hs | hs
        · exact absurd hs hk.not_small
        · exact .ofL hs.2
  | var v =>
    unfold Kontroli.inferBody
    refine TriX.bind (Φ := fun t => ∃ A, (LCtx.den lc)[v]? = some A ∧ t.den = A.shift (v + 1)) ⟨Tri.lctxGet lc v, ?_⟩ ?_
    · intro s _ e he
      unfold Kontroli.lctxGet at he
      cases hn : lc[v]? with
      | none =>
        intro _ Γ' A hΓ hw
        obtain ⟨A, h1, -⟩ := hw.gen
        obtain ⟨A', h2⟩ := hΓ.get.2 _ h1
        simp [LCtx.den, hn] at h2
      | some t =>
        rw [hn] at he
        exact absurd he (NoErr.shift _ _ _ _)
    · rintro G1 t ⟨A, h1, h2⟩
      have hs := hlc.1.den A (List.mem_of_getElem? h1)
      refine TriX.pure ⟨rfl, ?_, .inr ?_, ?_⟩
      · simp only [h2]
        exact .var h1
      · simp only [h2]
        exact (hs.ren _).noKind
      · simp only [h2]
        exact fun hk => absurd (hs.ren _) hk.not_small
  | lcomb c =>
    unfold Kontroli.inferBody
    simpa [STerm.den] using TriX.inferComb (G := G) (q := q) hC hL hic n lc hlc (SComb.ofL c)
  | scomb c =>
    unfold Kontroli.inferBody
    exact TriX.inferComb hC hL hic n lc hlc c

theorem TriX.checkBody {G : Ghost} {q : ℚ} {ic : IOps} (hic : IOpsRef gc ic) (n : Nat) (lc : LCtx) (hlc : LCtx.Fit gc lc)
    (t ty : STerm) (hty : TyFit gc lc ty.den) :
    TriX gc G q (checkBody (ops gc n) ic lc t ty)
      (fun r => r.2 = lc ∧ (r.1 = true → Chk gc.theory (LCtx.den lc) t.den ty.den) ∧
        (r.1 = false → Uncheckable gc.theory (LCtx.den lc) t.den ty.den))
      (ErrX (Uncheckable gc.theory (LCtx.den lc) t.den ty.den)) := by
  unfold Kontroli.checkBody
  split
  · next id argTy b hab =>
    -- what the type of an abstraction looks like
    have hgen : ∀ {Γ' C}, CtxConv gc.theory (LCtx.den lc) Γ' → gc.theory.Conv ty.den C → WellTyped gc.theory Γ' t.den C →
        ∃ A B, gc.theory.Conv ty.den (.pi A B) ∧ WellTyped gc.theory (A :: Γ') b.den B ∧
          ∀ A', argTy = some A' → A'.den = A ∧ WellTyped gc.theory Γ' A .type := by
      intro Γ' C hΓ hc hw
      rw [STerm.den_getAbst hab] at hw
      cases argTy with
      | none =>
        obtain ⟨A, B, h1, h2⟩ := hw.gen
        exact ⟨A, B, hc.trans h2.symm, h1, by simp⟩
      | some A' =>
        obtain ⟨B, h1, h2, -, h4⟩ := hw.gen
        exact ⟨A'.den, B, hc.trans h4.symm, h2, by rintro _ ⟨⟩; exact ⟨rfl, h1⟩⟩
    refine TriX.bind (TriX.of (Tri.whnfTerm (opsOk gc n) ty) (NoErr.whnfTerm (opsNE gc n) ty)) ?_
    rintro G1 w ⟨hr, hw, hf⟩
    have hcw : gc.theory.Conv ty.den w.den := Red.conv hr
    have hsort : gc.eta = true → ∃ s, IsSort s ∧ Strict gc.theory (LCtx.den lc) w.den s := by
      intro he
      obtain ⟨s, hs, h⟩ := hty.2 he
      exact ⟨s, hs, Strict.red (hC.wellFormed he) hC.church (hC.church.toA hr) h (hlc.2 he)⟩
    refine TriX.bind (Φ := fun p => w.getProd = some p) (TriX.okOr (fun _ h => h) ?_) ?_
    · intro hn _ Γ' C hΓ hc hwt
      obtain ⟨A, B, hc, -⟩ := hgen hΓ hc hwt
      obtain ⟨p, hp⟩ := hC.whnf_pi hf hw hsort (hcw.symm.trans hc)
      rw [hn] at hp
      cases hp
    rintro G2 ⟨id, A, B⟩ hp
    have hden : w.den = .pi A.den B.den := STerm.den_getProd hp
    have hred : Red gc.rules gc.eta ty.den (.pi A.den B.den) := by rw [← hden]; exact hr
    have hpi := (hC.church.toA hred).pi_level hL.rules hty.1
    have hparts : gc.eta = true → Strict gc.theory (LCtx.den lc) A.den .type ∧
        ∃ s, IsSort s ∧ Strict gc.theory (LCtx.den (A :: lc)) B.den s := by
      intro he
      obtain ⟨s, hs, h⟩ := hsort he
      rw [hden] at h
      obtain ⟨s', hs', h1, h2, _⟩ := h.gen
      exact ⟨h1, s', hs', h2⟩
    have hgen' : ∀ {Γ' C}, CtxConv gc.theory (LCtx.den lc) Γ' → gc.theory.Conv ty.den C → WellTyped gc.theory Γ' t.den C →
        ∃ A1 B1, gc.theory.Conv A.den A1 ∧ gc.theory.Conv B.den B1 ∧ WellTyped gc.theory (A1 :: Γ') b.den B1 ∧
          ∀ A', argTy = some A' → A'.den = A1 ∧ WellTyped gc.theory Γ' A1 .type := by
      intro Γ' C hΓ hc hwt
      obtain ⟨A1, B1, hc, h1, h2⟩ := hgen hΓ hc hwt
      have : gc.theory.Conv (.pi A.den B.den) (.pi A1 B1) := Theory.Conv.trans (Theory.Conv.symm (T := gc.theory) hred.conv) hc
      exact ⟨A1, B1, (hC.church.pi this).1, (hC.church.pi this).2, h1, h2⟩
    have hdom : TriX gc G2 q (checkDom (ops gc n) ic lc argTy A)
        (fun r => r.2 = lc ∧ (r.1 = true → ∀ A', argTy = some A' →
          gc.theory.Conv A'.den A.den ∧ ∃ X, Inf gc.theory (LCtx.den lc) A'.den X) ∧
          (r.1 = false → Uncheckable gc.theory (LCtx.den lc) t.den ty.den))
        (ErrX (Uncheckable gc.theory (LCtx.den lc) t.den ty.den)) := by
      cases argTy with
      | none => exact TriX.pure ⟨rfl, by simp, by simp⟩
      | some A' =>
        unfold Kontroli.checkDom
        refine TriX.bind ((hic.inf G2 q lc A' hlc).mono (fun _ h => h) (ErrX.mono ?_)) ?_
        · intro hu Γ' C hΓ hc hwt
          obtain ⟨A1, B1, h1, h2, h3, h4⟩ := hgen' hΓ hc hwt
          obtain ⟨rfl, h5⟩ := h4 A' rfl
          exact hu Γ' _ hΓ h5
        · rintro G3 ⟨ty', lc1⟩ h
          have e : lc1 = lc := h.1
          subst e
          refine TriX.bind (TriX.of ((opsOk gc n).cv G3 q [(A', A)]) ((opsNE gc n).cv _)) ?_
          rintro G4 ok ⟨h1, h2⟩
          refine TriX.pure ⟨rfl, ?_, ?_⟩
          · rintro hok _ ⟨⟩
            exact ⟨h1 hok (A', A) (by simp), _, h.2.1⟩
          · intro hok Γ' C hΓ hc hwt
            obtain ⟨A1, B1, h3, h4, h5, h6⟩ := hgen' hΓ hc hwt
            obtain ⟨rfl, h7⟩ := h6 A' rfl
            obtain ⟨p, hp, hap⟩ := h2 hok
            simp only [List.mem_singleton] at hp
            subst hp
            exact Apart.notConvT hC.church hap h3.symm
    refine TriX.bind hdom ?_
    rintro G3 ⟨ok, lc1⟩ ⟨h1, h2, h3⟩
    simp only at h1 h2 h3
    subst h1
    refine TriX.ite (fun hok => ?_) fun hok => TriX.pure ⟨rfl, fun h => absurd h (by simp), fun _ => h3 (by simpa using hok)⟩
    have hno : Uncheckable gc.theory (LCtx.den (A :: lc1)) b.den B.den →
        Uncheckable gc.theory (LCtx.den lc1) t.den ty.den := by
      intro hu Γ' C hΓ hc hwt
      obtain ⟨A1, B1, h1, h2, h3, -⟩ := hgen' hΓ hc hwt
      exact hu (A1 :: Γ') B1 (.cons h1 hΓ) h2 h3
    unfold Kontroli.bindL
    refine TriX.bind ((hic.chk G3 q (A :: lc1) b B (hlc.cons hpi.1 fun he => (hparts he).1) ⟨hpi.2, fun he => (hparts he).2⟩).mono (fun _ h => h) (ErrX.mono hno)) ?_
    rintro G4 ⟨b', lc2⟩ ⟨h4, h5, h6⟩
    simp only at h4 h5 h6
    subst h4
    refine TriX.pure ⟨rfl, fun hb => ?_, fun hb => hno (h6 hb)⟩
    have hC := h5 hb
    rw [STerm.den_getAbst hab]
    cases argTy with
    | none => exact .dlam hred hC
    | some A' =>
      obtain ⟨h7, X, h8⟩ := h2 hok A' rfl
      exact .lam hred h8 h7 hC
  · refine TriX.bind ((hic.inf G q lc t hlc).mono (fun _ h => h) (ErrX.mono ?_)) ?_
    · intro hu Γ' A hΓ _ hw
      exact hu Γ' A hΓ hw
    · rintro G1 ⟨A, lc1⟩ h
      have e : lc1 = lc := h.1
      subst e
      refine TriX.bind (TriX.of ((opsOk gc n).cv G1 q [(A, ty)]) ((opsNE gc n).cv _)) ?_
      rintro G2 b ⟨h1, h2⟩
      refine TriX.pure ⟨rfl, fun hb => .conv h.2.1 (h1 hb (A, ty) (by simp)), ?_⟩
      intro hb Γ' C hΓ hc hw
      obtain ⟨p, hp, hap⟩ := h2 hb
      simp only [List.mem_singleton] at hp
      subst hp
      have := h.2.1.unique hC.church hΓ hw
      exact Apart.notConvT hC.church hap (this.trans hc.symm)

theorem iopsRef (n : Nat) : IOpsRef gc (iops gc n) := by
  induction n with
  | zero => exact ⟨fun _ _ _ _ _ => TriX.timeout, fun _ _ _ _ _ _ _ => TriX.timeout⟩
  | succ n ih =>
    exact ⟨fun _ _ lc t hlc => TriX.inferBody hC hL ih n lc hlc t,
      fun _ _ lc t ty hlc hty => TriX.checkBody hC hL ih n lc hlc t ty hty⟩

end

/-! ## Domain-free abstractions -/

/-- the computation does not complain about a domain-free abstraction -/
def NoDfa {α : Type} (m : M α) : Prop := ∀ s, m s ≠ .err .domainFreeAbstraction

section
variable {α β : Type}

theorem NoErr.noDfa {m : M α} (h : NoErr m) : NoDfa m := fun s => h s _
theorem NoDfa.pure (a : α) : NoDfa (M.pure a) := (NoErr.pure a).noDfa
theorem NoDfa.throw {e : KError} (he : e ≠ .domainFreeAbstraction) : NoDfa (M.throw e : M α) := by
  intro s h
  cases h
  exact he rfl
theorem NoDfa.okOr {e : KError} (he : e ≠ .domainFreeAbstraction) (o : Option α) : NoDfa (M.okOr e o) := by
  cases o with
  | none => exact .throw he
  | some a => exact .pure a
theorem NoDfa.bind {m : M α} {f : α → M β} (h : NoDfa m) (h' : ∀ a, NoDfa (f a)) : NoDfa (M.bind m f) := by
  intro s he
  unfold M.bind at he
  split at he
  · exact h' _ _ he
  · next e h1 => cases he; exact h _ h1
  · cases he
  · cases he
end

theorem Tm.annotated_apps {f : Tm} {as : List Tm} : (f.apps as).Annotated ↔ f.Annotated ∧ ∀ a ∈ as, a.Annotated := by
  induction as generalizing f with
  | nil => simp [apps]
  | cons a as ih => simp [apps, ih, Annotated, and_assoc]

/-- without domain-free abstractions there is no complaint about them -/
structure IOpsDfa (ic : IOps) : Prop where
  inf : ∀ lc t, t.den.Annotated → NoDfa (ic.inf lc t)
  chk : ∀ lc t ty, t.den.Annotated → NoDfa (ic.chk lc t ty)

section
variable {ic : IOps} (hic : IOpsDfa ic)
include hic

theorem NoDfa.inferArgs {o : Ops} (ho : OpsNE o) : ∀ (args : List STerm) (ty : STerm) (lc : LCtx), (∀ a ∈ args, a.den.Annotated) →
    NoDfa (inferArgs o ic args ty lc)
  | [], _, _, _ => .pure _
  | arg :: args, ty, lc, h => by
    unfold Kontroli.inferArgs
    refine .bind (NoErr.whnfTerm ho ty).noDfa fun w => .bind (.okOr (by decide) _) fun p =>
      .bind (hic.chk lc arg _ (h arg List.mem_cons_self)) fun r => ?_
    split
    · exact .bind (NoErr.subst _ _).noDfa fun ty => NoDfa.inferArgs ho args ty _ fun a ha => h a (List.mem_cons_of_mem _ ha)
    · exact .throw (by decide)

theorem NoDfa.bindOfType {lc : LCtx} {arg t : STerm} (h1 : arg.den.Annotated) (h2 : t.den.Annotated) :
    NoDfa (bindOfType ic lc arg fun lc => ic.inf lc t) := by
  unfold Kontroli.bindOfType
  refine .bind (hic.inf lc arg h1) fun r => ?_
  split
  · exact .bind (hic.inf _ t h2) fun _ => .pure _
  · exact .throw (by decide)

theorem NoDfa.inferComb {o : Ops} (ho : OpsNE o) (lc : LCtx) (c : SComb) (h : (SComb.den c).Annotated) :
    NoDfa (inferComb o ic lc c) := by
  cases c with
  | appl f args =>
    simp only [SComb.den, STerm.denList_eq, Tm.annotated_apps, List.forall_mem_map] at h
    exact .bind (hic.inf lc f h.1) fun r => NoDfa.inferArgs hic ho args _ _ h.2
  | prod id A B =>
    simp only [SComb.den, Tm.Annotated] at h
    refine .bind (NoDfa.bindOfType hic h.1 h.2) fun r => ?_
    split
    · exact .pure _
    · exact .pure _
    · exact .throw (by decide)
  | abst id A b =>
    cases A with
    | none => simp [SComb.den, STerm.denAbs, Tm.Annotated] at h
    | some A =>
      simp only [SComb.den, STerm.denAbs, Tm.Annotated] at h
      refine .bind (NoDfa.bindOfType hic h.1 h.2) fun r => ?_
      split
      · exact .throw (by decide)
      · exact .pure _

theorem NoDfa.inferBody {gc : GCtx} {o : Ops} (ho : OpsNE o) (lc : LCtx) (t : STerm) (h : t.den.Annotated) :
    NoDfa (inferBody gc o ic lc t) := by
  cases t with
  | kind => exact .throw (by decide)
  | type => exact .pure _
  | const c => exact .bind (.okOr (by decide) _) fun _ => .pure _
  | var v =>
    refine .bind ?_ fun _ => .pure _
    unfold lctxGet
    cases lc[v]? with
    | none => exact .throw (by decide)
    | some t => exact (NoErr.shift _ _).noDfa
  | scomb c => exact NoDfa.inferComb hic ho lc c h
  | lcomb c =>
    have : (SComb.den (SComb.ofL c)).Annotated := by simpa [STerm.den] using h
    exact NoDfa.inferComb hic ho lc _ this

theorem NoDfa.checkBody {o : Ops} (ho : OpsNE o) (lc : LCtx) (t ty : STerm) (h : t.den.Annotated) :
    NoDfa (checkBody o ic lc t ty) := by
  unfold Kontroli.checkBody
  split
  · next id argTy b hab =>
    rw [STerm.den_getAbst hab] at h
    refine .bind (NoErr.whnfTerm ho ty).noDfa fun w => .bind (.okOr (by decide) _) fun p => ?_
    cases argTy with
    | none => simp [STerm.denAbs, Tm.Annotated] at h
    | some A =>
      simp only [STerm.denAbs, Tm.Annotated] at h
      refine .bind ?_ fun r => ?_
      · exact .bind (hic.inf lc A h.1) fun _ => .bind (ho.cv _).noDfa fun _ => .pure _
      · split
        · exact .bind (hic.chk _ b _ h.2) fun _ => .pure _
        · exact .pure _
  · exact .bind (hic.inf lc t h) fun _ => .bind (ho.cv _).noDfa fun _ => .pure _

end

theorem iopsDfa (gc : GCtx) (n : Nat) : IOpsDfa (iops gc n) := by
  induction n with
  | zero => exact ⟨fun _ _ _ => NoErr.timeout.noDfa, fun _ _ _ _ => NoErr.timeout.noDfa⟩
  | succ n ih =>
    exact ⟨fun lc t h => NoDfa.inferBody ih (opsNE gc n) lc t h, fun lc t ty h => NoDfa.checkBody ih (opsNE gc n) lc t ty h⟩

end Kontroli
