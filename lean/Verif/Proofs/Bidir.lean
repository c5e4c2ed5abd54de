import Verif.Spec.Typing
import Verif.Proofs.Machine
import Verif.Model.Kernel

/-!
# Bidirectional typing: what the code of `infer` and `check` derives
-/

namespace Kontroli

mutual
  /-- inference -/
  inductive Inf (T : Theory) : List Tm → Tm → Tm → Prop
    | type {Γ : List Tm} : Inf T Γ .type .kind
    | const {Γ : List Tm} {c : Sym} {A : Tm} : T.ty c = some A → Inf T Γ (.const c) A
    | var {Γ : List Tm} {n : Nat} {A : Tm} : Γ[n]? = some A → Inf T Γ (.var n) (A.shift (n + 1))
    | app {Γ : List Tm} {f a C A B : Tm} :
        Inf T Γ f C → Red T.rules T.eta C (.pi A B) → Chk T Γ a A → Inf T Γ (.app f a) (B.inst a)
    | lam {Γ : List Tm} {A b B : Tm} :
        Inf T Γ A .type → Inf T (A :: Γ) b B → B ≠ .kind → Inf T Γ (.lam A b) (.pi A B)
    | pi {Γ : List Tm} {A B s : Tm} :
        Inf T Γ A .type → Inf T (A :: Γ) B s → IsSort s → Inf T Γ (.pi A B) s
  /-- checking -/
  inductive Chk (T : Theory) : List Tm → Tm → Tm → Prop
    | dlam {Γ : List Tm} {C A b B : Tm} :
        Red T.rules T.eta C (.pi A B) → Chk T (A :: Γ) b B → Chk T Γ (.dlam b) C
    | lam {Γ : List Tm} {C A A' b B X : Tm} :
        Red T.rules T.eta C (.pi A B) → Inf T Γ A' X → T.Conv A' A → Chk T (A :: Γ) b B → Chk T Γ (.lam A' b) C
    | conv {Γ : List Tm} {t A B : Tm} : Inf T Γ t A → T.Conv A B → Chk T Γ t B
end

mutual
  theorem Inf.hasType {T : Theory} : ∀ {Γ : List Tm} {t A : Tm}, Inf T Γ t A → HasType T Γ t A
    | _, _, _, .type => .type
    | _, _, _, .const h => .const h
    | _, _, _, .var h => .var h
    | _, _, _, .app h hr h' => .app (.conv h.hasType hr.conv) h'.hasType
    | _, _, _, .lam h h' hn => .lam h.hasType h'.hasType hn
    | _, _, _, .pi h h' hs => .pi h.hasType h'.hasType hs
  theorem Chk.hasType {T : Theory} : ∀ {Γ : List Tm} {t A : Tm}, Chk T Γ t A → HasType T Γ t A
    | _, _, _, .dlam hr h => .conv (.dlam h.hasType) hr.conv.symm
    | _, _, _, .lam hr h' hc h => .conv (.alam h'.hasType hc h.hasType) hr.conv.symm
    | _, _, _, .conv h hc => .conv h.hasType hc
end

mutual
  theorem Inf.noKind {T : Theory} (hT : ∀ c A, T.ty c = some A → A.NoKind) : ∀ {Γ : List Tm} {t A : Tm},
      Inf T Γ t A → (∀ B ∈ Γ, B.NoKind) → t.NoKind ∧ (A = .kind ∨ A.NoKind)
    | _, _, _, .type, _ => ⟨trivial, .inl rfl⟩
    | _, _, _, .const h, _ => ⟨trivial, .inr (hT _ _ h)⟩
    | _, _, _, .var h, hΓ => ⟨trivial, .inr ((hΓ _ (List.mem_of_getElem? h)).ren _)⟩
    | _, _, _, .app (A := A) (B := B) h hr h', hΓ => by
      obtain ⟨h1, h2⟩ := h.noKind hT hΓ
      have hpi : (Tm.pi A B).NoKind := by
        rcases h2 with rfl | h2
        · exact absurd (hr.of_kind rfl) (by simp)
        · exact hr.noKind h2
      have ha := h'.noKind hT hΓ hpi.1
      exact ⟨⟨h1, ha⟩, .inr (hpi.2.inst ha)⟩
    | _, _, _, .lam h h' hn, hΓ => by
      have h1 := (h.noKind hT hΓ).1
      obtain ⟨h2, h3⟩ := h'.noKind hT (by simpa using ⟨h1, hΓ⟩)
      exact ⟨⟨h1, h2⟩, .inr ⟨h1, h3.resolve_left hn⟩⟩
    | _, _, _, .pi h h' hs, hΓ => by
      have h1 := (h.noKind hT hΓ).1
      obtain ⟨h2, h3⟩ := h'.noKind hT (by simpa using ⟨h1, hΓ⟩)
      exact ⟨⟨h1, h2⟩, h3⟩
  theorem Chk.noKind {T : Theory} (hT : ∀ c A, T.ty c = some A → A.NoKind) : ∀ {Γ : List Tm} {t A : Tm},
      Chk T Γ t A → (∀ B ∈ Γ, B.NoKind) → A.NoKind → t.NoKind
    | _, _, _, .dlam hr h, hΓ, hA => by
      have hpi := hr.noKind hA
      exact h.noKind hT (by simpa using ⟨hpi.1, hΓ⟩) hpi.2
    | _, _, _, .lam hr h' _ h, hΓ, hA => by
      have hpi := hr.noKind hA
      exact ⟨(h'.noKind hT hΓ).1, h.noKind hT (by simpa using ⟨hpi.1, hΓ⟩) hpi.2⟩
    | _, _, _, .conv h _, hΓ, _ => (h.noKind hT hΓ).1
end

theorem GCtx.theory_noKind (gc : GCtx) (c : Sym) (A : Tm) (h : gc.theory.ty c = some A) : A.NoKind := by
  simp only [GCtx.theory, Option.map_eq_some_iff] at h
  obtain ⟨t, _, rfl⟩ := h
  exact LTerm.noKind t

/-- the plain local context -/
def LCtx.den (lc : LCtx) : List Tm := lc.map STerm.den

/-- no `Kind` in the local context -/
def LCtx.NK (lc : LCtx) : Prop := ∀ e ∈ lc, e.den.NoKind

theorem LCtx.NK.den {lc : LCtx} (h : LCtx.NK lc) : ∀ B ∈ LCtx.den lc, B.NoKind := by
  intro B hB
  obtain ⟨e, he, rfl⟩ := List.mem_map.1 hB
  exact h e he

theorem LCtx.NK.cons {lc : LCtx} {A : STerm} (hA : A.den.NoKind) (h : LCtx.NK lc) : LCtx.NK (A :: lc) := by
  intro e he
  rcases List.mem_cons.1 he with rfl | he
  · exact hA
  · exact h e he

/-- the result of inference is `Kind` or kind-free -/
def Kindish (t : STerm) : Prop := t = .kind ∨ t.den.NoKind

section
variable {gc : GCtx} {G : Ghost} {q : ℚ}

/-- Triples for the theory of a global context. -/
abbrev TriG (gc : GCtx) (G : Ghost) (q : ℚ) {α : Type} (m : M α) (Φ : α → Prop) : Prop :=
  Tri gc.rules gc.eta G q m (fun _ a => Φ a)

/-- post-condition of inference -/
def InfPost (gc : GCtx) (lc : LCtx) (t : Tm) (r : STerm × LCtx) : Prop :=
  r.2 = lc ∧ (LCtx.NK lc → Inf gc.theory (LCtx.den lc) t r.1.den ∧ Kindish r.1)

/-- post-condition of checking -/
def ChkPost (gc : GCtx) (lc : LCtx) (t ty : Tm) (r : Bool × LCtx) : Prop :=
  r.2 = lc ∧ (LCtx.NK lc → ty.NoKind → r.1 = true → Chk gc.theory (LCtx.den lc) t ty)

/-- Correctness of inference and checking. -/
structure IOpsOk (gc : GCtx) (ic : IOps) : Prop where
  inf : ∀ G q lc t, TriG gc G q (ic.inf lc t) (InfPost gc lc t.den)
  chk : ∀ G q lc t ty, TriG gc G q (ic.chk lc t ty) (ChkPost gc lc t.den ty.den)

theorem Tri.lctxGet (lc : LCtx) (n : Nat) :
    TriG gc G q (lctxGet lc n) (fun t => ∃ A, (LCtx.den lc)[n]? = some A ∧ t.den = A.shift (n + 1)) := by
  unfold Kontroli.lctxGet
  split
  · exact Tri.throw
  · next t ht =>
    refine (Tri.shift t (n + 1)).mono ?_
    intro _ t' _ h
    exact ⟨t.den, by simp [LCtx.den, ht], h⟩

theorem Tri.bindL {α : Type} {lc : LCtx} {arg : STerm} {f : LCtx → M (α × LCtx)} {φ : α → Prop}
    (h : TriG gc G q (f (arg :: lc)) (fun r => r.2 = arg :: lc ∧ φ r.1)) :
    TriG gc G q (bindL lc arg f) (fun r => r.2 = lc ∧ φ r.1) := by
  unfold Kontroli.bindL
  refine Tri.bind h ?_
  rintro G1 r e ⟨h1, h2⟩
  exact Tri.pure ⟨by simp [h1], h2⟩

theorem Tri.bindOfType {ic : IOps} (hic : IOpsOk gc ic) {lc : LCtx} {arg t : STerm} :
    TriG gc G q (bindOfType ic lc arg fun lc => ic.inf lc t)
      (fun r => r.2 = lc ∧ (LCtx.NK lc → Inf gc.theory (LCtx.den lc) arg.den .type ∧ arg.den.NoKind ∧
        Inf gc.theory (arg.den :: LCtx.den lc) t.den r.1.den ∧ Kindish r.1)) := by
  unfold Kontroli.bindOfType
  refine Tri.bind (hic.inf G q lc arg) ?_
  rintro G1 ⟨ty, lc1⟩ e ⟨h1, h2⟩
  simp only at h1 h2
  subst h1
  cases ty with
  | type =>
    refine (Tri.bindL (φ := fun ty => LCtx.NK (arg :: lc1) →
      Inf gc.theory (LCtx.den (arg :: lc1)) t.den ty.den ∧ Kindish ty) (hic.inf G1 q (arg :: lc1) t)).mono ?_
    rintro _ r _ ⟨h3, h4⟩
    refine ⟨h3, fun hnk => ?_⟩
    have hI := (h2 hnk).1
    have hA := (hI.noKind gc.theory_noKind hnk.den).1
    exact ⟨hI, hA, h4 (hnk.cons hA)⟩
  | _ => exact Tri.throw

theorem Tri.inferArgs {ic : IOps} (hic : IOpsOk gc ic) {o : Ops} (ho : OpsOk gc.rules gc.eta o) (args : List STerm)
    (G : Ghost) (f : Tm) (ty : STerm) (lc : LCtx)
    (h : LCtx.NK lc → Inf gc.theory (LCtx.den lc) f ty.den ∧ Kindish ty) :
    TriG gc G q (inferArgs o ic args ty lc) (InfPost gc lc (f.apps (args.map STerm.den))) := by
  induction args generalizing G f ty with
  | nil => exact Tri.pure ⟨rfl, h⟩
  | cons arg args ih =>
    unfold Kontroli.inferArgs
    refine Tri.bind (Tri.whnfTerm ho ty) ?_
    intro G1 w _ hw
    refine Tri.bind (Φ := fun _ p => w.getProd = some p) (Tri.okOr fun _ h => h) ?_
    rintro G2 ⟨id, A, B⟩ _ hp
    refine Tri.bind (hic.chk G2 q lc arg A) ?_
    rintro G3 ⟨b, lc'⟩ _ ⟨h1, h2⟩
    simp only at h1 h2
    subst h1
    refine Tri.ite (fun hb => ?_) fun _ => Tri.throw
    refine Tri.bind (Tri.subst B arg) ?_
    intro G4 ty' _ hty
    have hred : Red gc.rules gc.eta ty.den (.pi A.den B.den) := by
      have : w.den = .pi A.den B.den := STerm.den_getProd hp
      rw [← this]; exact hw.1
    refine ih G4 (.app f arg.den) ty' ?_
    intro hnk
    obtain ⟨hI, hk⟩ := h hnk
    have hpi : (Tm.pi A.den B.den).NoKind := by
      rcases hk with rfl | hk
      · exact absurd (hred.of_kind rfl) (by simp)
      · exact hred.noKind hk
    have hC := h2 hnk hpi.1 hb
    refine ⟨?_, .inr ?_⟩
    · rw [hty]
      exact .app hI hred hC
    · rw [hty]
      exact hpi.2.inst (hC.noKind gc.theory_noKind hnk.den hpi.1)

theorem Tri.inferComb {ic : IOps} (hic : IOpsOk gc ic) {o : Ops} (ho : OpsOk gc.rules gc.eta o) (lc : LCtx)
    (c : SComb) :
    TriG gc G q (inferComb o ic lc c) (InfPost gc lc (SComb.den c)) := by
  cases c with
  | appl f args =>
    unfold Kontroli.inferComb
    refine Tri.bind (hic.inf G q lc f) ?_
    rintro G1 ⟨ty, lc1⟩ _ ⟨h1, h2⟩
    simp only at h1 h2
    subst h1
    have := Tri.inferArgs (q := q) hic ho args G1 f.den ty lc1 h2
    simpa only [SComb.den, STerm.denList_eq] using this
  | prod id A B =>
    unfold Kontroli.inferComb
    refine Tri.bind (Tri.bindOfType hic) ?_
    rintro G1 ⟨ty, lc1⟩ _ ⟨h1, h2⟩
    simp only at h1 h2
    subst h1
    split
    · next hk =>
      refine Tri.pure ⟨rfl, fun hnk => ?_⟩
      obtain ⟨h3, h4, h5, -⟩ := h2 hnk
      exact ⟨.pi h3 (hk ▸ h5) .kind, .inl rfl⟩
    · next hk =>
      refine Tri.pure ⟨rfl, fun hnk => ?_⟩
      obtain ⟨h3, h4, h5, -⟩ := h2 hnk
      exact ⟨.pi h3 (hk ▸ h5) .type, .inr trivial⟩
    · exact Tri.throw
  | abst id A b =>
    cases A with
    | none => exact Tri.throw
    | some A =>
      unfold Kontroli.inferComb
      refine Tri.bind (Tri.bindOfType hic) ?_
      rintro G1 ⟨ty, lc1⟩ _ ⟨h1, h2⟩
      simp only at h1 h2
      subst h1
      split
      · exact Tri.throw
      · next hk =>
        refine Tri.pure ⟨rfl, fun hnk => ?_⟩
        obtain ⟨h3, h4, h5, h6⟩ := h2 hnk
        have hB : ty.den.NoKind := h6.resolve_left hk
        refine ⟨.lam h3 h5 ?_, .inr ⟨h4, hB⟩⟩
        intro hden
        rw [hden] at hB
        exact hB

theorem Tri.inferBody {ic : IOps} (hic : IOpsOk gc ic) {o : Ops} (ho : OpsOk gc.rules gc.eta o) (lc : LCtx)
    (t : STerm) :
    TriG gc G q (inferBody gc o ic lc t) (InfPost gc lc t.den) := by
  cases t with
  | kind => exact Tri.throw
  | type => exact Tri.pure ⟨rfl, fun _ => ⟨.type, .inl rfl⟩⟩
  | const c =>
    unfold Kontroli.inferBody
    refine Tri.bind (Φ := fun _ p => gc.getType c = some p) (Tri.okOr fun _ h => h) ?_
    intro G1 t _ h
    refine Tri.pure ⟨rfl, fun _ => ⟨.const ?_, .inr ?_⟩⟩
    · rw [STerm.den_ofL]
      unfold GCtx.getType at h
      simp [GCtx.theory, h]
    · rw [STerm.den_ofL]; exact LTerm.noKind t
  | var n =>
    unfold Kontroli.inferBody
    refine Tri.bind (Tri.lctxGet lc n) ?_
    rintro G1 t _ ⟨A, h1, h2⟩
    refine Tri.pure ⟨rfl, fun hnk => ⟨?_, .inr ?_⟩⟩
    · simp only [h2]
      exact .var h1
    · simp only [h2]
      exact (hnk.den A (List.mem_of_getElem? h1)).ren _
  | lcomb c =>
    unfold Kontroli.inferBody
    simpa [STerm.den] using Tri.inferComb (q := q) hic ho lc (SComb.ofL c)
  | scomb c =>
    unfold Kontroli.inferBody
    exact Tri.inferComb hic ho lc c

theorem Tri.checkDom {ic : IOps} (hic : IOpsOk gc ic) {o : Ops} (ho : OpsOk gc.rules gc.eta o) (lc : LCtx)
    (argTy : Option STerm) (A : STerm) :
    TriG gc G q (checkDom o ic lc argTy A) (fun r => r.2 = lc ∧ (LCtx.NK lc → r.1 = true → ∀ A', argTy = some A' →
      gc.theory.Conv A'.den A.den ∧ ∃ X, Inf gc.theory (LCtx.den lc) A'.den X)) := by
  cases argTy with
  | none => exact Tri.pure ⟨rfl, by simp⟩
  | some A' =>
    unfold Kontroli.checkDom
    refine Tri.bind (hic.inf G q lc A') ?_
    rintro G1 ⟨ty, lc1⟩ _ ⟨h1, h2⟩
    simp only at h1 h2
    subst h1
    refine Tri.bind (ho.cv G1 q [(A', A)]) ?_
    intro G2 b _ hb
    refine Tri.pure ⟨rfl, ?_⟩
    intro hnk hb' A'' h
    cases h
    exact ⟨hb.1 hb' (A', A) (by simp), _, (h2 hnk).1⟩

theorem Tri.checkBody {ic : IOps} (hic : IOpsOk gc ic) {o : Ops} (ho : OpsOk gc.rules gc.eta o) (lc : LCtx)
    (t ty : STerm) :
    TriG gc G q (checkBody o ic lc t ty) (ChkPost gc lc t.den ty.den) := by
  unfold Kontroli.checkBody
  split
  · next id argTy b hab =>
    refine Tri.bind (Tri.whnfTerm ho ty) ?_
    intro G1 w _ hw
    refine Tri.bind (Φ := fun _ p => w.getProd = some p) (Tri.okOr fun _ h => h) ?_
    rintro G2 ⟨id, A, B⟩ _ hp
    refine Tri.bind (Tri.checkDom hic ho lc argTy A) ?_
    rintro G3 ⟨ok, lc1⟩ _ ⟨h1, h2⟩
    simp only at h1 h2
    subst h1
    have hred : Red gc.rules gc.eta ty.den (.pi A.den B.den) := by
      have : w.den = .pi A.den B.den := STerm.den_getProd hp
      rw [← this]; exact hw.1
    refine Tri.ite (fun hok => ?_) fun hok => Tri.pure ⟨rfl, fun _ _ h => absurd h (by simp)⟩
    refine (Tri.bindL (φ := fun b' => LCtx.NK (A :: lc1) → B.den.NoKind → b' = true →
      Chk gc.theory (A.den :: LCtx.den lc1) b.den B.den) (hic.chk G3 q (A :: lc1) b B)).mono ?_
    rintro _ r _ ⟨h3, h4⟩
    refine ⟨h3, fun hnk hty hr => ?_⟩
    have hpi := hred.noKind hty
    have hC := h4 (hnk.cons hpi.1) hpi.2 hr
    rw [STerm.den_getAbst hab]
    cases argTy with
    | none => exact .dlam hred hC
    | some A' =>
      obtain ⟨h5, X, h6⟩ := h2 hnk hok A' rfl
      exact .lam hred h6 h5 hC
  · refine Tri.bind (hic.inf G q lc t) ?_
    rintro G1 ⟨A, lc1⟩ _ ⟨h1, h2⟩
    simp only at h1 h2
    subst h1
    refine Tri.bind (ho.cv G1 q [(A, ty)]) ?_
    intro G2 b _ hb
    exact Tri.pure ⟨rfl, fun hnk _ hb' => .conv (h2 hnk).1 (hb.1 hb' (A, ty) (by simp))⟩

theorem iopsOk (gc : GCtx) (n : Nat) : IOpsOk gc (iops gc n) := by
  induction n with
  | zero => exact ⟨fun _ _ _ _ => Tri.timeout, fun _ _ _ _ _ => Tri.timeout⟩
  | succ n ih =>
    exact ⟨fun _ _ lc t => Tri.inferBody ih (opsOk gc n) lc t, fun _ _ lc t ty => Tri.checkBody ih (opsOk gc n) lc t ty⟩

end

end Kontroli
