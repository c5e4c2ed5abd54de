import Verif.Spec.Normalising
import Verif.Proofs.TerminateEta
import Verif.Proofs.Preserve
import Verif.Proofs.Adequacy

/-!
# Inference and checking come to an end if typed terms are strongly normalising
-/

namespace Kontroli

variable {gc : GCtx} {G : Ghost} {q : ℚ}

/-- inference and checking of the term come to an end -/
def Stops (gc : GCtx) (t : STerm) : Prop :=
  ∀ G q lc, WfCtx gc.theory (LCtx.den lc) →
    TH gc.rules gc.eta G q (fun m => (iops gc m).inf lc t) ∧
    ∀ ty : STerm, (∃ X, Strict gc.theory (LCtx.den lc) ty.den X) → TH gc.rules gc.eta G q (fun m => (iops gc m).chk lc t ty)

/-- the terms from which a compound term is made -/
def SComb.parts : SComb → List STerm
  | .appl f args => f :: args
  | .prod _ A B => [A, B]
  | .abst _ A b => b :: A.toList

theorem WfCtx.nk {lc : LCtx} (h : WfCtx gc.theory (LCtx.den lc)) : LCtx.NK lc :=
  fun _ he => h.noKind _ (List.mem_map_of_mem he)

theorem Theory.Church.definitional {T : Theory} (h : T.Church) (he : T.eta = true) : Definitional T.rules := by
  cases h with
  | plain h => rw [he] at h; cases h
  | eta _ hd => exact hd

theorem SN.kind {R : RuleMap} {eta : Bool} : SN R eta .kind := by
  refine ⟨_, fun u h => ?_⟩
  generalize e : Tm.kind = t at h
  cases h with
  | rule => exact absurd e.symm (Tm.apps_ne_kind (by intro h; cases h))
  | _ => cases e

section
variable (hT : gc.theory.WellFormed) (hC : gc.theory.Church) (hN : gc.theory.Normalising)
include hT hC hN

theorem Inf.sn {lc : LCtx} {f : Tm} {A : STerm} (hΓ : WfCtx gc.theory (LCtx.den lc)) (h : Inf gc.theory (LCtx.den lc) f A.den) :
    SN gc.rules gc.eta A.den := by
  rcases (Inf.strict hT hC h hΓ).typed hT.types hΓ with h | ⟨s, _, h⟩
  · rw [h]; exact .kind
  · exact hN _ _ _ hΓ h

theorem TH.inferArgs (args : List STerm) (hs : ∀ a ∈ args, Stops gc a) (G : Ghost) (f : Tm) (ty : STerm) (lc : LCtx)
    (hΓ : WfCtx gc.theory (LCtx.den lc)) (h : Inf gc.theory (LCtx.den lc) f ty.den) :
    TH gc.rules gc.eta G q (fun m => inferArgs (ops gc m) (iops gc m) args ty lc) := by
  induction args generalizing G f ty with
  | nil => exact .pure _
  | cons arg args ih =>
    unfold Kontroli.inferArgs
    refine TH.bind (TH.whnfTerm (SN.whStopsIn hC.definitional (h.sn hT hC hN hΓ))) (fun m => Tri.whnfTerm (opsOk gc m) ty) ?_
    intro G1 w _ hw
    refine TH.bind (F := fun _ => M.okOr _ _) (.of_nt (.okOr _ _)) (Φ := fun _ p => w.getProd = some p) (fun _ => Tri.okOr fun _ h => h) ?_
    rintro G2 ⟨id, A, B⟩ _ hp
    have hred : Red gc.rules gc.eta ty.den (.pi A.den B.den) := by
      have : w.den = .pi A.den B.den := STerm.den_getProd hp
      rw [← this]; exact hw.1
    have h1 := Inf.strict hT hC h hΓ
    obtain ⟨s, hs', _, h3, h4, h5⟩ : ∃ s, IsSort s ∧ Strict gc.theory (LCtx.den lc) ty.den s ∧
        Strict gc.theory (LCtx.den lc) (.pi A.den B.den) s ∧ Strict gc.theory (LCtx.den lc) A.den .type ∧
        Strict gc.theory (A.den :: LCtx.den lc) B.den s := by
      rcases h1.typed hT.types hΓ with h | ⟨s, hs, h2⟩
      · rw [h] at hred
        exact absurd (hred.of_kind rfl) (by simp)
      · exact h2.pi_sort hT hC hred hΓ
    refine TH.bind ((hs arg List.mem_cons_self G2 q lc hΓ).2 A ⟨_, h4⟩) (fun m => (iopsOk gc m).chk G2 q lc arg A) ?_
    rintro G3 ⟨b, lc'⟩ _ ⟨k1, k2⟩
    simp only at k1 k2
    subst k1
    refine TH.ite (fun hb => ?_) fun _ => .of_nt (.throw _)
    refine TH.bind (F := fun _ => subst _ _) (.of_nt (.subst _ _)) (fun _ => Tri.subst B arg) ?_
    intro G4 ty' _ hty
    refine ih (fun a ha => hs a (List.mem_cons_of_mem _ ha)) G4 (.app f arg.den) ty' ?_
    rw [hty]
    exact .app h hred (k2 hΓ.nk h4.noKind hb)

omit hN in
theorem TH.bindOfType {arg t : STerm} {lc : LCtx} (hΓ : WfCtx gc.theory (LCtx.den lc)) (h1 : Stops gc arg) (h2 : Stops gc t) :
    TH gc.rules gc.eta G q (fun m => bindOfType (iops gc m) lc arg fun lc => (iops gc m).inf lc t) := by
  unfold Kontroli.bindOfType
  refine TH.bind (h1 G q lc hΓ).1 (fun m => (iopsOk gc m).inf G q lc arg) ?_
  rintro G1 ⟨ty, lc1⟩ e ⟨k1, k2⟩
  simp only at k1 k2
  subst k1
  cases ty with
  | type =>
    simp only
    unfold Kontroli.bindL
    have h3 := Inf.strict hT hC (k2 hΓ.nk).1 hΓ
    exact TH.bind (h2 G1 q (arg :: lc1) (hΓ.cons h3)).1 (fun m => (iopsOk gc m).inf G1 q _ t) fun _ _ _ _ => .pure _
  | _ => exact .of_nt (.throw _)

theorem TH.inferComb (lc : LCtx) (c : SComb) (hs : ∀ a ∈ SComb.parts c, Stops gc a) (hΓ : WfCtx gc.theory (LCtx.den lc)) :
    TH gc.rules gc.eta G q (fun m => inferComb (ops gc m) (iops gc m) lc c) := by
  cases c with
  | appl f args =>
    unfold Kontroli.inferComb
    refine TH.bind (hs f List.mem_cons_self G q lc hΓ).1 (fun m => (iopsOk gc m).inf G q lc f) ?_
    rintro G1 ⟨ty, lc1⟩ _ ⟨h1, h2⟩
    simp only at h1 h2
    subst h1
    exact TH.inferArgs hT hC hN args (fun a ha => hs a (List.mem_cons_of_mem _ ha)) G1 f.den ty lc1 hΓ (h2 hΓ.nk).1
  | prod id A B =>
    unfold Kontroli.inferComb
    refine TH.bind (TH.bindOfType hT hC hΓ (hs A (by simp [SComb.parts])) (hs B (by simp [SComb.parts])))
      (fun m => Tri.bindOfType (iopsOk gc m)) ?_
    rintro G1 ⟨ty, lc1⟩ _ _
    cases ty <;> first | exact .pure _ | exact .of_nt (.throw _)
  | abst id A b =>
    cases A with
    | none => exact .of_nt (.throw _)
    | some A =>
      unfold Kontroli.inferComb
      refine TH.bind (TH.bindOfType hT hC hΓ (hs A (by simp [SComb.parts])) (hs b (by simp [SComb.parts])))
        (fun m => Tri.bindOfType (iopsOk gc m)) ?_
      rintro G1 ⟨ty, lc1⟩ _ _
      cases ty <;> first | exact .pure _ | exact .of_nt (.throw _)

theorem TH.checkDom {lc : LCtx} {argTy : Option STerm} {A : STerm} (hΓ : WfCtx gc.theory (LCtx.den lc)) (hs : ∀ a ∈ argTy, Stops gc a)
    {X : Tm} (hA : Strict gc.theory (LCtx.den lc) A.den X) :
    TH gc.rules gc.eta G q (fun m => checkDom (ops gc m) (iops gc m) lc argTy A) := by
  cases argTy with
  | none => exact .pure _
  | some A' =>
    unfold Kontroli.checkDom
    refine TH.bind (hs A' rfl G q lc hΓ).1 (fun m => (iopsOk gc m).inf G q lc A') ?_
    rintro G1 ⟨ty, lc1⟩ _ ⟨h1, h2⟩
    simp only at h1 h2
    subst h1
    refine TH.bind (SN.cvIn hC.definitional (hN _ _ _ hΓ (Inf.strict hT hC (h2 hΓ.nk).1 hΓ)) (hN _ _ _ hΓ hA)) (fun m => (opsOk gc m).cv G1 q _) ?_
    intro _ _ _ _
    exact .pure _

theorem TH.checkBody {lc : LCtx} {t ty : STerm} (hΓ : WfCtx gc.theory (LCtx.den lc)) {X : Tm}
    (hty : Strict gc.theory (LCtx.den lc) ty.den X) (hi : ∀ G q, TH gc.rules gc.eta G q (fun m => (iops gc m).inf lc t))
    (hs : ∀ id A b, t.getAbst = some (id, A, b) → Stops gc b ∧ ∀ a ∈ A, Stops gc a) :
    TH gc.rules gc.eta G q (fun m => checkBody (ops gc m) (iops gc m) lc t ty) := by
  unfold Kontroli.checkBody
  split
  · next id argTy b hab =>
    obtain ⟨hb, hA⟩ := hs _ _ _ hab
    refine TH.bind (TH.whnfTerm (SN.whStopsIn hC.definitional (hN _ _ _ hΓ hty))) (fun m => Tri.whnfTerm (opsOk gc m) ty) ?_
    intro G1 w _ hw
    refine TH.bind (F := fun _ => M.okOr _ _) (.of_nt (.okOr _ _)) (Φ := fun _ p => w.getProd = some p) (fun _ => Tri.okOr fun _ h => h) ?_
    rintro G2 ⟨id, A, B⟩ _ hp
    have hred : Red gc.rules gc.eta ty.den (.pi A.den B.den) := by
      have : w.den = .pi A.den B.den := STerm.den_getProd hp
      rw [← this]; exact hw.1
    obtain ⟨s, hs', _, h3, h4, h5⟩ := hty.pi_sort hT hC hred hΓ
    refine TH.bind (TH.checkDom hT hC hN hΓ hA h4) (fun m => Tri.checkDom (iopsOk gc m) (opsOk gc m) lc argTy A) ?_
    rintro G3 ⟨ok, lc1⟩ _ ⟨h1, -⟩
    simp only at h1
    subst h1
    refine TH.ite (fun _ => ?_) fun _ => .pure _
    unfold Kontroli.bindL
    exact TH.bind ((hb G3 q (A :: lc1) (hΓ.cons h4)).2 B ⟨_, h5⟩) (fun m => (iopsOk gc m).chk G3 q _ b B) fun _ _ _ _ => .pure _
  · refine TH.bind (hi G q) (fun m => (iopsOk gc m).inf G q lc t) ?_
    rintro G1 ⟨A, lc1⟩ _ ⟨h1, h2⟩
    simp only at h1 h2
    subst h1
    refine TH.bind (SN.cvIn hC.definitional ((h2 hΓ.nk).1.sn hT hC hN hΓ) (hN _ _ _ hΓ hty)) (fun m => (opsOk gc m).cv G1 q _) ?_
    intro _ _ _ _
    exact .pure _

/-- a term stops if its parts do -/
theorem stops_of (t : STerm) (hs : ∀ c, t.getComb = some c → ∀ a ∈ SComb.parts c, Stops gc a) : Stops gc t := by
  intro G q lc hΓ
  have hi : ∀ G q, TH gc.rules gc.eta G q (fun m => (iops gc m).inf lc t) := by
    intro G q
    refine TH.succ ?_
    simp only [iops]
    cases t with
    | kind => exact .of_nt (.throw _)
    | type => exact .pure _
    | const c => exact .of_nt (.bind (.okOr _ _) fun _ => .pure _)
    | var n =>
      refine .of_nt (.bind ?_ fun _ => .pure _)
      unfold lctxGet
      split
      · exact .throw _
      · exact .shift _ _
    | scomb c => exact TH.inferComb hT hC hN lc c (hs c rfl) hΓ
    | lcomb c => exact TH.inferComb hT hC hN lc _ (hs _ rfl) hΓ
  refine ⟨hi G q, fun ty ⟨X, hX⟩ => ?_⟩
  refine TH.succ ?_
  simp only [iops]
  refine TH.checkBody hT hC hN hΓ hX hi ?_
  intro id A b hab
  cases t with
  | scomb c =>
    cases c with
    | abst id' A' b' =>
      cases hab
      exact ⟨hs _ rfl _ List.mem_cons_self, fun a ha => hs _ rfl _ (List.mem_cons_of_mem _ (Option.mem_toList.2 ha))⟩
    | _ => cases hab
  | lcomb c =>
    cases c with
    | abst id' A' b' =>
      cases hab
      exact ⟨hs _ rfl _ List.mem_cons_self, fun a ha => hs _ rfl _ (List.mem_cons_of_mem _ (Option.mem_toList.2 ha))⟩
    | _ => cases hab
  | _ => cases hab

theorem stops_ofL (n : Nat) : ∀ t : LTerm, sizeOf t < n → Stops gc (STerm.ofL t) := by
  induction n with
  | zero => intro t h; omega
  | succ n ih =>
    intro t ht
    refine stops_of hT hC hN _ ?_
    intro c hc a ha
    cases t with
    | comb c' =>
      cases hc
      cases c' with
      | appl f args =>
        simp only [SComb.ofL, SComb.parts, List.mem_cons, List.mem_map] at ha
        simp at ht
        rcases ha with rfl | ⟨x, hx, rfl⟩
        · exact ih f (by omega)
        · have := List.sizeOf_lt_of_mem hx
          exact ih x (by omega)
      | prod id A B =>
        simp only [SComb.ofL, SComb.parts, List.mem_cons, List.not_mem_nil, or_false] at ha
        simp at ht
        rcases ha with rfl | rfl
        · exact ih A (by omega)
        · exact ih B (by omega)
      | abst id A b =>
        simp at ht
        cases A with
        | none =>
          simp only [SComb.ofL, SComb.parts, List.mem_cons, Option.map_none, Option.toList_none, List.not_mem_nil, or_false] at ha
          subst ha
          exact ih b (by omega)
        | some A =>
          simp only [SComb.ofL, SComb.parts, List.mem_cons, Option.map_some, Option.toList_some, List.not_mem_nil, or_false] at ha
          simp at ht
          rcases ha with rfl | rfl
          · exact ih b (by omega)
          · exact ih A (by omega)
    | _ => cases hc

theorem stops_s (n : Nat) : ∀ t : STerm, sizeOf t < n → Stops gc t := by
  induction n with
  | zero => intro t h; omega
  | succ n ih =>
    intro t ht
    cases t with
    | scomb c' =>
      refine stops_of hT hC hN _ ?_
      intro c hc a ha
      cases hc
      cases c' with
      | appl f args =>
        simp only [SComb.parts, List.mem_cons] at ha
        simp at ht
        rcases ha with rfl | hx
        · exact ih _ (by omega)
        · have := List.sizeOf_lt_of_mem hx
          exact ih _ (by omega)
      | prod id A B =>
        simp only [SComb.parts, List.mem_cons, List.not_mem_nil, or_false] at ha
        simp at ht
        rcases ha with rfl | rfl
        · exact ih _ (by omega)
        · exact ih _ (by omega)
      | abst id A b =>
        simp at ht
        cases A with
        | none =>
          simp only [SComb.parts, List.mem_cons, Option.toList_none, List.not_mem_nil, or_false] at ha
          subst ha
          exact ih _ (by omega)
        | some A =>
          simp only [SComb.parts, List.mem_cons, Option.toList_some, List.not_mem_nil, or_false] at ha
          simp at ht
          rcases ha with rfl | rfl
          · exact ih _ (by omega)
          · exact ih _ (by omega)
    | lcomb c' => exact stops_ofL hT hC hN _ (.comb c') (Nat.lt_succ_self _)
    | _ =>
      refine stops_of hT hC hN _ ?_
      intro c hc
      cases hc

/-- inference and checking come to an end -/
theorem stops (t : STerm) : Stops gc t := stops_s hT hC hN _ t (Nat.lt_succ_self _)

/-! ## The kernel -/

theorem TH.intro (it : Intro LTerm) : TH gc.rules gc.eta G q (fun m => intro m gc it) := by
  have hd : ∀ ty, TH gc.rules gc.eta G q (fun m => declare m gc ty) := by
    intro ty
    unfold declare infer
    refine TH.bind (stops hT hC hN (STerm.ofL ty) G q [] .nil).1 (fun m => (iopsOk gc m).inf G q [] _) ?_
    rintro G1 ⟨ty, lc1⟩ _ _
    cases ty <;> first | exact .pure _ | exact .of_nt (.throw _)
  unfold Kontroli.intro
  split
  · exact hd _
  · exact hd _
  · next oty tm =>
    cases oty with
    | some ty =>
      unfold define infer
      exact TH.bind (stops hT hC hN (STerm.ofL ty) G q [] .nil).1 (fun m => (iopsOk gc m).inf G q [] _) fun _ _ _ _ => .pure _
    | none =>
      unfold define infer
      exact TH.bind (stops hT hC hN (STerm.ofL tm) G q [] .nil).1 (fun m => (iopsOk gc m).inf G q [] _) fun _ _ _ _ =>
        .of_nt (.bind (.okOr _ _) fun _ => .pure _)
  · exact .of_nt (.throw _)
  · next ty tm =>
    unfold theorem_ infer
    exact TH.bind (stops hT hC hN (STerm.ofL ty) G q [] .nil).1 (fun m => (iopsOk gc m).inf G q [] _) fun _ _ _ _ => .pure _

theorem TH.rewrite (r : TRule) (hΓ : WfCtx gc.theory (denCtx r.ctx)) : TH gc.rules gc.eta G q (fun m => rewrite m gc r) := by
  unfold Kontroli.rewrite infer
  rw [← lctxOf_den] at hΓ
  exact TH.bind (stops hT hC hN (STerm.ofL r.lhs) G q _ hΓ).1 (fun m => (iopsOk gc m).inf G q _ _) fun _ _ _ _ =>
    .of_nt (.bind (.okOr _ _) fun _ => .pure _)

theorem TH.checkCheck (c : Check) (hΓ : WfCtx gc.theory (denCtx c.lc)) {X : Tm} (hX : Strict gc.theory (denCtx c.lc) c.ty.den X) :
    TH gc.rules gc.eta G q (fun m => Check.check m gc c) := by
  unfold Check.check Kontroli.check
  rw [← lctxOf_den] at hΓ hX
  exact TH.bind ((stops hT hC hN (STerm.ofL c.tm) G q _ hΓ).2 (STerm.ofL c.ty) ⟨X, by rw [STerm.den_ofL]; exact hX⟩)
    (fun m => (iopsOk gc m).chk G q _ _ _) fun _ _ _ _ => .of_nt (.ite (.pure _) (.throw _))

end

end Kontroli
