import Verif.Proofs.Known
import Verif.Proofs.Adequacy
import Verif.Proofs.Driver
import Verif.Proofs.Orthogonal

/-!
# Commands that are right are accepted; levels are kept
-/

namespace Kontroli

mutual
  theorem STerm.toL_isSome {t : STerm} (h : t.den.NoKind) : ∃ l, t.toL = some l := by
    cases t with
    | kind => exact h.elim
    | type => exact ⟨_, rfl⟩
    | const c => exact ⟨_, rfl⟩
    | var c => exact ⟨_, rfl⟩
    | lcomb c => exact ⟨_, rfl⟩
    | scomb c =>
      obtain ⟨l, hl⟩ := SComb.toL_isSome (t := c) h
      exact ⟨_, by rw [STerm.toL, hl]; rfl⟩
  theorem SComb.toL_isSome {t : Comb Str STerm} (h : (SComb.den t).NoKind) : ∃ l, SComb.toL t = some l := by
    cases t with
    | appl f as =>
      unfold SComb.den at h
      obtain ⟨h1, h2⟩ := Tm.noKind_apps.1 h
      obtain ⟨f', hf⟩ := STerm.toL_isSome h1
      obtain ⟨as', has⟩ := STerm.toLList_isSome h2
      exact ⟨_, by rw [SComb.toL, hf, has]⟩
    | prod id a b =>
      obtain ⟨a', ha⟩ := STerm.toL_isSome h.1
      obtain ⟨b', hb⟩ := STerm.toL_isSome h.2
      exact ⟨_, by rw [SComb.toL, ha, hb]⟩
    | abst id a b =>
      cases a with
      | none =>
        obtain ⟨b', hb⟩ := STerm.toL_isSome (t := b) h
        exact ⟨_, by rw [SComb.toL, STerm.toLOpt, hb]⟩
      | some a =>
        obtain ⟨a', ha⟩ := STerm.toL_isSome (t := a) h.1
        obtain ⟨b', hb⟩ := STerm.toL_isSome (t := b) h.2
        exact ⟨_, by rw [SComb.toL, STerm.toLOpt, ha, hb]; rfl⟩
  theorem STerm.toLList_isSome {ts : List STerm} (h : ∀ t ∈ STerm.denList ts, t.NoKind) : ∃ l, STerm.toLList ts = some l := by
    cases ts with
    | nil => exact ⟨_, rfl⟩
    | cons t ts =>
      unfold STerm.denList at h
      obtain ⟨l, hl⟩ := STerm.toL_isSome (h _ List.mem_cons_self)
      obtain ⟨ls, hls⟩ := STerm.toLList_isSome fun t ht => h t (List.mem_cons_of_mem _ ht)
      exact ⟨_, by rw [STerm.toLList, hl, hls]⟩
end

theorem STerm.Skel.toL {t : STerm} (h : t.Skel) {l : LTerm} (hl : t.toL = some l) : l.KindForm := by
  induction h generalizing l with
  | type => cases hl; trivial
  | @scomb id a b h ih =>
    rw [STerm.toL, SComb.toL] at hl
    cases ha : STerm.toL a with
    | none => rw [ha] at hl; cases hl
    | some a' =>
      cases hb : STerm.toL b with
      | none => rw [ha, hb] at hl; cases hl
      | some b' =>
        rw [ha, hb] at hl
        cases hl
        show LTerm.KindForm b'
        exact ih hb
  | lcomb h => cases hl; exact h

mutual
  theorem Pattern.toL_annotated {p : Pattern} {l : LTerm} (h : p.toL = some l) : l.den.Annotated := by
    cases p with
    | symb s ps =>
      simp only [Pattern.toL, Option.map_eq_some_iff] at h
      obtain ⟨ls, h1, rfl⟩ := h
      exact Tm.annotated_apps.2 ⟨trivial, Pattern.toLList_annotated h1⟩
    | mvar v => cases h; trivial
    | joker => cases h
  theorem Pattern.toLList_annotated {ps : List Pattern} {ls : List LTerm} (h : Pattern.toLList ps = some ls) :
      ∀ t ∈ LTerm.denList ls, t.Annotated := by
    cases ps with
    | nil => cases h; simp [LTerm.denList]
    | cons p ps =>
      rw [Pattern.toLList] at h
      cases hp : Pattern.toL p with
      | none => rw [hp] at h; cases h
      | some l =>
        cases hps : Pattern.toLList ps with
        | none => rw [hp, hps] at h; cases h
        | some ls =>
          rw [hp, hps] at h
          cases h
          intro t ht
          rw [LTerm.denList] at ht
          rcases List.mem_cons.1 ht with rfl | ht
          · exact Pattern.toL_annotated hp
          · exact Pattern.toLList_annotated hps t ht
end

theorem Rule.toT_annotated {r : Rule} {t : TRule} (h : r.toT = some t) : t.lhs.den.Annotated ∧ t.rhs = r.rhs := by
  unfold Rule.toT at h
  split at h
  · cases h
  · split at h
    · cases h
    · next lhs hl => cases h; exact ⟨Pattern.toL_annotated hl, rfl⟩

/-- inference does not complain about abstractions without types -/
def LTerm.InfFine (t : LTerm) : Prop := ∀ n gc lc, NoDfa (infer n gc lc (STerm.ofL t))

/-- checking does not complain about abstractions without types -/
def LTerm.ChkFine (t : LTerm) : Prop := ∀ n gc lc A, NoDfa (check n gc lc (STerm.ofL t) A)

theorem LTerm.InfFine.annotated {t : LTerm} (h : t.den.Annotated) : t.InfFine := fun n gc lc => (iopsDfa gc n).inf lc _ (by rwa [STerm.den_ofL])

theorem LTerm.ChkFine.annotated {t : LTerm} (h : t.den.Annotated) : t.ChkFine := fun n gc lc A =>
  (iopsDfa gc n).chk lc _ A (by rwa [STerm.den_ofL])

theorem LTerm.InfFine.known {t : LTerm} (hp : t.Proper) (h : t.den.Known false) : t.InfFine := fun n gc lc =>
  (iopsKnown gc n).inf lc _ ((STerm.proper_ofL t).2 hp) (by rwa [STerm.den_ofL])

theorem LTerm.ChkFine.known {t : LTerm} (hp : t.Proper) (h : t.den.Known true) : t.ChkFine := fun n gc lc A =>
  (iopsKnown gc n).chk lc _ A ((STerm.proper_ofL t).2 hp) (by rwa [STerm.den_ofL])

/-- there is no complaint about abstractions without types -/
def Cmd.DfaFree : Cmd → Prop
  | .intro _ it => (∀ A, it.given = some A → A.InfFine) ∧ ∀ t, it.body = some t → (it.given = none → t.InfFine) ∧ (it.given.isSome → t.ChkFine)
  | .rules rs => ∀ r ∈ rs, r.rhs.ChkFine

theorem Cmd.Annotated.dfaFree {cmd : Cmd} (h : cmd.Annotated) : cmd.DfaFree := by
  cases cmd with
  | intro s it => exact ⟨fun A hA => .annotated (h.1 A hA), fun t ht => ⟨fun _ => .annotated (h.2 t ht), fun _ => .annotated (h.2 t ht)⟩⟩
  | rules rs => exact fun r hr => .annotated (h r hr)

theorem Intro.Proper.given {it : Intro LTerm} (h : it.Proper) {A : LTerm} (hA : it.given = some A) : A.Proper := by
  cases it with
  | definition oty otm =>
    cases hA
    have := h.1
    rwa [LTerm.ProperOpt] at this
  | theorem_ ty tm => cases hA; exact h.1
  | declaration inj ty => cases hA; exact h

theorem Intro.Proper.body {it : Intro LTerm} (h : it.Proper) {t : LTerm} (ht : it.body = some t) : t.Proper := by
  cases it with
  | definition oty otm =>
    cases ht
    have := h.2
    rwa [LTerm.ProperOpt] at this
  | theorem_ ty tm => cases ht; exact h.2
  | declaration inj ty => cases ht

theorem Cmd.Known.dfaFree {cmd : Cmd} (h : cmd.Known) (hp : cmd.Proper) : cmd.DfaFree := by
  cases cmd with
  | intro s it =>
    have hp : it.Proper := hp
    refine ⟨fun A hA => .known (hp.given hA) (h.1 A hA), fun t ht => ⟨fun hg => ?_, fun hg => ?_⟩⟩
    · have := h.2 t ht
      rw [hg] at this
      exact .known (hp.body ht) this
    · have := h.2 t ht
      rw [hg] at this
      exact .known (hp.body ht) this
  | rules rs => exact fun r hr => .known (hp r hr).1 (h r hr)

section
variable {gc : GCtx} {G : Ghost} {q : ℚ} {α : Type}

theorem TriX.noDfa {m : M α} {Φ : α → Prop} {P : Prop} (h : TriX gc G q m Φ (ErrX P)) (hn : NoDfa m) (hP : ¬ P) :
    TriX gc G q m Φ (fun _ => False) :=
  ⟨h.1, fun s hW e he => hP (h.2 s hW e he (by rintro rfl; exact hn s he))⟩

variable (hC : gc.Apt) (hL : gc.Levelled)
include hC hL

theorem TriX.infer_complete (n : Nat) {lc : LCtx} (hlc : LCtx.Fit gc lc) {t : STerm} (ht : NoDfa (infer n gc lc t)) {A : Tm}
    (h : Strict gc.theory (LCtx.den lc) t.den A) :
    TriX gc G q (infer n gc lc t) (fun r => InfX gc lc t.den r ∧ gc.theory.Conv r.1.den A) (fun _ => False) := by
  have hw := h.wellTyped hL.theory hC.church hlc.1.den
  have := TriX.noDfa ((iopsRef hC hL n).inf G q lc t hlc) ht
    fun hu => hu _ A (.refl _) hw
  exact this.mono (fun r hr => ⟨hr, hr.2.1.unique hC.church (.refl _) hw⟩) fun _ h => h

theorem TriX.check_complete (n : Nat) {lc : LCtx} (hlc : LCtx.Fit gc lc) {t ty : STerm} (ht : NoDfa (check n gc lc t ty))
    (hty : TyFit gc lc ty.den) (h : WellTyped gc.theory (LCtx.den lc) t.den ty.den) :
    TriX gc G q (check n gc lc t ty) (fun r => r.1 = true) (fun _ => False) := by
  have := TriX.noDfa ((iopsRef hC hL n).chk G q lc t ty hlc hty) ht
    fun hu => hu _ _ (.refl _) (.refl _) h
  refine this.mono (fun r hr => ?_) fun _ h => h
  by_cases hb : r.1 = true
  · exact hb
  · exact absurd h (hr.2.2 (by simpa using hb) _ _ (.refl _) (.refl _))

/-- the levels of a term that has a sort -/
theorem Strict.sort_level {Γ : List Tm} (hΓ : ∀ B ∈ Γ, B.Small) {A s : Tm} (h : Strict gc.theory Γ A s) : A.Small ∨ A.IsKind :=
  (h.level hL.theory hC.church hΓ).imp And.left And.left

theorem TriX.checkCheck_complete (n : Nat) {c : Check} (hlc : LCtx.Fit gc (lctxOf c.lc)) (ht : c.tm.ChkFine)
    (hty : TyFit gc (lctxOf c.lc) c.ty.den) (h : WellTyped gc.theory (denCtx c.lc) c.tm.den c.ty.den) :
    TriX gc G q (Check.check n gc c) (fun _ => True) (fun _ => False) := by
  unfold Kontroli.Check.check
  refine TriX.bind (TriX.check_complete hC hL n hlc (ht n gc _ _) (by rwa [STerm.den_ofL])
    (by rwa [lctxOf_den, STerm.den_ofL, STerm.den_ofL])) ?_
  intro G1 r hr
  rw [if_pos hr]
  exact TriX.pure trivial

theorem TriX.toLTerm_complete {A : STerm} (hA : A.den.NoKind) :
    TriX gc G q (toLTerm A) (fun l => l.den = A.den ∧ (A.Skel → l.KindForm)) (fun _ => False) := by
  obtain ⟨l, hl⟩ := STerm.toL_isSome hA
  unfold Kontroli.toLTerm
  rw [hl]
  exact TriX.pure ⟨STerm.toL_den hl, fun hs => hs.toL hl⟩

omit hC hL in
theorem LCtx.Fit.nil : LCtx.Fit gc [] := ⟨nofun, fun _ => .nil⟩

theorem TriX.declare_complete (n : Nat) {ty : LTerm} (ht : ty.InfFine) (h : ∃ s, IsSort s ∧ Strict gc.theory [] ty.den s) :
    TriX gc G q (declare n gc ty) (fun r => r.2 = none) (fun _ => False) := by
  obtain ⟨s, hs, h⟩ := h
  unfold Kontroli.declare
  refine TriX.bind (TriX.infer_complete hC hL n (lc := []) LCtx.Fit.nil (ht n gc []) (by rwa [STerm.den_ofL])) ?_
  rintro G1 ⟨A, lc⟩ ⟨h1, h2⟩
  have : A = .type ∨ A = .kind := by
    cases hs with
    | type => exact .inl (h1.is_type hC hL LCtx.Fit.nil h2)
    | kind => exact .inr (h1.is_kind hC hL LCtx.Fit.nil h2)
  rcases this with rfl | rfl <;> exact TriX.pure rfl

/-- introductions that are right are accepted, and so are their checks -/
theorem TriX.intro_complete (n : Nat) {i : Intro LTerm} (h1 : ∀ A, i.given = some A → A.InfFine)
    (h2 : ∀ t, i.body = some t → (i.given = none → t.InfFine) ∧ (i.given.isSome → t.ChkFine)) (h : IntroStrict gc.theory i) :
    TriX gc G q (intro n gc i) (fun r => ∀ c, r.2 = some c → ∀ n G q, TriX gc G q (Check.check n gc c) (fun _ => True) (fun _ => False))
      (fun _ => False) := by
  have given : ∀ {ty tm : LTerm}, ty.InfFine → tm.ChkFine → (∃ s, IsSort s ∧ Strict gc.theory [] ty.den s) →
      Strict gc.theory [] tm.den ty.den →
      TriX gc G q (infer n gc [] (STerm.ofL ty)) (fun _ => True) (fun _ => False) ∧
        ∀ n G q, TriX gc G q (Check.check n gc ⟨[], ty, tm⟩) (fun _ => True) (fun _ => False) := by
    rintro ty tm a1 a2 ⟨s, hs, h3⟩ h4
    refine ⟨?_, fun n G q => ?_⟩
    · exact (TriX.infer_complete hC hL n (lc := []) LCtx.Fit.nil (a1 n gc []) (by rwa [STerm.den_ofL])).mono
        (fun _ _ => trivial) fun _ h => h
    · exact TriX.checkCheck_complete hC hL n LCtx.Fit.nil a2 ⟨h3.sort_level hC hL (by simp), fun _ => ⟨s, hs, h3⟩⟩
        (h4.wellTyped hL.theory hC.church (by simp [denCtx]))
  cases i with
  | declaration inj ty =>
    refine (TriX.declare_complete hC hL n (h1 ty rfl) h).mono ?_ fun _ h => h
    intro r hr c hc
    rw [hr] at hc
    cases hc
  | definition oty otm =>
    cases otm with
    | none =>
      cases oty with
      | none => exact h.elim
      | some ty =>
        refine (TriX.declare_complete hC hL n (h1 ty rfl) h).mono ?_ fun _ h => h
        intro r hr c hc
        rw [hr] at hc
        cases hc
    | some tm =>
      cases oty with
      | none =>
        obtain ⟨A, s, hs, h3, h4⟩ := h
        unfold Kontroli.intro Kontroli.define
        refine TriX.bind (TriX.infer_complete hC hL n (lc := []) LCtx.Fit.nil
          ((h2 tm rfl).1 rfl n gc []) (by rwa [STerm.den_ofL])) ?_
        rintro G1 ⟨B, lc⟩ ⟨h5, h6⟩
        have hB : B.den.NoKind := by
          rcases h5.2.2.1 with hk | hk
          · exfalso
            simp only at hk
            subst hk
            exact hC.church.not_kind hL.rules (h3.sort_level hC hL (by simp)) h6.symm
          · exact hk
        refine TriX.bind (TriX.toLTerm_complete hC hL hB) ?_
        intro G2 l _
        exact TriX.pure fun c hc => by cases hc
      | some ty =>
        obtain ⟨k1, k2⟩ := given (h1 ty rfl) ((h2 tm rfl).2 rfl) h.1 h.2
        unfold Kontroli.intro Kontroli.define
        refine TriX.bind k1 fun G1 r _ => TriX.pure ?_
        rintro c ⟨⟩
        exact k2
  | theorem_ ty tm =>
    obtain ⟨k1, k2⟩ := given (h1 ty rfl) ((h2 tm rfl).2 rfl) h.1 h.2
    unfold Kontroli.intro Kontroli.theorem_
    refine TriX.bind k1 fun G1 r _ => TriX.pure ?_
    rintro c ⟨⟩
    exact k2

/-- annotated rules that are right are accepted, and so are their checks -/
theorem TriX.rewrite_complete (n : Nat) {r : TRule} (hctx : ∀ A ∈ r.ctx, A.den.Small) (hw : gc.eta = true → WfCtx gc.theory (denCtx r.ctx)) (h1 : r.lhs.InfFine) (h2 : r.rhs.ChkFine)
    (h : ∃ A s, IsSort s ∧ Strict gc.theory (denCtx r.ctx) A s ∧ Strict gc.theory (denCtx r.ctx) r.lhs.den A ∧
      Strict gc.theory (denCtx r.ctx) r.rhs.den A) :
    TriX gc G q (rewrite n gc r) (fun c => ∀ n G q, TriX gc G q (Check.check n gc c) (fun _ => True) (fun _ => False))
      (fun _ => False) := by
  obtain ⟨A, s, hs, h3, h4, h5⟩ := h
  have hsm : LCtx.Small (lctxOf r.ctx) := by
    intro e he
    unfold lctxOf at he
    rw [List.mem_reverse] at he
    obtain ⟨t, ht, rfl⟩ := List.mem_map.1 he
    rw [STerm.den_ofL]
    exact hctx t ht
  have hlc : LCtx.Fit gc (lctxOf r.ctx) := ⟨hsm, by rwa [lctxOf_den]⟩
  have hlc' := hlc.1.den
  rw [lctxOf_den] at hlc'
  unfold Kontroli.rewrite
  refine TriX.bind (TriX.infer_complete hC hL n hlc (h1 n gc _) (by rwa [STerm.den_ofL, lctxOf_den])) ?_
  rintro G1 ⟨B, lc⟩ ⟨h6, h7⟩
  have hk : ¬ gc.theory.Conv B.den .kind := fun hc =>
    hC.church.not_kind hL.rules (h3.sort_level hC hL hlc') (h7.symm.trans hc)
  have hB : B.den.NoKind := by
    rcases h6.2.2.1 with hk' | hk'
    · exfalso
      simp only at hk'
      subst hk'
      exact hk (.refl _)
    · exact hk'
  refine TriX.bind (TriX.toLTerm_complete hC hL hB) ?_
  intro G2 l hl
  refine TriX.pure fun n G q => ?_
  refine TriX.checkCheck_complete hC hL n hlc h2 ⟨?_, ?_⟩ ?_
  · rw [hl.1]
    rcases h6.2.1.kindish_level hL.theory hC.church hlc.1.den with h | h
    · exact h
    · simp only at h
      rw [h] at hB
      exact hB.elim
  · intro he
    rw [hl.1]
    have hT := hC.wellFormed he
    rcases (h6.2.1.strict hT hC.church (hlc.2 he)).typed hT.types (hlc.2 he) with h | h
    · simp only at h
      rw [h] at hB
      exact hB.elim
    · exact h
  · rw [hl.1]
    exact .conv (h5.wellTyped hL.theory hC.church hlc') h7.symm

end

/-! ## The driver -/

/-- a computation without errors ends with a value or by lack of fuel -/
theorem TriX.value {gc : GCtx} {α : Type} {m : M α} {Φ : α → Prop} (h : TriX gc Ghost.empty 0 m Φ (fun _ => False)) (rc : Nat → Bool) :
    (∃ a, (m ⟨[], [], rc⟩).value = .ok a ∧ Φ a) ∨ (m ⟨[], [], rc⟩).value = .timeout := by
  cases hr : m ⟨[], [], rc⟩ with
  | ok r => exact .inl ⟨r.1, rfl, TriG.ok (s := r.2) h.1 hr⟩
  | err e => exact (h.2 _ (World.init _ _ rc) e hr).elim
  | panic => exact absurd hr (TriG.noPanic h.1)
  | timeout => exact .inr rfl

theorem GCtx.insert_fresh {gc : GCtx} {s : Sym} (h1 : gc.types s = none) (h2 : gc.rules s = none) (t : Typing) (rw : Bool) :
    (gc.insert s t rw).2 = .ok () := by
  unfold GCtx.insert GCtx.introType GCtx.introRules
  rw [h1]
  cases rw <;> simp [h2]

theorem addRules_fresh {gc : GCtx} {rs : List Rule} (h : ∀ r ∈ rs, (gc.rules r.lhs.symbol).isSome) : (addRules gc rs).2 = .ok () := by
  obtain ⟨pre, post, h1, -, -, -, -, h2⟩ := GCtx.addRules_effect gc rs
  rcases h2 with ⟨-, h2⟩ | ⟨r, rest, rfl, h2, -⟩
  · exact h2
  · have := h r (by rw [h1]; simp)
    rw [h2] at this
    cases this

/-- acceptance, or lack of fuel -/
def Out.Fine {α : Type} (r : Out α) : Prop := (∃ a, r = .ok a) ∨ r = .timeout

theorem Out.Fine.bind {α β : Type} {m : Out α} {f : α → Out β} (h : m.Fine) (hf : ∀ a, m = .ok a → (f a).Fine) : (m.bind f).Fine := by
  rcases h with ⟨a, h⟩ | h
  · rw [h]; exact hf a h
  · rw [h]; exact .inr rfl

section
variable {gc : GCtx} (hC : gc.Apt) (hL : gc.Levelled)
include hC hL

theorem inferCheck_complete {k : Kern} (hk : k.Exact) (opt : Opt) {cmd : Cmd} (ha : cmd.DfaFree) (hl : cmd.Levelled)
    (hw : gc.eta = true → cmd.WfCtx gc) (h : CmdStrict gc cmd) : (inferCheck k opt gc cmd).2.Fine := by
  have hchk : ∀ c, (∀ n G q, TriX gc G q (Check.check n gc c) (fun _ => True) (fun _ => False)) →
      (if opt.omits .check then Out.ok () else (k.check gc c).out).Fine := by
    intro c hc
    split
    · exact .inl ⟨_, rfl⟩
    · obtain ⟨n, rc, hn⟩ := hk.check gc c
      rcases TriX.value (hc n _ _) rc with ⟨a, h1, -⟩ | h1
      · exact .inl ⟨a, by simp only [hn, h1]; rfl⟩
      · exact .inr (by simp only [hn, h1]; rfl)
  cases cmd with
  | intro s it =>
    obtain ⟨h1, h2, h3⟩ := h
    unfold inferCheck
    rw [inferWith]
    have hF : ((k.intro gc it).out.bind fun r => match r.2 with
      | some c => ((if opt.omits .check then Out.ok () else (k.check gc c).out)).bind fun t => .ok (r.1, t)
      | none => .ok (r.1, ())).Fine := by
      obtain ⟨n, rc, hn⟩ := hk.intro gc it
      rcases TriX.value (TriX.intro_complete hC hL n ha.1 ha.2 h3) rc with ⟨r, h4, h5⟩ | h4
      · refine Out.Fine.bind (.inl ⟨r, by simp only [hn, h4]; rfl⟩) ?_
        intro r' hr'
        simp only [hn, h4, Res.out] at hr'
        cases hr'
        cases hc : r.2 with
        | none => exact .inl ⟨_, rfl⟩
        | some c => exact Out.Fine.bind (hchk c (h5 c hc)) fun a _ => .inl ⟨_, rfl⟩
      · refine Out.Fine.bind (.inr (by simp only [hn, h4]; rfl)) ?_
        intro r' hr'
        simp only [hn, h4, Res.out] at hr'
        cases hr'
    split
    · refine .inl ⟨(), ?_⟩
      show Out.bind (gctxOut (gc.insert s _ _).2) _ = _
      rw [GCtx.insert_fresh h1 h2]
      rfl
    · next e heq => rcases hF with ⟨a, hF⟩ | hF <;> cases heq.symm.trans hF
    · next heq => rcases hF with ⟨a, hF⟩ | hF <;> cases heq.symm.trans hF
    · exact .inr rfl
  | rules rs =>
    unfold inferCheck inferWith
    have hF : ∀ rs' : List Rule, (∀ r ∈ rs', r ∈ rs) →
        (rewriteAll k (fun _ c gc => if opt.omits .check then .ok () else (k.check gc c).out) gc rs' ()).Fine := by
      intro rs'
      induction rs' with
      | nil => intro _; exact .inl ⟨_, rfl⟩
      | cons r rs' ih =>
        intro hsub
        have hr := hsub r List.mem_cons_self
        have ih' := ih fun r hr => hsub r (List.mem_cons_of_mem _ hr)
        unfold rewriteAll
        cases ht : r.toT with
        | none => exact ih'
        | some t =>
          obtain ⟨a1, a2⟩ := Rule.toT_annotated ht
          have hs := (h r hr).2 t ht
          rw [← a2] at hs
          obtain ⟨n, rc, hn⟩ := hk.rewrite gc t
          rcases TriX.value (TriX.rewrite_complete hC hL n ((hl r hr).1 t ht) (fun he => hw he r hr t ht) (LTerm.InfFine.annotated a1) (by rw [a2]; exact ha r hr) hs) rc
            with ⟨c, h4, h5⟩ | h4
          · refine Out.Fine.bind (.inl ⟨c, by simp only [hn, h4]; rfl⟩) ?_
            intro c' hc'
            simp only [hn, h4, Res.out] at hc'
            cases hc'
            exact Out.Fine.bind (hchk c h5) fun a _ => ih'
          · refine Out.Fine.bind (.inr (by simp only [hn, h4]; rfl)) ?_
            intro c' hc'
            simp only [hn, h4, Res.out] at hc'
            cases hc'
    rcases hF rs (fun _ h => h) with ⟨u, hF⟩ | hF
    · simp only [hF]
      refine .inl ⟨(), ?_⟩
      rw [addRules_fresh fun r hr => (h r hr).1]
      rfl
    · simp only [hF]
      exact .inr rfl

/-! ## Levels are kept -/

/-- inferred types that are kinds are written as kinds -/
theorem Tri.define_kindForm {G : Ghost} {q : ℚ} (n : Nat) (tm : LTerm) :
    TriG gc G q (define n gc none tm) (fun r => r.1.ty.den.IsKind → r.1.ty.KindForm) := by
  unfold Kontroli.define
  refine Tri.bind ((iopsRef hC hL n).inf G q [] (STerm.ofL tm) LCtx.Fit.nil).1 ?_
  intro G1 r _ hr
  unfold Kontroli.toLTerm
  cases hl : STerm.toL r.1 with
  | none => exact Tri.bind (Φ := fun _ _ => False) Tri.throw fun _ _ _ h => h.elim
  | some l =>
    refine Tri.bind (Φ := fun _ l' => l' = l) (Tri.pure rfl) ?_
    rintro G2 l' _ rfl
    refine Tri.pure fun hk => ?_
    exact (hr.2.2.2 (by rw [← STerm.toL_den hl]; exact hk)).toL hl

theorem inferCheck_levelled {k : Kern} (hk : k.Real) {opt : Opt} (ho : opt.omits .check = false) {gc' : GCtx} {cmd : Cmd}
    (hl : cmd.Levelled) (h : inferCheck k opt gc cmd = (gc', .ok ())) : gc'.Levelled := by
  cases cmd with
  | intro s it =>
    obtain ⟨ty, chk, h1, h2, h3⟩ := inferWith_intro_ok h
    obtain ⟨n, rc, st, h4⟩ := hk.intro _ _ _ h1
    have h5 : ∀ c, chk = some c → k.check gc c = .ok () := by
      rintro c rfl
      simp only [ho, Bool.false_eq_true, if_false] at h2
      exact Res.out_ok.1 h2
    obtain ⟨h6, h7, rfl⟩ := GCtx.insert_ok h3
    have hp := TriG.ok (Tri.intro n it) h4
    have hnil : ∀ B ∈ ([] : List Tm), B.Small := by simp
    have hty : ty.ty.den.Small ∨ (ty.ty.den.IsKind ∧ ty.ty.KindForm) := by
      cases hg : it.given with
      | some A =>
        have hA : ty.ty = A := by
          apply hp.given
          cases it with
          | declaration inj ty' => cases hg; cases inj <;> simp
          | definition oty otm => cases hg; exact .inr (.inr (.inl ⟨_, rfl⟩))
          | theorem_ ty' tm => cases hg; exact .inr (.inr (.inr ⟨_, rfl⟩))
        have hI : ∃ B, Inf gc.theory [] A.den B := by
          rcases hp.ty with ⟨B, hB⟩ | ⟨tm, rfl, -⟩
          · exact ⟨B, by rw [← hA]; exact hB⟩
          · cases hg
        obtain ⟨B, hB⟩ := hI
        rw [hA]
        rcases Inf.level hL.theory hC.church hB hnil with h | h
        · exact .inl h.1
        · exact .inr ⟨h.1, hl A hg h.1⟩
      | none =>
        cases it with
        | declaration inj ty' => cases hg
        | theorem_ ty' tm => cases hg
        | definition oty otm =>
          cases hg
          cases otm with
          | none => cases h4
          | some tm =>
            have hB := hp.infd tm rfl
            have hkf := TriG.ok (Tri.define_kindForm hC hL n tm) h4
            rcases Inf.level hL.theory hC.church hB hnil with h | h
            · exact h.2.imp id fun h => ⟨h, hkf h⟩
            · have := LTerm.noKind ty.ty
              rw [h.2] at this
              exact this.elim
    have hbody : ∀ tm, ty.tm = some tm → tm.den.Small := by
      intro tm htm
      rw [hp.tm] at htm
      cases it with
      | declaration inj ty' => cases htm
      | theorem_ ty' tm => cases htm
      | definition oty otm =>
        simp only at htm
        subst htm
        cases oty with
        | none =>
          rcases Inf.level hL.theory hC.church (hp.infd tm rfl) hnil with h | h
          · exact h.1
          · have := LTerm.noKind ty.ty
            rw [h.2] at this
            exact this.elim
        | some ty' =>
          have hc := hp.chk
          simp only at hc
          obtain ⟨n', rc', s', h9⟩ := hk.check _ _ (h5 _ hc)
          have h10 := TriG.ok (Tri.checkCheck n' _) h9
          have hA : ty.ty = ty' := hp.given ty' (.inr (.inr (.inl ⟨_, rfl⟩)))
          rw [hA] at hty
          exact Chk.level hL.theory hC.church h10 hnil (hty.imp id And.left)
    refine ⟨?_, ?_⟩
    · intro c t ht
      simp only [mapInsert] at ht
      split at ht
      · cases ht; exact hty
      · exact hL.types c t ht
    · intro c rs r hrs hr
      simp only at hrs
      split at hrs
      · simp only [mapInsert] at hrs
        split at hrs
        · cases hrs
          cases htm : ty.tm with
          | none => rw [htm] at hr; simp [GCtx.initRules] at hr
          | some tm =>
            rw [htm] at hr
            simp only [GCtx.initRules, List.mem_singleton] at hr
            subst hr
            exact hbody tm htm
        · exact hL.rules c rs r hrs hr
      · exact hL.rules c rs r hrs hr
  | rules rs =>
    obtain ⟨h1, h2⟩ := inferWith_rules_ok h
    simp only [ho, Bool.false_eq_true, if_false] at h1
    obtain ⟨e1, e2, e3, -⟩ := GCtx.addRules_ok h2
    have hrs : ∀ rs' : List Rule, (∀ r ∈ rs', r ∈ rs) →
        rewriteAll k (fun _ c gc => (k.check gc c).out) gc rs' () = .ok () → ∀ r ∈ rs', r.rhs.den.Small := by
      intro rs'
      induction rs' with
      | nil => simp
      | cons r rs' ih =>
        intro hsub h1
        have ih' := ih fun r hr => hsub r (List.mem_cons_of_mem _ hr)
        have hr := hsub r List.mem_cons_self
        rw [rewriteAll] at h1
        cases ht : r.toT with
        | none =>
          rw [ht] at h1
          intro r' hr'
          rcases List.mem_cons.1 hr' with rfl | hr'
          · exact (hl r' hr).2 ht
          · exact ih' h1 r' hr'
        | some t =>
          rw [ht] at h1
          simp only [Out.bind_ok, Res.out_ok] at h1
          obtain ⟨c, h4, _, h5, h6⟩ := h1
          intro r' hr'
          rcases List.mem_cons.1 hr' with rfl | hr'
          · obtain ⟨n, rc, s, h7⟩ := hk.rewrite _ _ _ h4
            obtain ⟨n', rc', s', h8⟩ := hk.check _ _ h5
            have h9 := TriG.ok (Tri.rewrite n t) h7
            have h10 := TriG.ok (Tri.checkCheck n' c) h8
            obtain ⟨g1, g2, g3⟩ := h9
            rw [g1, g2] at h10
            have hctx : ∀ B ∈ denCtx t.ctx, B.Small := by
              intro B hB
              unfold denCtx at hB
              rw [List.mem_reverse] at hB
              obtain ⟨A, hA, rfl⟩ := List.mem_map.1 hB
              exact (hl r' hr).1 t ht A hA
            rw [(Rule.toT_annotated ht).2] at h10
            refine Chk.level hL.theory hC.church h10 hctx ?_
            rcases g3.kindish_level hL.theory hC.church hctx with h | h
            · exact h
            · have := LTerm.noKind c.ty
              rw [h] at this
              exact this.elim
          · exact ih' h6 r' hr'
    refine ⟨?_, ?_⟩
    · intro c t ht
      rw [e1] at ht
      exact hL.types c t ht
    · intro c rs' r hrs' hr
      rw [e3] at hrs'
      simp only [Option.map_eq_some_iff] at hrs'
      obtain ⟨l, h6, rfl⟩ := hrs'
      rcases List.mem_append.1 hr with hr | hr
      · exact hL.rules c l r h6 hr
      · simp only [GCtx.rulesOf, List.mem_filter, decide_eq_true_eq] at hr
        exact hrs rs (fun _ h => h) h1 r hr.1

end

end Kontroli
