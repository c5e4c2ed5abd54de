import Verif.Proofs.Reducible
import Verif.Proofs.StaticProgram
import Verif.Proofs.StrictDriver

/-!
# Typed terms are strongly normalising without rewrite rules
-/

namespace Kontroli

/-! ## Sessions make well-formed theories -/

theorem Theory.declare_le {T : Theory} {s : Sym} (hs : T.ty s = none) (hd : T.rules s = none) (A : Tm) (rs : Option (List Rule)) :
    T.Le (T.declare s A rs) where
  ty c B h := by
    simp only [Theory.declare]
    split
    · next e => subst e; rw [hs] at h; cases h
    · exact h
  rules c l h := by
    refine ⟨l, ?_, fun _ h => h⟩
    simp only [Theory.declare]
    split
    · next e => subst e; rw [hd] at h; cases h
    · exact h
  eta := rfl

theorem Theory.extend_le (T : Theory) (rs : List Rule) : T.Le (T.extend rs) where
  ty _ _ h := h
  rules c l h := ⟨_, by simp only [Theory.extend, h, Option.map_some]; rfl, fun _ h => List.mem_append_left _ h⟩
  eta := rfl

theorem Introduces.rules {T : Theory} {s : Sym} {it : Intro LTerm} {A : Tm} {l : List Rule} (h : Introduces T s it A (some l)) :
    l = [] ∨ ∃ tm : LTerm, l = [⟨[], ⟨s, []⟩, tm⟩] ∧ Strict T [] tm.den A := by
  cases h with
  | injective => exact .inl rfl
  | definable => exact .inl rfl
  | defined _ h => exact .inr ⟨_, rfl, h⟩
  | inferred _ h => exact .inr ⟨_, rfl, h⟩

theorem SessionIn.sorted {eta : Bool} {cmds : List Cmd} {T : Theory} (h : SessionIn eta cmds T) : T.Sorted := by
  induction h with
  | nil => intro c A h; cases h
  | @intro cmds T s it A rs hS hs hI ih =>
    have hle := Theory.declare_le hs (hS.dom s hs) A rs
    intro c B hB
    simp only [Theory.declare] at hB
    split at hB
    · cases hB
      obtain ⟨s', hs', h⟩ := hI.strict.2
      exact ⟨s', hs', h.mono hle⟩
    · obtain ⟨s', hs', h⟩ := ih c B hB
      exact ⟨s', hs', h.mono hle⟩
  | @rules cmds T rs hS hr ih =>
    intro c B hB
    obtain ⟨s', hs', h⟩ := ih c B hB
    exact ⟨s', hs', h.mono (T.extend_le rs)⟩

theorem SessionIn.typed {eta : Bool} {cmds : List Cmd} {T : Theory} (h : SessionIn eta cmds T) {s : Sym} {l : List Rule} {r : Rule} (hl : T.rules s = some l) (hr : r ∈ l) :
    r.lhs.symbol = s ∧ RuleTyped T r := by
  induction h generalizing s l r with
  | nil => cases hl
  | @intro cmds T s' it A rs hS hs hI ih =>
    have hle := Theory.declare_le hs (hS.dom s' hs) A rs
    simp only [Theory.declare] at hl
    split at hl
    · next e =>
      subst e; subst hl
      rcases hI.rules with rfl | ⟨tm, rfl, h⟩
      · cases hr
      · rw [List.mem_singleton] at hr
        subst hr
        refine ⟨rfl, ⟨[], .comb (.appl (.const s) []), tm⟩, rfl, .nil, A, Strict.const (c := s) (by simp [Theory.declare]), h.mono hle⟩
    · exact ⟨(ih hl hr).1, (ih hl hr).2.mono hle⟩
  | @rules cmds T rs hS h ih =>
    simp only [Theory.extend, Option.map_eq_some_iff] at hl
    obtain ⟨l, h1, rfl⟩ := hl
    rcases List.mem_append.1 hr with hr | hr
    · exact ⟨(ih h1 hr).1, (ih h1 hr).2.mono (T.extend_le rs)⟩
    · have h2 := List.mem_filter.1 hr
      refine ⟨by simpa using h2.2, ?_⟩
      obtain ⟨Γ, l', u, hc, hw, A, s', -, -, h3, h4⟩ := (h r h2.1).2
      obtain ⟨t, ht, rfl, rfl, rfl⟩ := Rule.consists_iff.1 hc
      exact RuleTyped.mono (T.extend_le rs) ⟨t, ht, hw, A, h3, h4⟩

theorem SessionIn.wellFormedIn {eta : Bool} {cmds : List Cmd} {T : Theory} (h : SessionIn eta cmds T) (cr : T.Church) : T.WellFormed :=
  Theory.Sorted.wellFormed h.sorted cr fun _ _ _ hl hr => ⟨(h.typed hl hr).1, .inl (h.typed hl hr).2⟩

theorem SessionIn.wellFormed {cmds : List Cmd} {T : Theory} (h : Session cmds T) (cr : Confluent T.rules) : T.WellFormed :=
  h.wellFormedIn (.plain h.eta cr)

/-! ## Constants are reducible -/

theorem Strict.simple_congr {T : Theory} {κ κ' : Sym → Ty} (hκ : ∀ c, T.ty c ≠ none → κ c = κ' c) {Γ : List Tm} {t A : Tm} (h : Strict T Γ t A) :
    t.simple κ = t.simple κ' := by
  induction h with
  | const h => exact hκ _ (by rw [h]; nofun)
  | app _ _ ih _ => exact ih
  | lam _ _ _ _ _ ih _ => exact ih
  | dlam _ _ _ _ _ ih _ => exact ih
  | pi _ _ _ ih1 ih2 => simp only [Tm.simple, ih1, ih2]
  | conv _ _ _ _ ih _ => exact ih
  | _ => rfl

/-- a constant to which no rule applies is reducible -/
theorem Rc.const {R : RuleMap} {eta : Bool} {s : Sym} {t : Ty} (h : ∀ rs r, R s = some rs → r ∈ rs → r.lhs.args = [] ∧ Rc R eta t r.rhs.den)
    (hR : ∀ rs r, R s = some rs → r ∈ rs → r.rhs.den.FreeBelow 0) : Rc R eta t (.const s) := by
  refine Rc.neutral ⟨nofun, nofun, ?_⟩ fun u hu => ?_
  · intro s' ts rs r e hr hm
    obtain ⟨rfl, rfl⟩ := Tm.apps_const_inj (as := []) e
    simp [(h rs r hr hm).1]
  · generalize e : Tm.const s = x at hu
    cases hu with
    | @rule s' rs r σ ts bs h1 h2 h3 h4 h5 h6 =>
      obtain ⟨rfl, rfl⟩ := Tm.apps_const_inj (as := []) e
      rw [(hR rs r h1 h2).sub_eq]
      exact (h rs r h1 h2).2
    | _ => cases e

theorem Fits.static {T : Theory} {κ : Sym → Ty}
    (hst : ∀ s rs, T.rules s = some rs → rs = [] ∨ ∃ tm : LTerm, rs = [⟨[], ⟨s, []⟩, tm⟩] ∧ tm.den.FreeBelow 0)
    (h1 : ∀ c A, T.ty c = some A → Strict T [] A .type → κ c = .base)
    (h2 : ∀ s rs r, T.rules s = some rs → r ∈ rs → r.rhs.den.simple κ = κ s) : Fits T κ := by
  refine ⟨h1, fun s rs r hr hm => .inl ⟨?_, h2 s rs r hr hm⟩⟩
  rcases hst s rs hr with rfl | ⟨tm, rfl, h0⟩
  · cases hm
  · rw [List.mem_singleton.1 hm]; exact h0

/-- the meta-theory applies if all rules unfold definitions -/
theorem SessionIn.church {eta : Bool} {cmds : List Cmd} {T : Theory} (h : SessionIn eta cmds T)
    (hst : ∀ s rs, T.rules s = some rs → rs = [] ∨ ∃ tm : LTerm, rs = [⟨[], ⟨s, []⟩, tm⟩] ∧ tm.den.FreeBelow 0) : T.Church := by
  cases he : T.eta with
  | false => exact .plain he (Orthogonal.static hst).confluent
  | true =>
    refine .eta he (Definitional.static hst) ?_
    rintro s d ⟨rs, r, h1, -⟩
    cases hA : T.ty s with
    | none => rw [h.dom s hA] at h1; cases h1
    | some A => exact ⟨A, rfl⟩

/-- without rewrite rules, there are simple types for the constants such that all constants are reducible -/
theorem SessionIn.static {eta : Bool} {cmds : List Cmd} {T : Theory} (h : SessionIn eta cmds T) (hn : ∀ rs, .rules rs ∉ cmds) :
    (∀ s rs, T.rules s = some rs → rs = [] ∨ ∃ tm : LTerm, rs = [⟨[], ⟨s, []⟩, tm⟩] ∧ tm.den.FreeBelow 0) ∧ ∃ κ, (∀ c A, T.ty c = some A → Strict T [] A .type → κ c = .base) ∧
      (∀ s rs r, T.rules s = some rs → r ∈ rs → r.rhs.den.simple κ = κ s) ∧
      ∀ R eta, ClosedRules R → (∀ c, T.ty c ≠ none → R c = T.rules c) → ∀ c A, T.ty c = some A → Rc R eta (A.simple κ) (.const c) := by
  induction h with
  | nil => exact ⟨nofun, fun _ => .base, nofun, nofun, fun _ _ _ _ _ _ h => by cases h⟩
  | @rules _ _ rs => exact absurd (by simp) (hn rs)
  | @intro cmds T s it A rs hS hs hI ih =>
    obtain ⟨hst, κ, hκo, hκr, hrc⟩ := ih fun rs h => hn rs (List.mem_append_left _ h)
    have hκ := Fits.static hst hκo hκr
    have hle := Theory.declare_le hs (hS.dom s hs) A rs
    have hS' := hS.intro hs hI
    have hst' : ∀ s' l, (T.declare s A rs).rules s' = some l → l = [] ∨ ∃ tm : LTerm, l = [⟨[], ⟨s', []⟩, tm⟩] ∧ tm.den.FreeBelow 0 := by
      intro s' l hl
      simp only [Theory.declare] at hl
      split at hl
      · next e =>
        subst e; subst hl
        exact hI.rules.imp_right fun ⟨tm, h1, h2⟩ => ⟨tm, h1, h2.freeBelow⟩
      · exact hst s' l hl
    have cr := hS.church hst
    have cr' := hS'.church hst'
    have hT := hS.wellFormedIn cr
    have hT' := hS'.wellFormedIn cr'
    refine ⟨hst', ?_⟩
    let k : Ty := match rs with
      | some [r] => r.rhs.den.simple κ
      | _ => .base
    let κ' : Sym → Ty := fun c => if c = s then k else κ c
    have hcc : ∀ c, T.ty c ≠ none → κ c = κ' c := by
      intro c hc
      simp only [κ']
      split
      · next e => subst e; exact absurd hs hc
      · rfl
    -- types in the old theory that have type `Type` in the new one
    have down : ∀ {B : Tm}, T.IsType B → Strict (T.declare s A rs) [] B .type → Strict T [] B .type := by
      rintro B ⟨s', hs', hB⟩ h
      cases hs' with
      | type => exact hB
      | kind =>
        obtain ⟨n, hn⟩ := (hB.mono hle).kind_kl cr' hT' rfl .nil
        exact (hn.not_type cr' hT' h .nil).elim
    refine ⟨κ', ?_, ?_, ?_⟩
    · intro c B hB h
      simp only [Theory.declare] at hB
      split at hB
      · next e =>
        subst e; cases hB
        simp only [κ', if_true, k]
        match rs, hI with
        | none, _ => rfl
        | some l, hI =>
          rcases hI.rules with rfl | ⟨tm, rfl, ht⟩
          · rfl
          · exact ht.simple_base hT cr hκ.obj .nil (down hI.strict.2 h)
      · rw [← hcc c (by rw [hB]; nofun)]
        exact hκ.obj c B hB (down (hT.types c B hB) h)
    · intro s' l r hl hr
      have hl0 := hl
      simp only [Theory.declare] at hl
      split at hl
      · next e =>
        subst e; subst hl
        rcases hI.rules with rfl | ⟨tm, rfl, ht⟩
        · cases hr
        · rw [List.mem_singleton] at hr
          subst hr
          rw [← ht.simple_congr hcc]
          simp [κ', k]
      · next e =>
        rcases hst s' l hl with rfl | ⟨tm, rfl, h0⟩
        · cases hr
        · rw [List.mem_singleton] at hr
          subst hr
          have hty : T.ty s' ≠ none := fun h => by rw [hS.dom s' h] at hl; cases hl
          obtain ⟨-, t, ht, -, B, -, h2⟩ := hS.typed hl (List.mem_singleton.2 rfl)
          rw [← h2.simple_congr hcc, ← hcc s' hty]
          exact hκr s' _ _ hl (List.mem_singleton.2 rfl)
    · intro R eta hR ha c B hB
      have hrc' := hrc R eta hR fun c hc => by
        rw [ha c (by obtain ⟨B, hB⟩ := Option.ne_none_iff_exists'.1 hc; rw [hle.ty c B hB]; nofun)]
        simp only [Theory.declare]
        split
        · next e => subst e; exact absurd hs hc
        · rfl
      simp only [Theory.declare] at hB
      split at hB
      · next e =>
        subst e; cases hB
        obtain ⟨s', hs', hA⟩ := hI.strict.2
        rw [← hA.simple_congr hcc]
        have hRs : R c = rs := by rw [ha c (by simp [Theory.declare])]; simp [Theory.declare]
        refine Rc.const ?_ ?_
        · intro l r hl hr
          rw [hRs] at hl
          subst hl
          rcases hI.rules with rfl | ⟨tm, rfl, ht⟩
          · cases hr
          · rw [List.mem_singleton] at hr
            subst hr
            refine ⟨rfl, ?_⟩
            have := ht.reducible hT cr hκ hR hrc' .nil (σ := .var) nofun
            rwa [Tm.sub_var] at this
        · intro l r hl hr
          rw [hRs] at hl
          subst hl
          rcases hI.rules with rfl | ⟨tm, rfl, ht⟩
          · cases hr
          · rw [List.mem_singleton] at hr
            subst hr
            exact ht.freeBelow
      · obtain ⟨s', hs', h⟩ := hT.types c B hB
        rw [← h.simple_congr hcc]
        exact hrc' c B hB

/-- Without rewrite rules, typed terms are strongly normalising. -/
theorem SessionIn.normalising {eta : Bool} {cmds : List Cmd} {T : Theory} (h : SessionIn eta cmds T) (hn : ∀ rs, .rules rs ∉ cmds) : T.Normalising := by
  obtain ⟨hst, κ, hκo, hκr, hrc⟩ := h.static hn
  have hκ := Fits.static hst hκo hκr
  have ho := Orthogonal.static hst
  exact Theory.normalising (h.wellFormedIn (h.church hst)) (h.church hst) hκ ho.closed (hrc _ _ ho.closed fun _ _ => rfl)

end Kontroli
