import Verif.Spec.Logic
import Verif.Proofs.Reading
import Verif.Proofs.Arith
import Verif.Proofs.Overlap
import Verif.Proofs.StaticNormal
import Verif.Proofs.Structural
import Verif.Proofs.Known

/-! # What is proved in `fo_imp.dk` is provable -/

namespace Kontroli

/-! ## Minimal logic -/

theorem Proves.weaken {Γ Δ : Set Fml} {φ : Fml} (h : Proves Γ φ) (hs : Γ ⊆ Δ) : Proves Δ φ := by
  induction h generalizing Δ with
  | hyp h => exact .hyp (hs h)
  | intro _ ih => exact .intro (ih (Set.insert_subset_insert hs))
  | elim _ _ ih1 ih2 => exact .elim (ih1 hs) (ih2 hs)

theorem Proves.imp_iff {Γ : Set Fml} {φ ψ : Fml} : Proves Γ (.imp φ ψ) ↔ ∀ Δ, Γ ≤ Δ → Proves Δ φ → Proves Δ ψ := by
  constructor
  · exact fun h Δ hs h' => .elim (h.weaken hs) h'
  · exact fun h => .intro (h _ (Set.subset_insert _ _) (.hyp (Set.mem_insert _ _)))

/-- put formulas for the atoms -/
def Fml.sub (τ : Nat → Fml) : Fml → Fml
  | .atom i => τ i
  | .imp φ ψ => .imp (φ.sub τ) (ψ.sub τ)

theorem Fml.sub_atom (φ : Fml) : φ.sub .atom = φ := by
  induction φ with
  | atom i => rfl
  | imp φ ψ ih1 ih2 => simp only [Fml.sub, ih1, ih2]

theorem Proves.sub {Γ : Set Fml} {φ : Fml} (h : Proves Γ φ) (τ : Nat → Fml) : Proves (Fml.sub τ '' Γ) (φ.sub τ) := by
  induction h with
  | hyp h => exact .hyp (Set.mem_image_of_mem _ h)
  | intro _ ih =>
    rw [Set.image_insert_eq] at ih
    exact .intro ih
  | elim _ _ ih1 ih2 => exact .elim ih1 ih2

/-! ## The rules of `fo_imp.dk` -/

/-- the rules of `fo_imp.dk` -/
abbrev foR : RuleMap := rulesOfCmds foCmds

theorem foR_orthogonal : Orthogonal foR := orthogonal_sound (by decide +kernel)

theorem foR_confluent : Confluent foR := foR_orthogonal.confluent

theorem foR_inv {s : Sym} {rs : List Rule} {r : Rule} (h : foR s = some rs) (hr : r ∈ rs) : s = 2 ∧ r = foRule := by
  have e : foR = fun c => if c = 2 then some [foRule] else none := by
    funext c
    show (Option.map _ (if c = 2 then _ else if c = 1 then _ else if c = 0 then _ else _)) = _
    by_cases h2 : c = 2
    · subst h2; rfl
    · rw [if_neg h2, if_neg h2]
      by_cases h1 : c = 1
      · subst h1; rfl
      · rw [if_neg h1]
        by_cases h0 : c = 0
        · subst h0; rfl
        · rw [if_neg h0]; rfl
  rw [e] at h
  simp only at h
  split at h
  · next h2 =>
    cases h
    exact ⟨h2, List.mem_singleton.1 hr⟩
  · cases h

/-- the terms of `fo_imp.dk` that do not reduce, as far as they are needed -/
inductive FoStill : Tm → Prop
  | prop : FoStill (.const 0)
  | prf : FoStill (.const 2)
  | var {i : Nat} : FoStill (.var i)
  | type : FoStill .type
  | kind : FoStill .kind
  | holds {i : Nat} : FoStill (.app (.const 2) (.var i))

theorem FoStill.red {t u : Tm} (ht : FoStill t) (h : RedA foR t u) : u = t := by
  induction h with
  | refl t => rfl
  | trans _ _ ih1 ih2 =>
    have := ih1 ht
    subst this
    exact ih2 ht
  | app _ _ ih1 ih2 =>
    cases ht with
    | holds => rw [ih1 .prf, ih2 .var]
  | lam => cases ht
  | dlam => cases ht
  | annot => cases ht
  | pi => cases ht
  | beta => cases ht
  | @rule s rs r σ ts bs h1 h2 _ h4 _ _ =>
    obtain ⟨rfl, rfl⟩ := foR_inv h1 h2
    exfalso
    cases h4 with
    | @cons _ t _ ts _ bs hb hbs =>
      cases hbs
      cases hb with
      | symb hb =>
        cases hb with
        | cons _ hb =>
          cases hb with
          | cons _ hb => cases hb; cases ht

theorem FoStill.eq {t u : Tm} (ht : FoStill t) (hu : FoStill u) (h : Conv foR false t u) : t = u := by
  obtain ⟨v, h1, h2⟩ := foR_confluent t u h
  rw [← ht.red h1, hu.red h2]

theorem FoStill.notPi {t A C : Tm} (ht : FoStill t) : ¬ Conv foR false t (.pi A C) := by
  intro h
  obtain ⟨v, h1, h2⟩ := foR_confluent _ _ h
  obtain ⟨_, _, e, _⟩ := h2.pi_inv
  rw [ht.red h1] at e
  cases ht <;> cases e

theorem foRule_of : foRule.Of foR := ⟨_, rfl, List.mem_singleton.2 rfl⟩

theorem prf_imp (x y : Tm) : Conv foR false (.app (.const 2) (.app (.app (.const 1) x) y)) (.pi (.app (.const 2) x) ((Tm.app (.const 2) y).shift 1)) := by
  let σ : Nat → Tm := fun n => match n with
    | 0 => y
    | 1 => x
    | n => .var n
  refine foRule_of.conv ?_ σ (ts := [.app (.app (.const 1) x) y]) (.cons (.symb (ts := [x, y]) (.cons (.mvar 1) (.cons (.mvar 0) .nil))) .nil) rfl rfl
  intro m
  show m ∈ [1, 0] ↔ m < 2
  simp only [List.mem_cons, List.not_mem_nil, or_false]
  omega

/-! ## Reading the types of `fo_imp.dk` -/

/-- propositions are formulas, and what proves an atom is anything, where the atom is provable from the world -/
def foBase (A : Tm) (P : Sem (Set Fml)) : Prop :=
  (Conv foR false A (.const 0) ∧ P = fun _ t => ∃ φ : Fml, Conv foR false t φ.tm) ∨
    ∃ i, Conv foR false A (.app (.const 2) (.var i)) ∧ P = fun w _ => Proves w (.atom i)

/-- theories made of `fo_imp.dk` and of theorems with provable formulas -/
structure FoTheory (T : Theory) : Prop where
  eta : T.eta = false
  rules : T.rules = foR
  prop : T.ty 0 = some .type
  imp : T.ty 1 = some (.pi (.const 0) (.pi (.const 0) (.const 0)))
  prf : T.ty 2 = some (.pi (.const 0) .type)
  thms : ∀ c A, T.ty c = some A → c ≠ 0 → c ≠ 1 → c ≠ 2 → ∃ n φ, A = foStatement φ n ∧ Proves ∅ φ

section
variable {T : Theory} (hT : FoTheory T)
include hT

theorem FoTheory.conv_iff {t u : Tm} : T.Conv t u ↔ Conv foR false t u := by
  unfold Theory.Conv
  rw [hT.eta, hT.rules]

theorem FoTheory.church : T.Church := .plain hT.eta (hT.rules ▸ foR_confluent)

theorem FoTheory.basis : Basis T foBase where
  conv := by
    intro A A' P h hc
    rw [hT.conv_iff] at hc
    rcases h with ⟨h, rfl⟩ | ⟨i, h, rfl⟩
    · exact .inl ⟨.trans (.symm hc) h, rfl⟩
    · exact .inr ⟨i, .trans (.symm hc) h, rfl⟩
  unique := by
    rintro A P P' (⟨h, rfl⟩ | ⟨i, h, rfl⟩) (⟨h', rfl⟩ | ⟨j, h', rfl⟩)
    · rfl
    · cases FoStill.prop.eq .holds (.trans (.symm h) h')
    · cases FoStill.prop.eq .holds (.trans (.symm h') h)
    · cases FoStill.holds.eq .holds (.trans (.symm h) h')
      rfl
  notPi := by
    intro A P A₁ A₂ h hc
    rw [hT.conv_iff] at hc
    rcases h with ⟨h, rfl⟩ | ⟨i, h, rfl⟩
    · exact FoStill.prop.notPi (.trans (.symm h) hc)
    · exact FoStill.holds.notPi (.trans (.symm h) hc)
  later := by
    rintro A P w w' t (⟨h, rfl⟩ | ⟨i, h, rfl⟩) hw ht
    · exact ht
    · exact Proves.weaken ht hw
  elems := by
    intro A P w t t' h hc ht
    rw [hT.conv_iff] at hc
    rcases h with ⟨h, rfl⟩ | ⟨i, h, rfl⟩
    · exact ht.imp fun φ h => .trans (.symm hc) h
    · exact ht

omit hT in
theorem foBase.still {A : Tm} {P : Sem (Set Fml)} (h : foBase A P) : ∃ u, Conv foR false A u ∧ FoStill u ∧ u ≠ .type ∧ u ≠ .kind := by
  rcases h with ⟨h, rfl⟩ | ⟨i, h, rfl⟩
  · exact ⟨_, h, .prop, by simp, by simp⟩
  · exact ⟨_, h, .holds, by simp, by simp⟩

theorem FoTheory.reads_prop : Reads T foBase (.const 0) fun _ t => ∃ φ : Fml, Conv foR false t φ.tm := .base (.inl ⟨.refl _, rfl⟩)

/-- what proves a formula is anything, where the formula is provable -/
theorem FoTheory.reads_prf (φ : Fml) : Reads T foBase (.app (.const 2) φ.tm) fun w _ => Proves w φ := by
  induction φ with
  | atom i => exact .base (.inr ⟨i, .refl _, rfl⟩)
  | imp φ ψ ih1 ih2 =>
    have h := Reads.pi (T := T) (Q := fun _ w _ => Proves w ψ) (hT.conv_iff.2 (prf_imp φ.tm ψ.tm)) ih1 fun w a _ => by
      rw [Tm.shift, Tm.ren_inst]
      exact ih2
    have e : (fun w _ => Proves w (.imp φ ψ)) = fun w (_ : Tm) => ∀ w', w ≤ w' → ∀ _ : Tm, Proves w' φ → Proves w' ψ := by
      funext w f
      exact propext (Proves.imp_iff.trans ⟨fun h w' hw _ => h w' hw, fun h w' hw => h w' hw (.const 0)⟩)
    rw [e]
    exact h

omit hT in
theorem Fml.conv_sub {σ : Nat → Tm} {τ : Nat → Fml} (hσ : ∀ i, Conv foR false (σ i) (τ i).tm) (φ : Fml) : Conv foR false (φ.tm.sub σ) (φ.sub τ).tm := by
  induction φ with
  | atom i => exact hσ i
  | imp φ ψ ih1 ih2 => exact .app (.app (.refl _) ih1) ih2

/-- statements are read as sets that have all terms or none, and if they have any, then the formula is provable, whatever formulas are put for its atoms -/
theorem FoTheory.reads_statement (φ : Fml) (n : Nat) {σ : Nat → Tm} {τ : Nat → Fml} (hσ : ∀ i, Conv foR false (σ i) (τ i).tm) :
    ∃ Q, Reads T foBase ((foStatement φ n).sub σ) Q ∧ (Proves ∅ φ → ∀ w t, Q w t) ∧
      ∀ w t, Q w t → ∀ τ' : Nat → Fml, (∀ i, τ' (i + n) = τ i) → Proves w (φ.sub τ') := by
  induction n generalizing σ τ with
  | zero =>
    refine ⟨_, (hT.reads_prf (φ.sub τ)).conv hT.basis (hT.conv_iff.2 (.symm (.app (.refl _) (φ.conv_sub hσ)))), fun h w _ => ?_, fun w t h τ' e => ?_⟩
    · exact ((h.sub τ).weaken (by simp) : Proves w (φ.sub τ))
    · rw [show τ' = τ from funext e]
      exact h
  | succ n ih =>
    have key : ∀ a, ∃ Q, ∀ ψ : Fml, Conv foR false a ψ.tm → Reads T foBase (((foStatement φ n).sub (Tm.up σ)).inst a) Q ∧ (Proves ∅ φ → ∀ w t, Q w t) ∧
        ∀ w t, Q w t → ∀ τ' : Nat → Fml, τ' n = ψ → (∀ i, τ' (i + 1 + n) = τ i) → Proves w (φ.sub τ') := by
      intro a
      by_cases h : ∃ ψ : Fml, Conv foR false a ψ.tm
      · obtain ⟨ψ, h⟩ := h
        have ext : ∀ ψ : Fml, Conv foR false a ψ.tm → ∀ i, Conv foR false (Tm.ext a σ i) (Nat.rec ψ (fun i _ => τ i) i : Fml).tm := by
          intro ψ h i
          cases i with
          | zero => exact h
          | succ i => exact hσ i
        obtain ⟨Q, h1, h2, -⟩ := ih (ext ψ h)
        refine ⟨Q, fun ψ' h' => ⟨?_, h2, fun w t hq τ' e1 e2 => ?_⟩⟩
        · rw [Tm.sub_up_inst]
          exact h1
        · obtain ⟨Q', h3, -, h4⟩ := ih (ext ψ' h')
          rw [h1.unique hT.basis hT.church h3] at hq
          refine h4 w t hq τ' fun i => ?_
          cases i with
          | zero => rw [Nat.zero_add]; exact e1
          | succ i => exact e2 i
      · exact ⟨fun _ _ => True, fun ψ h' => absurd ⟨ψ, h'⟩ h⟩
    choose Q hQ using key
    refine ⟨_, .pi (Q := Q) (.refl _) hT.reads_prop fun w a ⟨ψ, h⟩ => (hQ a ψ h).1, fun h w t w' hw a ⟨ψ, ha⟩ => (hQ a ψ ha).2.1 h _ _, fun w t h τ' e => ?_⟩
    refine (hQ (τ' n).tm (τ' n) (.refl _)).2.2 w _ (h w le_rfl _ ⟨_, .refl _⟩) τ' rfl fun i => ?_
    rw [Nat.add_assoc, Nat.add_comm 1 n]
    exact e i

theorem FoTheory.reading (hS : T.Sorted) : Reading T foBase where
  basis := hT.basis
  small := by
    intro A P h
    obtain ⟨u, h1, h2, h3, h4⟩ := h.still
    rw [hT.conv_iff, hT.conv_iff]
    exact ⟨fun h => h3 (h2.eq .type (.trans (.symm h1) h)), fun h => h4 (h2.eq .kind (.trans (.symm h1) h))⟩
  consts := by
    intro w c A hc
    by_cases h0 : c = 0
    · subst h0
      rw [hT.prop] at hc
      cases hc
      exact ⟨_, .base (.inl (.inr ⟨.refl _, rfl⟩)), _, hT.reads_prop⟩
    by_cases h1 : c = 1
    · subst h1
      rw [hT.imp] at hc
      cases hc
      have hp := hT.reads_prop
      have hq := Reads.pi (A₂ := .const 0) (Q := fun _ => _) (.refl _) hp fun _ _ _ => hp
      have hr := Reads.pi (A₂ := .pi (.const 0) (.const 0)) (Q := fun _ => _) (.refl _) hp fun _ _ _ => hq
      refine ⟨_, hr.toTypes.toKinds, ?_⟩
      exact fun _ _ a ⟨φ, ha⟩ _ _ b ⟨ψ, hb⟩ => ⟨.imp φ ψ, .app (.app (.refl _) ha) hb⟩
    by_cases h2 : c = 2
    · subst h2
      rw [hT.prf] at hc
      cases hc
      refine ⟨_, .pi (Q := fun _ => _) (.refl _) hT.reads_prop.toTypes.toKinds fun _ _ _ => .base (.inl (.inr ⟨.refl _, rfl⟩)), ?_⟩
      exact fun _ _ a ⟨φ, ha⟩ => ⟨_, (hT.reads_prf φ).conv hT.basis (hT.conv_iff.2 (.app (.refl _) (.symm ha)))⟩
    obtain ⟨n, φ, rfl, hp⟩ := hT.thms c A hc h0 h1 h2
    obtain ⟨Q, k1, k2, -⟩ := hT.reads_statement φ n (σ := .var) (τ := .atom) fun i => .refl _
    rw [(hS.closed _ _ hc).sub_eq] at k1
    exact ⟨Q, k1.toTypes.toKinds, k2 hp _ _⟩

/-- what has a proof is provable -/
theorem FoTheory.sound (hS : T.Sorted) {n : Nat} {φ : Fml} {t : Tm} (h : Strict T [] t (foStatement φ n)) : Proves ∅ φ := by
  have hM := hT.reading hS
  obtain ⟨P, h1, h2⟩ := h.belongs hM hT.church hS (w := (∅ : Set Fml)) (σ := fun i => .var (i + n)) (fun n A hn => by cases hn)
  obtain ⟨Q, k1, -, k2⟩ := hT.reads_statement φ n (σ := fun i => .var (i + n)) (τ := fun i => .atom (i + n)) fun i => .refl _
  rw [h1.unique (hM.kindsBasis hT.church) hT.church k1.toTypes.toKinds] at h2
  have := k2 _ _ h2 .atom fun i => rfl
  rwa [Fml.sub_atom] at this

end

/-! ## Sessions -/

theorem SessionIn.snoc_inv {eta : Bool} {cs : List Cmd} {T : Theory} (h : SessionIn eta cs T) {cmds : List Cmd} {c : Cmd} (e : cs = cmds ++ [c]) :
    (∃ s it A rs T₀, c = .intro s it ∧ SessionIn eta cmds T₀ ∧ T₀.ty s = none ∧ Introduces T₀ s it A rs ∧ T = T₀.declare s A rs) ∨
      ∃ rs T₀, c = .rules rs ∧ SessionIn eta cmds T₀ ∧ (∀ r ∈ rs, (T₀.rules r.lhs.symbol).isSome ∧ RuleRight T₀ r) ∧ T = T₀.extend rs := by
  cases h with
  | nil => simp at e
  | intro h h1 h2 =>
    obtain ⟨e1, e2⟩ := List.append_inj' e rfl
    subst e1
    cases e2
    exact .inl ⟨_, _, _, _, _, rfl, h, h1, h2, rfl⟩
  | rules h h1 =>
    obtain ⟨e1, e2⟩ := List.append_inj' e rfl
    subst e1
    cases e2
    exact .inr ⟨_, _, rfl, h, h1, rfl⟩

theorem foCmds_theory {T : Theory} (h : Session foCmds T) : FoTheory T := by
  have h0 : T.ty 0 = some .type := h.declaredType (b := false) (ty := .type) (List.mem_cons_self ..)
  have h1 : T.ty 1 = some (.pi (.const 0) (.pi (.const 0) (.const 0))) :=
    h.declaredType (b := false) (ty := .arrow (.const 0) (.arrow (.const 0) (.const 0))) (by simp [foCmds])
  have h2 : T.ty 2 = some (.pi (.const 0) .type) := by
    obtain ⟨_, _, _, _, _, e, -⟩ | ⟨rs, T₀, -, h', -, rfl⟩ := h.snoc_inv (cmds := foCmds.take 3) rfl
    · cases e
    · obtain ⟨_, _, _, _, _, e, -, -, h2, rfl⟩ | ⟨rs, T₀, e, -⟩ := h'.snoc_inv (cmds := foCmds.take 2) rfl
      · cases e
        cases h2
        rfl
      · cases e
  refine ⟨h.eta, h.rulesEq, h0, h1, h2, fun c A hc n0 n1 n2 => ?_⟩
  obtain ⟨it, hi⟩ := h.ty_introduced hc
  simp [foCmds, n0, n1, n2] at hi

/-- theorems after `fo_imp.dk` -/
theorem fo_session {more : List Cmd} (hm : ∀ c ∈ more, ∃ n φ, c.States n φ) {T : Theory} (h : Session (foCmds ++ more) T) :
    FoTheory T ∧ ∀ c ∈ more, ∀ n φ, c.States n φ → Proves ∅ φ := by
  induction more using List.reverseRecOn generalizing T with
  | nil =>
    rw [List.append_nil] at h
    exact ⟨foCmds_theory h, fun c hc => by cases hc⟩
  | append_singleton more c ih =>
    obtain ⟨n, φ, s, A, t, rfl, hA⟩ := hm c (by simp)
    rw [← List.append_assoc] at h
    obtain ⟨_, _, _, _, T₀, e, h', h1, h2, rfl⟩ | ⟨rs, T₀, e, -⟩ := h.snoc_inv rfl
    · cases e
      obtain ⟨hT, hp⟩ := ih (fun c hc => hm c (by simp [hc])) h'
      cases h2 with
      | proved h3 h4 =>
        have key : ∀ n φ, A.den = foStatement φ n → Proves ∅ φ := by
          intro n φ hA
          rw [hA] at h4
          exact hT.sound h'.sorted h4
        constructor
        · have ne : ∀ {c A}, T₀.ty c = some A → c ≠ s := by
            rintro c A h e
            rw [e, h1] at h
            cases h
          refine ⟨hT.eta, ?_, ?_, ?_, ?_, ?_⟩
          · show (fun c => if c = s then none else T₀.rules c) = foR
            rw [← hT.rules]
            funext c
            split
            · next e => rw [e, h'.dom s h1]
            · rfl
          · exact (if_neg (ne hT.prop)).trans hT.prop
          · exact (if_neg (ne hT.imp)).trans hT.imp
          · exact (if_neg (ne hT.prf)).trans hT.prf
          · intro c A' hc n0 n1 n2
            simp only [Theory.declare] at hc
            split at hc
            · cases hc
              exact ⟨n, φ, hA, key n φ hA⟩
            · exact hT.thms c A' hc n0 n1 n2
        · intro c hc n' φ' hst
          rcases List.mem_append.1 hc with hc | hc
          · exact hp c hc n' φ' hst
          · cases List.mem_singleton.1 hc
            obtain ⟨s', A', t', e, hA'⟩ := hst
            cases e
            exact key n' φ' hA'
    · cases e

/-- acceptance after `fo_imp.dk` -/
theorem fo_rulesOf {more : List Cmd} (hm : ∀ c ∈ more, ∃ n φ, c.States n φ) (s : Sym) : rulesOfCmds (foCmds ++ more) s = none ∨ rulesOfCmds (foCmds ++ more) s = foR s := by
  induction more using List.reverseRecOn with
  | nil => exact .inr (by rw [List.append_nil])
  | append_singleton more c ih =>
    obtain ⟨n, φ, s', A, t, rfl, hA⟩ := hm c (by simp)
    rw [← List.append_assoc, rulesOfCmds_snoc]
    simp only
    split
    · exact .inl rfl
    · exact ih fun c hc => hm c (by simp [hc])

theorem fo_orthogonal {more : List Cmd} (hm : ∀ c ∈ more, ∃ n φ, c.States n φ) : Orthogonal (rulesOfCmds (foCmds ++ more)) := by
  refine Amenable.sub (eta := false) (fun s rs r h hr => ?_) foR_orthogonal
  rcases fo_rulesOf hm s with h' | h'
  · rw [h'] at h
    cases h
  · exact ⟨rs, by rw [← h', h], hr⟩

theorem fo_rules_mem {more : List Cmd} (hm : ∀ c ∈ more, ∃ n φ, c.States n φ) {i : Nat} {rs : List Rule} (h : (foCmds ++ more)[i]? = some (.rules rs)) :
    i = 3 ∧ rs = [foRule] := by
  have h4 : foCmds.length = 4 := rfl
  by_cases hi : i < 4
  · rw [List.getElem?_append_left (by omega)] at h
    have : i = 0 ∨ i = 1 ∨ i = 2 ∨ i = 3 := by omega
    rcases this with rfl | rfl | rfl | rfl <;> cases h
    exact ⟨rfl, rfl⟩
  · rw [List.getElem?_append_right (by omega)] at h
    obtain ⟨n, φ, s', A, t, e, hA⟩ := hm _ (List.mem_of_getElem? h)
    cases e

theorem foRule_full : foRule.Full := Rule.full_iff.2 rfl

theorem fo_accepted {k : Kern} (hk : k.Real) {opt : Opt} (ho : opt.omits .check = false) {more : List Cmd} (hm : ∀ c ∈ more, ∃ n φ, c.States n φ) {gc : GCtx}
    (h : seqLoop k opt (GCtx.start false) ((foCmds ++ more).map .ok) = (gc, .ok ())) : Session (foCmds ++ more) gc.theory := by
  refine (session_sound hk ho ?_ ?_ ?_ h).1
  · intro rs hrs r hr
    obtain ⟨i, hi⟩ := List.mem_iff_getElem?.1 hrs
    obtain ⟨-, rfl⟩ := fo_rules_mem hm hi
    cases List.mem_singleton.1 hr
    exact foRule_full
  · intro pre rs post T e hS r hr Γ l u hc
    obtain ⟨hl, rfl⟩ := fo_rules_mem hm (i := pre.length) (rs := rs) (by rw [e]; simp)
    cases List.mem_singleton.1 hr
    have h0 : T.ty 0 = some .type := by
      refine hS.declaredType (b := false) (ty := .type) ?_
      have e1 : pre = (foCmds ++ more).take 3 := by rw [e, ← hl]; simp
      rw [e1]
      exact List.mem_cons_self ..
    obtain ⟨tys, e1, rfl, -⟩ := hc
    have e2 : tys = [.const 0, .const 0] := by
      have := congrArg (List.map fun o => o.getD .type) e1
      simpa [foRule] using this.symm
    subst e2
    exact .cons (.cons .nil (.const h0)) (.const h0)
  · rintro pre post e gci hi
    have hO := fo_orthogonal hm
    rw [e, List.map_append, seqLoop_append, hi] at h
    rw [e, ← (seqLoop_rulesEq hk (cmds := pre ++ post) (gc' := gc) (by rw [List.map_append, seqLoop_append, hi]; exact h)).1] at hO
    refine Amenable.church ?_ (seqLoop_rulesEq hk hi).2
    rw [show gci.eta = false from seqLoop_eta hi]
    exact Amenable.grows (seqLoop_grows h) hO

/-! ## What is provable has a proof -/

theorem Fml.annotated (φ : Fml) (ρ : Nat → Nat) : (φ.tm.ren ρ).Annotated := by
  induction φ with
  | atom i => trivial
  | imp φ ψ ih1 ih2 => exact ⟨⟨trivial, ih1⟩, ih2⟩

section
variable {T : Theory} (hT : FoTheory T)
include hT

theorem FoTheory.formula (φ : Fml) {Θ : List Tm} {ρ : Nat → Nat} (hρ : ∀ i, Θ[ρ i]? = some (.const 0)) : Strict T Θ (φ.tm.ren ρ) (.const 0) := by
  induction φ with
  | atom i => exact .var (hρ i)
  | imp φ ψ ih1 ih2 => exact .app (B := .const 0) (.app (B := .pi (.const 0) (.const 0)) (.const hT.imp) ih1) ih2

theorem FoTheory.proof {Γ : Set Fml} {φ : Fml} (h : Proves Γ φ) {Θ : List Tm} {ρ : Nat → Nat} (hρ : ∀ i, Θ[ρ i]? = some (.const 0))
    (hΓ : ∀ γ ∈ Γ, ∃ (j : Nat) (A : Tm), Θ[j]? = some A ∧ A.shift (j + 1) = .app (.const 2) (γ.tm.ren ρ)) :
    ∃ t : Tm, t.Annotated ∧ Strict T Θ t (.app (.const 2) (φ.tm.ren ρ)) := by
  have hprf : ∀ {Θ : List Tm} {x : Tm}, Strict T Θ x (.const 0) → Strict T Θ (.app (.const 2) x) .type :=
    fun h => .app (B := .type) (.const hT.prf) h
  induction h generalizing Θ ρ with
  | hyp h =>
    obtain ⟨j, A, h1, h2⟩ := hΓ _ h
    exact ⟨.var j, trivial, h2 ▸ .var h1⟩
  | @intro Γ φ ψ _ ih =>
    have hφ := hT.formula φ hρ
    have hρ' : ∀ i, (Tm.app (.const 2) (φ.tm.ren ρ) :: Θ)[ρ i + 1]? = some (.const 0) := fun i => by
      rw [List.getElem?_cons_succ]
      exact hρ i
    have shift : ∀ γ : Fml, (Tm.app (.const 2) (γ.tm.ren ρ)).shift 1 = .app (.const 2) (γ.tm.ren fun i => ρ i + 1) := fun γ => by
      simp only [Tm.shift, Tm.ren, Tm.ren_ren]
    obtain ⟨t, h1, h2⟩ := ih (ρ := fun i => ρ i + 1) hρ' (by
      intro γ hγ
      rcases hγ with rfl | hγ
      · exact ⟨0, _, rfl, shift γ⟩
      · obtain ⟨j, A, k1, k2⟩ := hΓ γ hγ
        refine ⟨j + 1, A, k1, ?_⟩
        rw [← shift, ← k2, Tm.shift_shift])
    refine ⟨.lam (.app (.const 2) (φ.tm.ren ρ)) t, ?_, ?_⟩
    · exact ⟨⟨trivial, φ.annotated ρ⟩, h1⟩
    · refine .conv (.lam (hprf hφ) h2 (hprf (hT.formula ψ hρ')) .type) (hT.conv_iff.2 (.symm ?_)) (hprf (hT.formula (.imp φ ψ) hρ)) .type
      rw [← shift]
      exact prf_imp _ _
  | @elim Γ φ ψ _ _ ih1 ih2 =>
    obtain ⟨f, h1, h2⟩ := ih1 hρ hΓ
    obtain ⟨a, h3, h4⟩ := ih2 hρ hΓ
    have hφ := hT.formula φ hρ
    have hψ : Strict T (.app (.const 2) (φ.tm.ren ρ) :: Θ) ((Tm.app (.const 2) (ψ.tm.ren ρ)).shift 1) .type := by
      simp only [Tm.shift, Tm.ren, Tm.ren_ren]
      exact hprf (hT.formula ψ fun i => by rw [List.getElem?_cons_succ]; exact hρ i)
    refine ⟨.app f a, ⟨h1, h3⟩, ?_⟩
    have := Strict.app (.conv h2 (hT.conv_iff.2 (prf_imp (φ.tm.ren ρ) (ψ.tm.ren ρ))) (.pi (hprf hφ) hψ .type) .type) h4
    rwa [Tm.shift, Tm.ren_inst] at this

end

/-- abstraction of `n` propositions -/
def foAbs (t : Tm) : Nat → Tm
  | 0 => t
  | n + 1 => .lam (.const 0) (foAbs t n)

section
variable {T : Theory} (hT : FoTheory T)
include hT

theorem FoTheory.statement {φ : Fml} {m : Nat} {Θ : List Tm} (h : Strict T (List.replicate m (.const 0) ++ Θ) (.app (.const 2) φ.tm) .type) :
    Strict T Θ (foStatement φ m) .type := by
  induction m generalizing Θ with
  | zero => exact h
  | succ m ih =>
    refine .pi (.const hT.prop) (ih ?_) .type
    rw [List.replicate_succ', List.append_assoc] at h
    exact h

theorem FoTheory.abs {φ : Fml} {t : Tm} {m : Nat} {Θ : List Tm} (h' : Strict T (List.replicate m (.const 0) ++ Θ) (.app (.const 2) φ.tm) .type)
    (h : Strict T (List.replicate m (.const 0) ++ Θ) t (.app (.const 2) φ.tm)) : Strict T Θ (foAbs t m) (foStatement φ m) := by
  induction m generalizing Θ with
  | zero => exact h
  | succ m ih =>
    rw [List.replicate_succ', List.append_assoc] at h h'
    exact .lam (.const hT.prop) (ih h' h) (hT.statement h') .type

omit hT in
theorem Fml.Below.ren {n : Nat} {φ : Fml} (h : φ.Below n) {ρ : Nat → Nat} (hρ : ∀ i, i < n → ρ i = i) : φ.tm.ren ρ = φ.tm := by
  induction φ with
  | atom i => exact congrArg Tm.var (hρ i h)
  | imp φ ψ ih1 ih2 => simp only [Fml.tm, Tm.ren, ih1 h.1, ih2 h.2]

omit hT in
theorem Fml.Below.pos {n : Nat} {φ : Fml} (h : φ.Below n) : 0 < n := by
  induction φ with
  | atom i => exact Nat.zero_lt_of_lt h
  | imp φ ψ ih1 _ => exact ih1 h.1

omit hT in
theorem foAbs_annotated {t : Tm} (h : t.Annotated) (n : Nat) : (foAbs t n).Annotated := by
  induction n with
  | zero => exact h
  | succ n ih => exact ⟨trivial, ih⟩

/-- a formula that is provable has a proof -/
theorem FoTheory.complete {n : Nat} {φ : Fml} (hn : φ.Below n) (h : Proves ∅ φ) :
    Strict T [] (foStatement φ n) .type ∧ ∃ t : Tm, t.Annotated ∧ Strict T [] t (foStatement φ n) := by
  have hρ : ∀ i, (List.replicate n (Tm.const 0) ++ [])[if i < n then i else 0]? = some (.const 0) := by
    intro i
    have := hn.pos
    rw [List.append_nil, List.getElem?_replicate, if_pos]
    split <;> omega
  have e : φ.tm.ren (fun i => if i < n then i else 0) = φ.tm := hn.ren fun i hi => if_pos hi
  have h1 := hT.formula φ hρ
  obtain ⟨t, h2, h3⟩ := hT.proof h hρ (fun γ hγ => hγ.elim)
  rw [e] at h1 h3
  have h4 : Strict T (List.replicate n (.const 0) ++ []) (.app (.const 2) φ.tm) .type := .app (B := .type) (.const hT.prf) h1
  exact ⟨hT.statement h4, foAbs t n, foAbs_annotated h2 n, hT.abs h4 h3⟩

end

/-- a term of the checker -/
def Tm.toL : Tm → LTerm
  | .kind => .type
  | .type => .type
  | .const s => .const s
  | .var n => .var n
  | .app f a => .comb (.appl f.toL [a.toL])
  | .lam A b => .comb (.abst ['x'] (some A.toL) b.toL)
  | .dlam b => .comb (.abst ['x'] none b.toL)
  | .pi A B => .comb (.prod ['x'] A.toL B.toL)

theorem Tm.toL_den {t : Tm} (h : t.NoKind) : t.toL.den = t := by
  induction t with
  | kind => exact h.elim
  | type => rfl
  | const s => rfl
  | var n => rfl
  | app f a ih1 ih2 => simp only [Tm.toL, LTerm.den, LComb.den, LTerm.denList, Tm.apps, ih1 h.1, ih2 h.2]
  | lam A b ih1 ih2 => simp only [Tm.toL, LTerm.den, LComb.den, LTerm.denAbs, ih1 h.1, ih2 h.2]
  | dlam b ih => simp only [Tm.toL, LTerm.den, LComb.den, LTerm.denAbs, ih h]
  | pi A B ih1 ih2 => simp only [Tm.toL, LTerm.den, LComb.den, ih1 h.1, ih2 h.2]

theorem Tm.toL_proper (t : Tm) : t.toL.Proper := by
  induction t with
  | kind => trivial
  | type => trivial
  | const s => trivial
  | var n => trivial
  | app f a ih1 ih2 => exact ⟨ih1, ⟨ih2, trivial⟩, by simp⟩
  | lam A b ih1 ih2 => exact ⟨ih1, ih2⟩
  | dlam b ih => exact ⟨trivial, ih⟩
  | pi A B ih1 ih2 => exact ⟨ih1, ih2⟩

end Kontroli
