import Verif.Proofs.Strict
import Verif.Proofs.Driver

/-!
# Rules whose sides have a common type preserve types
-/

namespace Kontroli

variable {T : Theory}

/-! ## Patterns as terms -/

theorem Pattern.toLList_cons {p : Pattern} {ps : List Pattern} {ls : List LTerm} (h : Pattern.toLList (p :: ps) = some ls) :
    ∃ l ls', ls = l :: ls' ∧ p.toL = some l ∧ Pattern.toLList ps = some ls' := by
  rw [Pattern.toLList] at h
  split at h
  · cases h
  · next l hl =>
    split at h
    · cases h
    · next ls' hls => cases h; exact ⟨l, ls', rfl, hl, hls⟩

theorem Pattern.toL_symb {s : Sym} {ps : List Pattern} {l : LTerm} (h : (Pattern.symb s ps).toL = some l) :
    ∃ ls, Pattern.toLList ps = some ls ∧ l.den = Tm.apps (.const s) (LTerm.denList ls) := by
  rw [Pattern.toL, Option.map_eq_some_iff] at h
  obtain ⟨ls, h1, rfl⟩ := h
  exact ⟨ls, h1, rfl⟩

mutual
  theorem PBind.conv_sub {R : RuleMap} {eta : Bool} {σ : Nat → Tm} {p : Pattern} {t : Tm} {bs : List (Nat × Tm)} (h : PBind p t bs)
      (hσ : ∀ b ∈ bs, Conv R eta b.2 (σ b.1)) {l : LTerm} (hl : p.toL = some l) : Conv R eta (l.den.sub σ) t :=
    match h with
    | .mvar m t => by
      cases hl
      exact (hσ (m, t) (by simp)).symm
    | .joker t => by cases hl
    | .symb hs => by
      obtain ⟨ls, h1, h2⟩ := Pattern.toL_symb hl
      rw [h2, Tm.apps_sub]
      exact Conv.apps (.refl _) (PBinds.conv_sub hs hσ h1)
  theorem PBinds.conv_sub {R : RuleMap} {eta : Bool} {σ : Nat → Tm} {ps : List Pattern} {ts : List Tm} {bs : List (Nat × Tm)} (h : PBinds ps ts bs)
      (hσ : ∀ b ∈ bs, Conv R eta b.2 (σ b.1)) {ls : List LTerm} (hl : Pattern.toLList ps = some ls) :
      List.Forall₂ (Conv R eta) ((LTerm.denList ls).map (·.sub σ)) ts :=
    match h with
    | .nil => by
      cases hl
      exact .nil
    | .cons hp hps => by
      obtain ⟨l, ls', rfl, h1, h2⟩ := Pattern.toLList_cons hl
      exact .cons (PBind.conv_sub hp (fun b hb => hσ b (List.mem_append_left _ hb)) h1)
        (PBinds.conv_sub hps (fun b hb => hσ b (List.mem_append_right _ hb)) h2)
end

/-- the head of a typable application is typable -/
theorem Strict.apps_head {Γ : List Tm} {f C : Tm} {ts : List Tm} (h : Strict T Γ (Tm.apps f ts) C) : ∃ D, Strict T Γ f D := by
  induction ts generalizing f with
  | nil => exact ⟨C, h⟩
  | cons t ts ih =>
    obtain ⟨D, h1⟩ := ih (f := .app f t) h
    obtain ⟨A, B, h2, _⟩ := h1.gen
    exact ⟨_, h2⟩

section
variable (hT : T.Sorted) (cr : T.Church)
include hT cr

/-- an occurrence of a variable, with a type that is convertible with the type of the variable -/
def OccTyped (T : Theory) (Δ Γ : List Tm) (σ : Nat → Tm) (b : Nat × Tm) : Prop :=
  ∃ X Y, Δ[b.1]? = some Y ∧ Strict T Γ b.2 X ∧ T.Conv X ((Y.shift (b.1 + 1)).sub σ)

/-- types of two heads correspond -/
def HeadConv (T : Theory) (Δ Γ : List Tm) (σ : Nat → Tm) (f f' : Tm) : Prop :=
  ∀ C D, Strict T Δ f C → Strict T Γ f' D → T.Conv (C.sub σ) D

theorem HeadConv.const {Δ Γ : List Tm} {σ : Nat → Tm} (s : Sym) : HeadConv T Δ Γ σ (.const s) (.const s) := by
  intro C D h1 h2
  obtain ⟨A, ha, h3, _⟩ := h1.gen
  obtain ⟨A', ha', h4, _⟩ := h2.gen
  rw [ha] at ha'
  cases ha'
  have h5 := Kontroli.Conv.sub h3 σ
  rw [(hT.closed s A ha).sub_eq] at h5
  exact h5.symm.trans h4

omit hT in
theorem HeadConv.app {Δ Γ : List Tm} {σ : Nat → Tm} {f f' a a' : Tm} (h : HeadConv T Δ Γ σ f f') (ha : T.Conv (a.sub σ) a') :
    HeadConv T Δ Γ σ (.app f a) (.app f' a') := by
  intro C D h1 h2
  obtain ⟨A, B, k1, _, k2, _⟩ := h1.gen
  obtain ⟨A', B', k3, _, k4, _⟩ := h2.gen
  have h3 := h _ _ k1 k3
  obtain ⟨c1, c2⟩ := cr.pi h3
  have h4 := Kontroli.Conv.sub k2 σ
  rw [Tm.inst_sub] at h4
  have h5 : T.Conv ((B.sub (Tm.up σ)).inst (a.sub σ)) (B'.inst a') :=
    (Kontroli.Conv.sub c2 _).trans (Kontroli.Conv.sub_congr B' (by
      intro n
      cases n with
      | zero => exact ha
      | succ n => exact .refl _))
  exact h4.symm.trans (h5.trans k4)

omit hT in
theorem HeadConv.arg {Δ Γ : List Tm} {σ : Nat → Tm} {f f' a a' C D : Tm} (h : HeadConv T Δ Γ σ f f') (h1 : Strict T Δ (.app f a) C)
    (h2 : Strict T Γ (.app f' a') D) : ∃ A A', Strict T Δ a A ∧ Strict T Γ a' A' ∧ T.Conv (A.sub σ) A' := by
  obtain ⟨A, B, k1, k5, _⟩ := h1.gen
  obtain ⟨A', B', k3, k6, _⟩ := h2.gen
  have h3 := h _ _ k1 k3
  obtain ⟨c1, c2⟩ := cr.pi h3
  exact ⟨A, A', k5, k6, c1⟩

mutual
  theorem PBind.occTyped {Δ Γ : List Tm} {σ : Nat → Tm} {p : Pattern} {t : Tm} {bs : List (Nat × Tm)} (h : PBind p t bs)
      (hσ : ∀ b ∈ bs, T.Conv b.2 (σ b.1)) {l : LTerm} (hl : p.toL = some l) {C D : Tm} (h1 : Strict T Δ l.den C)
      (h2 : Strict T Γ t D) (hc : T.Conv (C.sub σ) D) : ∀ b ∈ bs, OccTyped T Δ Γ σ b :=
    match h with
    | .mvar m t => by
      cases hl
      intro b hb
      simp only [List.mem_singleton] at hb
      subst hb
      obtain ⟨Y, hY, h3, _⟩ := h1.gen
      exact ⟨D, Y, hY, h2, hc.symm.trans (Kontroli.Conv.sub h3 σ).symm⟩
    | .joker t => by cases hl
    | .symb (s := s) hs => by
      obtain ⟨ls, h3, h4⟩ := Pattern.toL_symb hl
      rw [h4] at h1
      exact (PBinds.occTyped hs hσ h3 (HeadConv.const hT cr s) h1 h2).1
  theorem PBinds.occTyped {Δ Γ : List Tm} {σ : Nat → Tm} {ps : List Pattern} {ts : List Tm} {bs : List (Nat × Tm)} (h : PBinds ps ts bs)
      (hσ : ∀ b ∈ bs, T.Conv b.2 (σ b.1)) {ls : List LTerm} (hl : Pattern.toLList ps = some ls) {f f' C D : Tm} (hh : HeadConv T Δ Γ σ f f')
      (h1 : Strict T Δ (Tm.apps f (LTerm.denList ls)) C) (h2 : Strict T Γ (Tm.apps f' ts) D) :
      (∀ b ∈ bs, OccTyped T Δ Γ σ b) ∧ T.Conv (C.sub σ) D :=
    match h with
    | .nil => by
      cases hl
      exact ⟨by simp, hh _ _ h1 h2⟩
    | .cons hp hps => by
      obtain ⟨l, ls', rfl, h3, h4⟩ := Pattern.toLList_cons hl
      have hσ1 := fun b hb => hσ b (List.mem_append_left _ hb)
      have hσ2 := fun b hb => hσ b (List.mem_append_right _ hb)
      have h1' : Strict T Δ (Tm.apps (.app f l.den) (LTerm.denList ls')) C := h1
      obtain ⟨_, k1⟩ := h1'.apps_head
      have h2' : Strict T Γ (Tm.apps (.app f' _) _) D := h2
      obtain ⟨_, k2⟩ := h2'.apps_head
      obtain ⟨A, A', k3, k4, k5⟩ := hh.arg cr k1 k2
      have g1 := PBind.occTyped hp hσ1 h3 k3 k4 k5
      obtain ⟨g2, g3⟩ := PBinds.occTyped hps hσ2 h4 (hh.app cr (PBind.conv_sub hp hσ1 h3)) h1' h2'
      refine ⟨?_, g3⟩
      intro b hb
      rcases List.mem_append.1 hb with hb | hb
      · exact g1 b hb
      · exact g2 b hb
end

omit hT cr in
theorem WfCtx.drop {Γ : List Tm} (h : WfCtx T Γ) {n : Nat} {A : Tm} (hA : Γ[n]? = some A) : Strict T (Γ.drop (n + 1)) A .type := by
  induction h generalizing n with
  | nil => simp at hA
  | cons h hB ih =>
    cases n with
    | zero =>
      simp only [List.getElem?_cons_zero, Option.some.injEq] at hA
      subst hA
      exact hB
    | succ n => exact ih (by simpa using hA)

omit hT cr in
theorem Tm.shift_sub (t : Tm) (n : Nat) (σ : Nat → Tm) : (t.shift n).sub σ = t.sub fun k => σ (k + n) := by
  rw [Tm.shift, Tm.ren_sub]

omit cr in
/-- a substitution that is typed up to conversion is typed -/
theorem WfCtx.subst {Δ Γ : List Tm} {σ : Nat → Tm} (hΔ : WfCtx T Δ)
    (h : ∀ m Y, Δ[m]? = some Y → ∃ X, Strict T Γ (σ m) X ∧ T.Conv X ((Y.shift (m + 1)).sub σ)) :
    ∀ m Y, Δ[m]? = some Y → Strict T Γ (σ m) ((Y.shift (m + 1)).sub σ) := by
  have key : ∀ k m Y, Δ.length - m ≤ k → Δ[m]? = some Y → Strict T Γ (σ m) ((Y.shift (m + 1)).sub σ) := by
    intro k
    induction k with
    | zero =>
      intro m Y hk hY
      have := (List.getElem?_eq_some_iff.1 hY).1
      omega
    | succ k ih =>
      intro m Y hk hY
      obtain ⟨X, h1, h2⟩ := h m Y hY
      have hm := (List.getElem?_eq_some_iff.1 hY).1
      refine .conv h1 h2 ?_ .type
      rw [Tm.shift_sub]
      refine (hΔ.drop hY).sub hT.closed (A := .type) ?_
      intro j B hB
      rw [List.getElem?_drop] at hB
      have h3 := ih (m + 1 + j) B (by omega) hB
      rw [Tm.shift_sub] at h3 ⊢
      have e : (fun k => σ (k + (m + 1 + j + 1))) = fun k => σ (k + (j + 1) + (m + 1)) := by
        funext k
        congr 1
        omega
      rw [e] at h3
      have e2 : m + 1 + j = j + (m + 1) := by omega
      rw [e2] at h3
      exact h3
  exact fun m Y => key _ m Y (Nat.le_refl _)

omit hT cr in
theorem annotations_length {ctx : List (Str × Option LTerm)} {l : List LTerm} (h : annotations ctx = some l) : l.length = ctx.length := by
  induction ctx generalizing l with
  | nil => cases h; rfl
  | cons c ctx ih =>
    obtain ⟨x, _ | ty⟩ := c
    · cases h
    · rw [annotations, Option.map_eq_some_iff] at h
      obtain ⟨l', h1, rfl⟩ := h
      simp [ih h1]

theorem RuleTyped.preserves {r : Rule} (hr : RuleTyped T r) : RulePreserves T r.lhs.symbol r := by
  obtain ⟨t, ht, hΔ, A, hl, hrhs⟩ := hr
  intro Γ σ ts bs D hΓ hs hb hsol hv hD
  unfold Rule.toT at ht
  split at ht
  · cases ht
  next ctx hctx =>
  split at ht
  · cases ht
  next lhs hlhs =>
  cases ht
  have hlen := annotations_length hctx
  obtain ⟨ls, h1, h2⟩ := Pattern.toL_symb hlhs
  simp only at hl hrhs hΔ
  rw [h2] at hl
  obtain ⟨h3, h4⟩ := PBinds.occTyped hT cr hb hsol.2 h1 (HeadConv.const hT cr _) hl hD
  have h5 := hΔ.subst hT (Γ := Γ) (σ := σ) (by
    intro m Y hY
    have hm : m < r.ctx.length := by
      have := (List.getElem?_eq_some_iff.1 hY).1
      simpa [hlen] using this
    have hmem : m ∈ bs.map Prod.fst := by
      rw [hb.vars]
      exact (hs m).2 hm
    obtain ⟨u, hu⟩ := lookup_isSome hmem
    obtain ⟨X, Y', k1, k2, k3⟩ := h3 _ (mem_of_lookup hu)
    simp only at k1 k2 k3
    rw [hY] at k1
    cases k1
    rw [hsol.1 m u hu]
    exact ⟨X, k2, k3⟩)
  have h6 := hrhs.sub hT.closed h5
  rcases hD.typed hT hΓ with rfl | ⟨s, hs, h7⟩
  · exfalso
    rcases hD.kind_inv hT rfl hΓ with h | ⟨A, D, h, _⟩
    · have := (Tm.apps_inj (h := .const _) (h' := .type) (ts' := []) (fun _ _ h => nomatch h) (fun _ _ h => nomatch h) h).1
      cases this
    · have := (Tm.apps_inj (h := .const _) (h' := .pi A D) (ts' := []) (fun _ _ h => nomatch h) (fun _ _ h => nomatch h) h).1
      cases this
  · exact .conv h6 h4 h7 hs

/-- Theories whose rules are typed, or else preserve types, are well-formed. -/
theorem Theory.Sorted.wellFormed (hr : ∀ s rs r, T.rules s = some rs → r ∈ rs → r.lhs.symbol = s ∧ (RuleTyped T r ∨ RulePreserves T s r)) :
    T.WellFormed := by
  refine ⟨hT, ?_⟩
  intro s rs r h1 h2
  obtain ⟨h3, h4 | h4⟩ := hr s rs r h1 h2
  · subst h3
    exact h4.preserves hT cr
  · exact h4

end

/-! ## More constants and rules -/

theorem Strict.mono {T' : Theory} (h : T.Le T') {Γ : List Tm} {t A : Tm} (ht : Strict T Γ t A) : Strict T' Γ t A := by
  induction ht with
  | type => exact .type
  | const hc => exact .const (h.ty _ _ hc)
  | var hv => exact .var hv
  | app _ _ ih1 ih2 => exact .app ih1 ih2
  | lam _ _ _ hs ih1 ih2 ih3 => exact .lam ih1 ih2 ih3 hs
  | dlam _ _ _ hs ih1 ih2 ih3 => exact .dlam ih1 ih2 ih3 hs
  | pi _ _ hs ih1 ih2 => exact .pi ih1 ih2 hs
  | conv _ hc _ hs ih1 ih2 => exact .conv ih1 (h.conv hc) ih2 hs

theorem WfCtx.mono {T' : Theory} (h : T.Le T') {Γ : List Tm} (hΓ : WfCtx T Γ) : WfCtx T' Γ := by
  induction hΓ with
  | nil => exact .nil
  | cons _ hA ih => exact ih.cons (hA.mono h)

theorem RuleTyped.mono {T' : Theory} (h : T.Le T') {r : Rule} (hr : RuleTyped T r) : RuleTyped T' r := by
  obtain ⟨t, ht, hΔ, A, h1, h2⟩ := hr
  exact ⟨t, ht, hΔ.mono h, A, h1.mono h, h2.mono h⟩

/-! ## Soundness of the bidirectional system -/

section
variable (hT : T.WellFormed) (cr : T.Church)
include hT cr

/-- typable terms with a type convertible with a sort have a sort -/
theorem Strict.sort_of_conv_sort {Γ : List Tm} {A X s : Tm} (hA : Strict T Γ A X) (hs : IsSort s) (hc : T.Conv X s) (hΓ : WfCtx T Γ) :
    Strict T Γ A s := by
  cases hs with
  | type => exact .conv hA hc .type .kind
  | kind =>
    rcases hA.typed hT.types hΓ with rfl | ⟨s, _, h⟩
    · exact hA
    · exact absurd hc (h.sort_not_kind hT cr hΓ)

/-- a typable term that reduces to a product has a sort -/
theorem Strict.pi_sort {Γ : List Tm} {C A B X : Tm} (hC : Strict T Γ C X) (hr : Red T.rules T.eta C (.pi A B)) (hΓ : WfCtx T Γ) :
    ∃ s, IsSort s ∧ Strict T Γ C s ∧ Strict T Γ (.pi A B) s ∧ Strict T Γ A .type ∧ Strict T (A :: Γ) B s := by
  have hra : RedA T.rules C (.pi A B) := cr.toA hr
  have h1 := Strict.red hT cr hra hC hΓ
  obtain ⟨s, hs, h2, h3, h4, _⟩ := h1.gen
  have h5 := hC.sort_of_conv_sort hT cr hs h4.symm hΓ
  exact ⟨s, hs, h5, Strict.red hT cr hra h5 hΓ, h2, h3⟩

mutual
  theorem Inf.strict : ∀ {Γ : List Tm} {t A : Tm}, Inf T Γ t A → WfCtx T Γ → Strict T Γ t A
    | _, _, _, .type, _ => .type
    | _, _, _, .const h, _ => .const h
    | _, _, _, .var h, _ => .var h
    | _, _, _, .app (f := f) (a := a) (C := C) (A := A) (B := B) h hr h', hΓ => by
      have h1 := Inf.strict h hΓ
      rcases h1.typed hT.types hΓ with rfl | ⟨s, hs, h2⟩
      · exact absurd (hr.of_kind rfl) (by simp)
      · obtain ⟨s', hs', _, h3, h4, h5⟩ := h2.pi_sort hT cr hr hΓ
        exact .app (.conv h1 hr.conv h3 hs') (Chk.strict h' hΓ h4).2
    | _, _, _, .lam h h' hn, hΓ => by
      have h1 := Inf.strict h hΓ
      have h2 := Inf.strict h' (hΓ.cons h1)
      obtain ⟨s, hs, h3⟩ := (h2.typed hT.types (hΓ.cons h1)).resolve_left hn
      exact .lam h1 h2 h3 hs
    | _, _, _, .pi h h' hs, hΓ => by
      have h1 := Inf.strict h hΓ
      exact .pi h1 (Inf.strict h' (hΓ.cons h1)) hs
  /-- a type against which a term is checked only has to be typable -/
  theorem Chk.strict : ∀ {Γ : List Tm} {t A X : Tm}, Chk T Γ t A → WfCtx T Γ → Strict T Γ A X → (∃ s, IsSort s ∧ Strict T Γ A s) ∧ Strict T Γ t A
    | _, _, _, _, .dlam hr h, hΓ, hC => by
      obtain ⟨s, hs, h2, h3, h4, h5⟩ := hC.pi_sort hT cr hr hΓ
      exact ⟨⟨s, hs, h2⟩, .conv (.dlam h4 (Chk.strict h (hΓ.cons h4) h5).2 h5 hs) hr.conv.symm h2 hs⟩
    | _, _, _, _, .lam hr h' hc h, hΓ, hC => by
      obtain ⟨s, hs, h2, h3, h4, h5⟩ := hC.pi_sort hT cr hr hΓ
      have h6 := (Chk.strict h (hΓ.cons h4) h5).2
      have h7 := h4.type_of_conv cr hT (Inf.strict h' hΓ) hc.symm hΓ
      have h8 := h6.ctx_conv hT.types.closed hc h4 .type
      have h9 := h5.ctx_conv hT.types.closed hc h4 .type
      exact ⟨⟨s, hs, h2⟩, .conv (.lam h7 h8 h9 hs) ((Kontroli.Conv.pi hc (.refl _)).trans hr.conv.symm) h2 hs⟩
    | _, _, _, _, .conv h hc, hΓ, hC => by
      have h1 := Inf.strict h hΓ
      rcases h1.typed hT.types hΓ with rfl | ⟨s, hs, h2⟩
      · exact absurd hc.symm (hC.sort_not_kind hT cr hΓ)
      · have h3 := h2.sort_of_conv cr hT hs hC hc hΓ
        exact ⟨⟨s, hs, h3⟩, .conv h1 hc h3 hs⟩
end

end

theorem WfCtx.noKind {Γ : List Tm} (h : WfCtx T Γ) : ∀ A ∈ Γ, A.NoKind := by
  induction h with
  | nil => simp
  | cons _ hA ih => simpa using ⟨hA.noKind, ih⟩

end Kontroli
