import Verif.Proofs.Computed
import Verif.Proofs.ArithEnds

/-! # The checks after `magic.dk` come to an end -/

namespace Kontroli

/-- The rules preserve types if they do the same as typed rules. -/
theorem Theory.wellFormed_like {T : Theory} {R : RuleMap} (he : T.eta = false) (h1 : T.rules.Sims R) (h2 : R.Sims T.rules) (cr : Confluent T.rules)
    (hS : T.Sorted) (ht : ∀ s rs r, R s = some rs → r ∈ rs → r.lhs.symbol = s ∧ RuleTyped (T.withRules R) r) : T.WellFormed := by
  have c1 : ∀ t u, T.Conv t u → (T.withRules R).Conv t u := by
    intro t u h
    unfold Theory.Conv at h ⊢
    simp only [Theory.withRules]
    rw [he] at h ⊢
    exact h.sims h1
  have c2 : ∀ t u, (T.withRules R).Conv t u → T.Conv t u := by
    intro t u h
    unfold Theory.Conv at h ⊢
    simp only [Theory.withRules] at h
    rw [he] at h ⊢
    exact h.sims h2
  have e1 : T.ty = (T.withRules R).ty := rfl
  have he' : (T.withRules R).eta = false := he
  have cr' : Confluent (T.withRules R).rules := cr.sims h1 h2
  have hS' : (T.withRules R).Sorted := fun c A hA => let ⟨s, hs, h⟩ := hS c A hA; ⟨s, hs, h.sims e1 c1⟩
  have hT' : (T.withRules R).WellFormed := hS'.wellFormed (.plain he' cr') fun s rs r hr hm => ⟨(ht s rs r hr hm).1, .inl (ht s rs r hr hm).2⟩
  refine ⟨hS, ?_⟩
  intro s rs r hr hm Γ σ ts bs A hΓ hs hb hsol hv hA
  obtain ⟨rs', r', k1, k2, k3⟩ := h1 _ _ _ hr hm
  rw [he] at hsol
  obtain ⟨σ', bs', k4, k5, k6, k7, k8⟩ := k3.binds _ _ _ _ hs hb hsol hv
  rw [← k8]
  refine Strict.sims (T := T.withRules R) e1.symm c2 ?_
  refine hT'.rules s rs' r' k1 k2 Γ σ' ts bs' A (hΓ.sims e1 c1) k4 k5 ?_ k7 (hA.sims e1 c1)
  rw [he']
  exact k6.sims h1

/-- `magic n 0 --> List n` -/
def magicRule1 : Rule := ⟨[(['n'], none)], ⟨5, [.mvar 0, .symb 1 []]⟩, .appl (.const 4) [.var 0]⟩

/-- `magic n (S i) --> A -> magic n i` -/
def magicRule2 : Rule := ⟨[(['n'], none), (['i'], none)], ⟨5, [.mvar 1, .symb 2 [.mvar 0]]⟩, .arrow (.const 3) (.appl (.const 5) [.var 2, .var 1])⟩

theorem magicR_inv {c : Sym} {rs : List Rule} {r : Rule} (h : magicR c = some rs) (hr : r ∈ rs) : c = 5 ∧ (r = magicRule1 ∨ r = magicRule2) := by
  obtain ⟨h1, h2⟩ := rulesOfCmds_mem h hr
  have : allRules magicCmds = [magicRule1, magicRule2] := rfl
  rw [this] at h1
  simp only [List.mem_cons, List.not_mem_nil, or_false] at h1
  rcases h1 with rfl | rfl
  · exact ⟨h2.symm, .inl rfl⟩
  · exact ⟨h2.symm, .inr rfl⟩

theorem magicR_closed : ClosedRules magicR := by
  intro c rs r h hr
  rcases (magicR_inv h hr).2 with rfl | rfl <;> exact Tm.freeBelow_iff.1 (by decide)

/-- constants without rules -/
theorem magic_still {c : Sym} (hc : c ≠ 5) {u : Tm} : ¬ Step magicR false (.const c) u := by
  intro h
  generalize e : Tm.const c = t at h
  cases h with
  | rule h1 h2 =>
    obtain ⟨rfl, -⟩ := Tm.apps_const_inj (as := []) e
    exact hc (magicR_inv h1 h2).1
  | _ => cases e

theorem magic_inert {c : Sym} (hc : c ≠ 5) : Inert magicR (.const c) := by
  refine ⟨⟨nofun, nofun, fun s ts rs r e h1 h2 => ?_⟩, nofun, nofun, nofun⟩
  obtain ⟨rfl, -⟩ := Tm.apps_const_inj (as := []) e
  exact absurd (magicR_inv h1 h2).1 hc

theorem magic_flat {c : Sym} (hc : c ≠ 5) : Denotes magicR (Flat magicR) (.const c) (SN magicR false) :=
  .base ((magic_inert hc).flat magicR_confluent fun _ => magic_still hc)

theorem list_step {n v : Tm} (h : Step magicR false (.app (.const 4) n) v) : ∃ n', Step magicR false n n' ∧ v = .app (.const 4) n' := by
  rcases (magic_inert (c := 4) (by decide)).neutral.step h with ⟨t', h1, rfl⟩ | ⟨a', h1, rfl⟩
  · exact absurd h1 (magic_still (by decide))
  · exact ⟨a', h1, rfl⟩

theorem list_sn {n : Tm} (hn : SN magicR false n) : SN magicR false (.app (.const 4) n) := by
  induction hn with
  | intro n _ ih =>
    refine ⟨_, fun v hv => ?_⟩
    obtain ⟨n', h1, rfl⟩ := list_step hv
    exact ih n' h1

theorem list_denotes {n : Tm} (hn : SN magicR false n) : ∃ Q, Denotes magicR (Flat magicR) (.app (.const 4) n) Q := by
  induction hn with
  | intro n _ ih =>
    by_cases hs : Still magicR (.app (.const 4) n)
    · exact ⟨_, .base (((magic_inert (c := 4) (by decide)).app n).flat magicR_confluent hs)⟩
    · simp only [Still, not_forall, not_not] at hs
      obtain ⟨v, hv⟩ := hs
      obtain ⟨n', h1, rfl⟩ := list_step hv
      obtain ⟨Q, hQ⟩ := ih n' h1
      exact ⟨Q, hQ.conv Flat.base hv.conv.symm⟩

theorem magic_step {n i v : Tm} (h : Step magicR false (.app (.app (.const 5) n) i) v) :
    (∃ n', Step magicR false n n' ∧ v = .app (.app (.const 5) n') i) ∨ (∃ i', Step magicR false i i' ∧ v = .app (.app (.const 5) n) i') ∨
      v = .app (.const 4) n ∨ ∃ j, i = .app (.const 2) j ∧ v = .pi (.const 3) ((Tm.app (.app (.const 5) n) j).shift 1) := by
  generalize e : Tm.app (.app (.const 5) n) i = t at h
  cases h with
  | appL h =>
    cases e
    generalize e : Tm.app (.const 5) n = t at h
    cases h with
    | appL h =>
      cases e
      generalize e : Tm.const 5 = t at h
      cases h with
      | rule h1 h2 _ h4 =>
        obtain ⟨rfl, rfl⟩ := Tm.apps_const_inj (as := []) e
        rcases (magicR_inv h1 h2).2 with rfl | rfl <;> cases h4.length
      | _ => cases e
    | appR h => cases e; exact .inl ⟨_, h, rfl⟩
    | rule h1 h2 _ h4 =>
      obtain ⟨rfl, rfl⟩ := Tm.apps_const_inj (as := [n]) e
      rcases (magicR_inv h1 h2).2 with rfl | rfl <;> cases h4.length
    | _ => cases e
  | appR h => cases e; exact .inr (.inl ⟨_, h, rfl⟩)
  | @rule s rs r σ ts bs h1 h2 h3 h4 h5 h6 =>
    obtain ⟨rfl, rfl⟩ := Tm.apps_const_inj (as := [n, i]) e
    rcases (magicR_inv h1 h2).2 with rfl | rfl
    · cases h4 with
      | cons k1 k2 =>
        cases k1
        have e0 : σ 0 = n := h5.1 0 n rfl
        refine .inr (.inr (.inl ?_))
        show Tm.app (.const 4) (σ 0) = _
        rw [e0]
    · cases h4 with
      | cons k1 k2 =>
        cases k1
        cases k2 with
        | cons k2 k3 =>
          cases k3
          cases k2 with
          | symb k2 =>
            cases k2 with
            | cons k2 k3 =>
              cases k3
              cases k2
              rename_i j
              have e1 : σ 1 = n := h5.1 1 n rfl
              have e0 : σ 0 = j := h5.1 0 j rfl
              refine .inr (.inr (.inr ⟨j, rfl, ?_⟩))
              show Tm.pi (.const 3) (.app (.app (.const 5) ((σ 1).ren (· + 1))) ((σ 0).ren (· + 1))) = _
              rw [e1, e0]
              rfl
  | _ => cases e

theorem magic_type_inert (n i : Tm) : Inert magicR (.app (.app (.const 5) n) i) := by
  refine ⟨⟨nofun, nofun, fun s ts rs r e h1 h2 => ?_⟩, nofun, nofun, nofun⟩
  obtain ⟨rfl, rfl⟩ := Tm.apps_const_inj (as := [n, i]) e
  rcases (magicR_inv h1 h2).2 with rfl | rfl <;> exact le_rfl

theorem magic_inst (n j b : Tm) : ((Tm.app (.app (.const 5) n) j).shift 1).inst b = .app (.app (.const 5) n) j := by
  show Tm.app (.app (.const 5) ((n.ren (· + 1)).inst b)) ((j.ren (· + 1)).inst b) = _
  rw [Tm.ren_inst, Tm.ren_inst]

theorem magic_sn {n i : Tm} (hn : SN magicR false n) (hi : SN magicR false i) : SN magicR false (.app (.app (.const 5) n) i) := by
  have := hi.below
  induction this generalizing n with
  | intro i _ ih =>
    induction hn with
    | intro n hn ihn =>
      refine ⟨_, fun v hv => ?_⟩
      rcases magic_step hv with ⟨n', h1, rfl⟩ | ⟨i', h1, rfl⟩ | rfl | ⟨j, rfl, rfl⟩
      · exact ihn n' h1
      · exact ih i' (steps_below (.single h1)) ⟨_, hn⟩ (hi.step h1)
      · exact list_sn ⟨_, hn⟩
      · have hj : SN magicR false j := SN.pull (fun j => .app (.const 2) j) (fun _ _ h => .appR h) hi
        refine SN.pi ⟨_, fun u hu => absurd hu (magic_still (by decide))⟩ (SN.of_inst magicR_closed (u := .var 0) ?_)
        rw [magic_inst]
        exact ih j (.single (.inr (.appR _ _))) ⟨_, hn⟩ hj

theorem magic_denotes {n i : Tm} (hn : SN magicR false n) (hi : SN magicR false i) :
    ∃ Q, Denotes magicR (Flat magicR) (.app (.app (.const 5) n) i) Q := by
  have := hi.below
  induction this generalizing n with
  | intro i _ ih =>
    induction hn with
    | intro n hn ihn =>
      by_cases hs : Still magicR (.app (.app (.const 5) n) i)
      · exact ⟨_, .base ((magic_type_inert n i).flat magicR_confluent hs)⟩
      · simp only [Still, not_forall, not_not] at hs
        obtain ⟨v, hv⟩ := hs
        rcases magic_step hv with ⟨n', h1, rfl⟩ | ⟨i', h1, rfl⟩ | rfl | ⟨j, rfl, rfl⟩
        · obtain ⟨Q, hQ⟩ := ihn n' h1
          exact ⟨Q, hQ.conv Flat.base hv.conv.symm⟩
        · obtain ⟨Q, hQ⟩ := ih i' (steps_below (.single h1)) ⟨_, hn⟩ (hi.step h1)
          exact ⟨Q, hQ.conv Flat.base hv.conv.symm⟩
        · obtain ⟨Q, hQ⟩ := list_denotes (n := n) ⟨_, hn⟩
          exact ⟨Q, hQ.conv Flat.base hv.conv.symm⟩
        · have hj : SN magicR false j := SN.pull (fun j => .app (.const 2) j) (fun _ _ h => .appR h) hi
          obtain ⟨Q, hQ⟩ := ih j (.single (.inr (.appR _ _))) (n := n) ⟨_, hn⟩ hj
          exact ⟨_, .pi (Q := fun _ => Q) hv.conv (magic_flat (by decide)) fun b _ => by rwa [magic_inst]⟩

/-- the types of `magic.dk` -/
def magicTy : List Tm :=
  [.type, .const 0, .pi (.const 0) (.const 0), .type, .pi (.const 0) .type, .pi (.const 0) (.pi (.const 0) .type),
   .pi (.const 0) (.app (.app (.const 5) (.var 0)) (.var 0))]

theorem magic_fine (c : Nat) (A : Tm) (h : magicTy[c]? = some A) : Fine magicR (.const c) A := by
  have hK : Denotes magicR (FlatK magicR) .type _ := .base (.inl (.inr ⟨.refl _, rfl⟩))
  have hN := (magic_flat (c := 0) (by decide)).toT.toK
  have nr : ∀ {c : Sym} {A : Tm}, c ≠ 5 → (∃ Q, Denotes magicR (FlatK magicR) A Q) → Fine magicR (.const c) A := fun hc hA =>
    Fine.const magicR_confluent magicR_closed hA fun rs r h1 h2 => absurd (magicR_inv h1 h2).1 hc
  match c, h with
  | 0, h => cases h; exact nr (by decide) ⟨_, hK⟩
  | 1, h => cases h; exact nr (by decide) ⟨_, hN⟩
  | 2, h => cases h; exact nr (by decide) ⟨_, .pi (Q := fun _ => _) (.refl _) hN fun _ _ => hN⟩
  | 3, h => cases h; exact nr (by decide) ⟨_, hK⟩
  | 4, h => cases h; exact nr (by decide) ⟨_, .pi (Q := fun _ => _) (.refl _) hN fun _ _ => hK⟩
  | 5, h =>
    cases h
    exact ⟨_, .pi (Q := fun _ => _) (.refl _) hN fun _ _ => .pi (Q := fun _ => _) (.refl _) hN fun _ _ => hK,
      fun a ha b hb => ⟨magic_sn ha hb, magic_denotes ha hb⟩⟩
  | 6, h =>
    cases h
    obtain ⟨Q, -, hQ⟩ := Denotes.prod (C := .app (.app (.const 5) (.var 0)) (.var 0)) hN fun a ha => (magic_denotes ha ha).imp fun _ h => h.toT.toK
    exact nr (by decide) ⟨_, hQ⟩

/-- the rule, with the types of its variables -/
def Rule.magicTyped (r : Rule) : Rule := ⟨r.ctx.map fun v => (v.1, some (.const 0)), r.lhs, r.rhs⟩

section
variable {k : Kern} {opt : Opt} {gc : GCtx} (hk : k.Real) (ho : opt.omitted = none) (he : opt.eta = false)
variable (h : seqLoop k opt (GCtx.start opt.eta) (magicCmds.map .ok) = (gc, .ok ()))

include hk ho h in
theorem magic_ty (c : Nat) : gc.theory.ty c = magicTy[c]? := by
  by_cases hc : 6 < c
  · have := (seqLoop_fresh hk ho h (n := 6) (s := c) (by decide +kernel) hc).1
    rw [List.getElem?_eq_none (show magicTy.length ≤ c from hc)]
    simp [GCtx.theory, this]
  · match c, hc with
    | 0, _ => exact seqLoop_ty hk ho h 0 rfl rfl
    | 1, _ => exact seqLoop_ty hk ho h 1 rfl rfl
    | 2, _ => exact seqLoop_ty hk ho h 2 rfl rfl
    | 3, _ => exact seqLoop_ty hk ho h 3 rfl rfl
    | 4, _ => exact seqLoop_ty hk ho h 4 rfl rfl
    | 5, _ => exact seqLoop_ty hk ho h 5 rfl rfl
    | 6, _ => exact seqLoop_ty hk ho h 7 rfl rfl
    | n + 7, hc => exact absurd (by omega) hc

theorem magicTy_sorted {T : Theory} (hT : ∀ c : Nat, T.ty c = magicTy[c]?) : T.Sorted := by
  have h0 : ∀ Γ, Strict T Γ (.const 0) .type := fun Γ => .const (hT 0)
  have h5 : ∀ Γ, Strict T Γ (.const 5) (.pi (.const 0) (.pi (.const 0) .type)) := fun Γ => .const (hT 5)
  intro c A hA
  have hA : magicTy[(c : Nat)]? = some A := (hT c).symm.trans hA
  match c, hA with
  | 0, h => cases h; exact ⟨_, .kind, .type⟩
  | 1, h => cases h; exact ⟨_, .type, h0 _⟩
  | 2, h => cases h; exact ⟨_, .type, .pi (h0 _) (h0 _) .type⟩
  | 3, h => cases h; exact ⟨_, .kind, .type⟩
  | 4, h => cases h; exact ⟨_, .kind, .pi (h0 _) .type .kind⟩
  | 5, h => cases h; exact ⟨_, .kind, .pi (h0 _) (.pi (h0 _) .type .kind) .kind⟩
  | 6, h =>
    cases h
    exact ⟨_, .type, .pi (h0 _) (.app (B := .type) (.app (B := .pi (.const 0) .type) (h5 _) (.var (A := .const 0) rfl)) (.var (A := .const 0) rfl)) .type⟩

theorem magic_rules_typed {T : Theory} (hT : ∀ c : Nat, T.ty c = magicTy[c]?) : RuleTyped T magicRule1.magicTyped ∧ RuleTyped T magicRule2.magicTyped := by
  have h0 : ∀ Γ, Strict T Γ (.const 0) .type := fun Γ => .const (hT 0)
  have h5 : ∀ Γ, Strict T Γ (.const 5) (.pi (.const 0) (.pi (.const 0) .type)) := fun Γ => .const (hT 5)
  have hm : ∀ {Γ n i}, Strict T Γ n (.const 0) → Strict T Γ i (.const 0) → Strict T Γ (.app (.app (.const 5) n) i) .type := fun hn hi =>
    .app (B := .type) (.app (B := .pi (.const 0) .type) (h5 _) hn) hi
  constructor
  · exact ⟨_, rfl, .cons .nil (h0 _), .type, hm (.var (A := .const 0) rfl) (.const (hT 1)), .app (B := .type) (.const (hT 4)) (.var (A := .const 0) rfl)⟩
  · exact ⟨_, rfl, .cons (.cons .nil (h0 _)) (h0 _), .type, hm (.var (A := .const 0) rfl) (.app (B := .const 0) (.const (hT 2)) (.var (A := .const 0) rfl)),
      .pi (.const (hT 3)) (hm (.var (A := .const 0) rfl) (.var (A := .const 0) rfl)) .type⟩

include hk ho he h in
/-- The theory of `magic.dk` is well-formed, and typed terms are strongly normalising in it. -/
theorem magic_normalising : gc.theory.WellFormed ∧ gc.theory.Normalising := by
  obtain ⟨h1, h2, -, -⟩ := magic_church hk he h
  have hty := magic_ty hk ho h
  have hS := magicTy_sorted hty
  refine ⟨?_, Theory.normalising_fine magicR_confluent magicR_closed h1 h2 hS fun c A hA => magic_fine c A (by rw [← hty]; exact hA)⟩
  refine Theory.wellFormed_like (R := fun s => (magicR s).map (·.map Rule.magicTyped)) h1 ?_ ?_ (show Confluent gc.rules from h2 ▸ magicR_confluent) hS ?_
  · intro s rs r hr hm
    have hr : magicR s = some rs := h2 ▸ hr
    exact ⟨rs.map _, r.magicTyped, by simp only [hr, Option.map_some], List.mem_map_of_mem hm, .ctx rfl rfl (by simp [Rule.magicTyped])⟩
  · intro s rs r hr hm
    obtain ⟨rs0, k1, rfl⟩ := Option.map_eq_some_iff.1 hr
    obtain ⟨r0, k2, rfl⟩ := List.mem_map.1 hm
    exact ⟨rs0, r0, show gc.rules s = _ from h2 ▸ k1, k2, .ctx rfl rfl (by simp [Rule.magicTyped])⟩
  · intro s rs r hr hm
    obtain ⟨rs0, k1, rfl⟩ := Option.map_eq_some_iff.1 hr
    obtain ⟨r0, k2, rfl⟩ := List.mem_map.1 hm
    obtain ⟨rfl, k3⟩ := magicR_inv k1 k2
    obtain ⟨t1, t2⟩ := magic_rules_typed (T := gc.theory.withRules fun s => (magicR s).map (·.map Rule.magicTyped)) hty
    rcases k3 with rfl | rfl
    · exact ⟨rfl, t1⟩
    · exact ⟨rfl, t2⟩

include hk ho he h in
/-- what is accepted by any kernel -/
theorem magic_sound_of {k' : Kern} (hk' : k'.Real) {s : Sym} {n l m : Nat} {gc' : GCtx} (hr : inferCheck k' opt gc (.intro s (magicCheck n l m)) = (gc', .ok ())) :
    n = m ∧ l = m := by
  obtain ⟨-, -, hC, hconv⟩ := magic_church hk he h
  obtain ⟨-, A, -, h2⟩ := inferCheck_intro_sound hk' (by simp [Opt.omits, ho]) hr
  have h3 := h2.body _ rfl
  rw [h2.given _ rfl] at h3
  have h6 : gc.theory.ty 6 = some (.pi (.const 0) (.app (.app (.const 5) (.var 0)) (.var 0))) := seqLoop_ty hk ho h 7 rfl rfl
  have h4 : gc.theory.Conv (.app (.app (.const 5) (magicNum m).den) (magicNum m).den) (magicType (magicNum l) n).den := HasType.call hC h6 h3
  obtain ⟨h5, h6⟩ := magicType_inj (magicR_confluent.frozen (magicType_frozen _ _) (magicType_frozen _ _) (.trans (.symm (magic_conv m m)) ((hconv _ _).1 h4)))
  exact ⟨h6.symm, h5.symm⟩

include hk ho he h in
theorem magic_complete_of {k' : Kern} (hk' : k'.Exact) {s : Sym} (hs : 6 < s) (n : Nat) :
    (inferCheck k' opt gc (.intro s (magicCheck n n n))).2 = .ok () ∨ (inferCheck k' opt gc (.intro s (magicCheck n n n))).2 = .timeout := by
  obtain ⟨h1, h2, hC, hconv⟩ := magic_church hk he h
  have hcr : Confluent gc.rules := h2 ▸ magicR_confluent
  refine C44_command_complete gc (.plain h1 hcr) (seqLoop_cmds_levelled hk ho he (fun _ _ => magicCmds_confluent) magicCmds_levelled h)
    k' hk' opt _ (GCtx.eta_off h1) ⟨?_, ?_⟩ ?_ ⟨?_, ?_, ⟨.type, .type, ?_⟩, ?_⟩
  · rintro A ⟨⟩
    exact magicType_annotated _ _
  · rintro t ⟨⟩
    exact ⟨trivial, magicNum_annotated _⟩
  · rintro A ⟨⟩ hk
    exact (magicType_notKind _ _ hk).elim
  · exact (seqLoop_fresh hk ho h (by decide +kernel) hs).1
  · exact (seqLoop_fresh hk ho h (by decide +kernel) hs).2
  · exact magicType_typed hk ho h _ _ _
  · have h6 : gc.theory.ty 6 = some (.pi (.const 0) (.app (.app (.const 5) (.var 0)) (.var 0))) := seqLoop_ty hk ho h 7 rfl rfl
    refine .conv (A := .app (.app (.const 5) (magicNum n).den) (magicNum n).den) ?_ ((hconv _ _).2 (magic_conv n n)) (magicType_typed hk ho h _ _ _) .type
    exact .app (B := .app (.app (.const 5) (.var 0)) (.var 0)) (.const h6) (magicNum_typed hk ho h _ _)

end

end Kontroli
