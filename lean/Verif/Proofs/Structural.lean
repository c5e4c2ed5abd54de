import Verif.Proofs.StaticNormal
import Verif.Proofs.Overlap
import Verif.Proofs.Consistent
import Verif.Spec.Structural

/-!
# Structurally recursive rules are strongly normalising on typed terms
-/

namespace Kontroli

/-! ## Function types with several arguments -/

/-- functions with several arguments -/
def Ty.arrs : List Ty → Ty → Ty
  | [], τ => τ
  | a :: as, τ => .arr a (Ty.arrs as τ)

theorem Ty.arrs_append (as bs : List Ty) (τ : Ty) : Ty.arrs (as ++ bs) τ = Ty.arrs as (Ty.arrs bs τ) := by
  induction as with
  | nil => rfl
  | cons a as ih => simp only [List.cons_append, Ty.arrs, ih]

theorem Ty.arrs_inj {as bs : List Ty} {τ ρ : Ty} (h : Ty.arrs as τ = Ty.arrs bs ρ) (hl : as.length = bs.length) : as = bs ∧ τ = ρ := by
  induction as generalizing bs with
  | nil =>
    cases bs with
    | nil => exact ⟨rfl, h⟩
    | cons => cases hl
  | cons a as ih =>
    cases bs with
    | nil => cases hl
    | cons b bs =>
      simp only [Ty.arrs, Ty.arr.injEq] at h
      obtain ⟨rfl, h3⟩ := ih h.2 (by simpa using hl)
      exact ⟨by rw [h.1], h3⟩

section
variable {R : RuleMap} {eta : Bool}

theorem Rc.apps {as : List Ty} {us : List Tm} {ρ : Ty} {t : Tm} (h : Rc R eta (Ty.arrs as ρ) t) (hu : List.Forall₂ (Rc R eta) as us) :
    Rc R eta ρ (t.apps us) := by
  induction hu generalizing t with
  | nil => exact h
  | cons h1 _ ih => exact ih (h _ h1)

theorem Rc.of_sn {τ : Ty} {t : Tm} (h : ∀ as us, τ = Ty.arrs as .base → List.Forall₂ (Rc R eta) as us → SN R eta (t.apps us)) : Rc R eta τ t := by
  induction τ generalizing t with
  | base => exact h [] [] rfl .nil
  | arr a b _ ih => exact fun u hu => ih fun as us e hs => h (a :: as) (u :: us) (by rw [e]; rfl) (.cons hu hs)

/-! ## Steps of applied constants -/

theorem Step.apps_const {s : Sym} {us : List Tm} {v : Tm} (h : Step R eta (Tm.apps (.const s) us) v) :
    (∃ l a a' l', us = l ++ a :: l' ∧ Step R eta a a' ∧ v = Tm.apps (.const s) (l ++ a' :: l')) ∨
    ∃ rs r σ ts us' bs, us = ts ++ us' ∧ R s = some rs ∧ r ∈ rs ∧ r.Scoped ∧ PBinds r.lhs.args ts bs ∧ Solves R eta bs σ ∧
      v = Tm.apps (r.rhs.den.sub σ) us' := by
  induction us using List.reverseRecOn generalizing v with
  | nil =>
    generalize e : Tm.apps (.const s) [] = x at h
    cases h with
    | @rule s' rs r σ ts bs h1 h2 h3 h4 h5 h6 =>
      obtain ⟨rfl, rfl⟩ := Tm.apps_const_inj e
      exact .inr ⟨rs, r, σ, [], [], bs, rfl, h1, h2, h3, h4, h5, rfl⟩
    | _ => cases e
  | append_singleton us a ih =>
    generalize e : Tm.apps (.const s) (us ++ [a]) = x at h
    have e' := e
    rw [Tm.apps_concat] at e
    cases h with
    | @rule s' rs r σ ts bs h1 h2 h3 h4 h5 h6 =>
      obtain ⟨rfl, rfl⟩ := Tm.apps_const_inj e'
      exact .inr ⟨rs, r, σ, _, [], bs, by simp, h1, h2, h3, h4, h5, rfl⟩
    | appL h =>
      cases e
      rcases ih h with ⟨l, b, b', l', rfl, h1, rfl⟩ | ⟨rs, r, σ, ts, us', bs, rfl, h1, h2, h3, h4, h5, rfl⟩
      · exact .inl ⟨l, b, b', l' ++ [a], by simp, h1, by rw [← Tm.apps_concat]; simp⟩
      · exact .inr ⟨rs, r, σ, ts, us' ++ [a], bs, by simp, h1, h2, h3, h4, h5, by rw [Tm.apps_concat]⟩
    | appR h => cases e; exact .inl ⟨us, _, _, [], rfl, h, by rw [Tm.apps_concat]⟩
    | beta A b a => exact absurd (Tm.app.inj e).1 Tm.apps_const_ne_lam
    | dbeta b a => exact absurd (Tm.app.inj e).1 Tm.apps_const_ne_dlam
    | _ => cases e

/-- several terms as one -/
def tuple (us : List Tm) : Tm := us.foldr Tm.pi .type

theorem SN.tuple {us : List Tm} (h : ∀ u ∈ us, SN R eta u) : SN R eta (tuple us) := by
  induction us with
  | nil => exact SN.type
  | cons u us ih => exact SN.pi (h u List.mem_cons_self) (ih fun v hv => h v (List.mem_cons_of_mem _ hv))

theorem Step.tuple {a a' : Tm} (h : Step R eta a a') (l l' : List Tm) : Step R eta (tuple (l ++ a :: l')) (tuple (l ++ a' :: l')) := by
  induction l with
  | nil => exact .piL h
  | cons b l ih => exact .piR ih

theorem Rc.step_args {as : List Ty} {l l' : List Tm} {a a' : Tm} (h : List.Forall₂ (Rc R eta) as (l ++ a :: l')) (hs : Step R eta a a') :
    List.Forall₂ (Rc R eta) as (l ++ a' :: l') := by
  induction l generalizing as with
  | nil =>
    cases h with
    | cons h1 h2 => exact .cons (h1.step hs) h2
  | cons b l ih =>
    cases h with
    | cons h1 h2 => exact .cons h1 (ih h2)

/-! ## Matches -/

theorem PBinds.get {ps : List Pattern} {ts : List Tm} {bs : List (Nat × Tm)} (h : PBinds ps ts bs) {i : Nat} {p : Pattern} (hp : ps[i]? = some p) :
    ∃ t bs', ts[i]? = some t ∧ PBind p t bs' ∧ ∀ b ∈ bs', b ∈ bs := by
  induction i generalizing ps ts bs with
  | zero =>
    cases h with
    | nil => simp at hp
    | cons h1 h2 =>
      simp only [List.getElem?_cons_zero, Option.some.injEq] at hp
      subst hp
      exact ⟨_, _, rfl, h1, fun b hb => List.mem_append_left _ hb⟩
  | succ i ih =>
    cases h with
    | nil => simp at hp
    | cons h1 h2 =>
      obtain ⟨t, bs', k1, k2, k3⟩ := ih h2 (by simpa using hp)
      exact ⟨t, bs', by simpa using k1, k2, fun b hb => List.mem_append_right _ (k3 b hb)⟩

theorem PBinds.mem {ps : List Pattern} {ts : List Tm} {bs : List (Nat × Tm)} (h : PBinds ps ts bs) {b : Nat × Tm} (hb : b ∈ bs) :
    ∃ (i : Nat) (p : Pattern) (t : Tm) (bs' : List (Nat × Tm)), ps[i]? = some p ∧ ts[i]? = some t ∧ PBind p t bs' ∧ b ∈ bs' := by
  induction ps generalizing ts bs with
  | nil => cases h; cases hb
  | cons p ps ih =>
    cases h with
    | cons h1 h2 =>
      rcases List.mem_append.1 hb with hb | hb
      · exact ⟨0, _, _, _, rfl, rfl, h1, hb⟩
      · obtain ⟨i, p, t, bs', k1, k2, k3, k4⟩ := ih h2 hb
        exact ⟨i + 1, p, t, bs', by simpa using k1, by simpa using k2, k3, k4⟩

mutual
  /-- a part of a pattern matches a part of the term -/
  theorem PBind.part {q p : Pattern} (h : Pattern.In q p) {w : Tm} {bs : List (Nat × Tm)} (hb : PBind p w bs) :
      ∃ v bs', PBind q v bs' ∧ (∀ b ∈ bs', b ∈ bs) ∧ (v = w ∨ Below R eta v w) :=
    match h with
    | .self => ⟨w, bs, hb, fun _ h => h, .inl rfl⟩
    | .arg (s := s) h => by
      cases hb with
      | symb hb =>
        obtain ⟨v, bs', h1, h2, w', h3, h4⟩ := PBinds.part h hb
        refine ⟨v, bs', h1, h2, .inr ?_⟩
        have := below_apps_arg (R := R) (eta := eta) (f := .const s) h3
        rcases h4 with rfl | h4
        · exact this
        · exact h4.trans this
  theorem PBinds.part {q : Pattern} {ps : List Pattern} (h : Pattern.InList q ps) {ws : List Tm} {bs : List (Nat × Tm)} (hb : PBinds ps ws bs) :
      ∃ v bs', PBind q v bs' ∧ (∀ b ∈ bs', b ∈ bs) ∧ ∃ w ∈ ws, v = w ∨ Below R eta v w :=
    match h with
    | .here h => by
      cases hb with
      | cons h1 h2 =>
        obtain ⟨v, bs', k1, k2, k3⟩ := PBind.part h h1
        exact ⟨v, bs', k1, fun b hb => List.mem_append_left _ (k2 b hb), _, List.mem_cons_self, k3⟩
    | .there h => by
      cases hb with
      | cons h1 h2 =>
        obtain ⟨v, bs', k1, k2, w, k3, k4⟩ := PBinds.part h h2
        exact ⟨v, bs', k1, fun b hb => List.mem_append_right _ (k2 b hb), w, List.mem_cons_of_mem _ k3, k4⟩
end

/-- the bound terms are parts of the matched terms -/
theorem PBind.bound : ∀ (p : Pattern) {t : Tm} {bs : List (Nat × Tm)}, PBind p t bs → ∀ b ∈ bs, b.2 = t ∨ Below R eta b.2 t := by
  intro p
  induction p using Pattern.rec (motive_2 := fun ps => ∀ {ts : List Tm} {bs : List (Nat × Tm)}, PBinds ps ts bs → ∀ b ∈ bs,
    ∃ t ∈ ts, b.2 = t ∨ Below R eta b.2 t) with
  | symb s ps ih =>
    intro t bs h b hb
    cases h with
    | symb h =>
      obtain ⟨t, ht, h'⟩ := ih h b hb
      have := below_apps_arg (R := R) (eta := eta) (f := .const s) ht
      rcases h' with h' | h'
      · exact .inr (h' ▸ this)
      · exact .inr (h'.trans this)
  | mvar m =>
    intro t bs h b hb
    cases h
    simp at hb
    exact .inl (by rw [hb])
  | joker =>
    intro t bs h b hb
    cases h
    simp at hb
  | nil =>
    rename_i h b hb
    cases h
    simp at hb
  | cons p ps ihp ihps =>
    rename_i h b hb
    cases h with
    | cons h1 h2 =>
      rcases List.mem_append.1 hb with hb | hb
      · exact ⟨_, List.mem_cons_self, ihp h1 b hb⟩
      · obtain ⟨t, ht, h'⟩ := ihps h2 b hb
        exact ⟨t, List.mem_cons_of_mem _ ht, h'⟩

/-- a matched term is the instance of the pattern -/
theorem PatTm.sub_eq {p : Pattern} {t : Tm} (h : PatTm p t) {v : Tm} {bs : List (Nat × Tm)} (hb : PBind p v bs) {σ : Nat → Tm}
    (hσ : ∀ b ∈ bs, σ b.1 = b.2) : t.sub σ = v := by
  induction h generalizing v bs with
  | @var n => cases hb; exact hσ (n, v) (by simp)
  | @symb s ps ts hl _ ih =>
    cases hb with
    | @symb _ _ vs _ hb =>
      rw [Tm.apps_sub]
      congr 1
      refine List.ext_getElem? fun i => ?_
      rw [List.getElem?_map]
      cases hp : ps[i]? with
      | none =>
        have h1 := List.getElem?_eq_none_iff.1 hp
        rw [List.getElem?_eq_none (by omega), List.getElem?_eq_none (by have := hb.length; omega)]
        rfl
      | some p =>
        obtain ⟨v, bs', k1, k2, k3⟩ := hb.get hp
        have h1 := (List.getElem?_eq_some_iff.1 hp).1
        have ht : ts[i]? = some ts[i] := List.getElem?_eq_getElem (by omega)
        rw [k1, ht, Option.map_some, ih i p _ hp ht k2 fun b hb => hσ b (k3 b hb)]

theorem lookup_of_nodup {bs : List (Nat × Tm)} (h : (bs.map Prod.fst).Nodup) {b : Nat × Tm} (hb : b ∈ bs) : bs.lookup b.1 = some b.2 := by
  induction bs with
  | nil => cases hb
  | cons a bs ih =>
    rw [List.map_cons, List.nodup_cons] at h
    obtain ⟨n, t⟩ := a
    rcases List.mem_cons.1 hb with rfl | hb
    · simp [List.lookup]
    · have : b.1 ≠ n := fun e => h.1 (e ▸ List.mem_map.2 ⟨b, hb, rfl⟩)
      rw [List.lookup_cons, beq_eq_false_iff_ne.2 this]
      exact ih h.2 hb

/-- an argument is smaller: both are there, and it comes after the other by steps and parts -/
def SmallerArg (R : RuleMap) (eta : Bool) (a b : Option Tm) : Prop := ∃ u w, a = some u ∧ b = some w ∧ Below R eta u w

theorem SmallerArg.acc {o : Option Tm} (h : ∀ w, o = some w → SN R eta w) : Acc (SmallerArg R eta) o := by
  cases o with
  | none => exact ⟨_, fun a ⟨_, _, _, h, _⟩ => by cases h⟩
  | some w =>
    have hw := (h w rfl).below
    clear h
    induction hw with
    | intro w _ ih =>
      refine ⟨_, fun a ⟨u, w', e1, e2, hb⟩ => ?_⟩
      cases e2; subst e1
      exact ih u hb

theorem SN.of_below {t u : Tm} (h : SN R eta t) (hb : Below R eta u t) : SN R eta u := by
  have := h.below.inv hb
  clear hb
  induction this with
  | intro u _ ih => exact ⟨_, fun v hv => ih v (.single (.inl hv))⟩

end

/-! ## Simple types of applications -/

section
variable {T : Theory} {κ : Sym → Ty} (hT : T.WellFormed) (he : T.eta = false) (cr : Confluent T.rules) (hκ : Fits T κ)
include hT he cr hκ

theorem Strict.simple_gen {Γ : List Tm} {t C X : Tm} (h : Strict T Γ t C) (hg : GenTy T Γ C X) (hΓ : WfCtx T Γ) : C.simple κ = X.simple κ := by
  rcases hg with ⟨hc, rfl | ⟨s, hs, hX⟩⟩
  · rfl
  · rcases h.typed hT.types hΓ with rfl | ⟨s', hs', hC⟩
    · exact absurd hc.symm (hX.sort_not_kind hT (.plain he cr) hΓ)
    · exact hC.simple_conv hT (.plain he cr) hκ hX hΓ hc

theorem Strict.simple_const {Γ : List Tm} {s : Sym} {A C : Tm} (hs : T.ty s = some A) (h : Strict T Γ (.const s) C) (hΓ : WfCtx T Γ) :
    C.simple κ = A.simple κ := by
  obtain ⟨A', h1, h2⟩ := h.gen
  rw [hs] at h1
  cases h1
  exact ((Strict.const hs).simple_gen hT he cr hκ h2 hΓ).symm

/-- arguments fit the simple type of the function -/
theorem Strict.spine {Γ : List Tm} {f : Tm} {τ : Ty} (hΓ : WfCtx T Γ) (hf : ∀ C, Strict T Γ f C → C.simple κ = τ) {ts : List Tm} {B : Tm}
    (h : Strict T Γ (Tm.apps f ts) B) :
    ∃ as, τ = Ty.arrs as (B.simple κ) ∧ List.Forall₂ (fun t a => ∃ A, Strict T Γ t A ∧ A.simple κ = a) ts as := by
  induction ts generalizing f τ with
  | nil => exact ⟨[], (hf B h).symm, .nil⟩
  | cons t ts ih =>
    obtain ⟨D, hD⟩ := Strict.apps_head (f := .app f t) h
    obtain ⟨A, C, h1, h2, -⟩ := hD.gen
    obtain ⟨as, k1, k2⟩ := ih (f := .app f t) (τ := C.simple κ) (by
      intro E hE
      obtain ⟨A', C', h3, h4, h5⟩ := hE.gen
      obtain ⟨k1, -⟩ := h3.fun_typed hT.types hΓ
      rw [← (Strict.app h3 h4).simple_gen hT he cr hκ h5 hΓ, Tm.simple_inst C' (h4.simple_base hT (.plain he cr) hκ.obj hΓ k1)]
      have := (hf _ h3).trans (hf _ h1).symm
      simp only [Tm.simple, Ty.arr.injEq] at this
      exact this.2) h
    exact ⟨A.simple κ :: as, by rw [← hf _ h1, Ty.arrs, ← k1]; rfl, .cons ⟨A, h2, rfl⟩ k2⟩

/-- right-hand sides are reducible, if constants of lower levels and recursive calls are -/
theorem Tm.Descends.reducible {R : RuleMap} {eta : Bool} (hR : ClosedRules R) {lv pos : Sym → Nat} {r : Rule} {σ₀ : Nat → Tm} {Small : Tm → Prop}
    (hlow : ∀ c A, T.ty c = some A → lv c < lv r.lhs.symbol → Rc R eta (A.simple κ) (.const c))
    (hcall : ∀ c A (as : List Ty) (vs : List Tm) ρ v, T.ty c = some A → lv c = lv r.lhs.symbol → A.simple κ = Ty.arrs as ρ → List.Forall₂ (Rc R eta) as vs →
      vs[pos c]? = some v → Small v → Rc R eta ρ (Tm.apps (.const c) vs))
    (hsmall : ∀ s ps q t, r.lhs.args[pos r.lhs.symbol]? = some (.symb s ps) → Pattern.InList q ps → PatTm q t → Small (t.sub σ₀))
    {d : Nat} {t : Tm} (h : t.Descends lv pos r d) : ∀ {Γ : List Tm} {A : Tm} {σ : Nat → Tm}, Strict T Γ t A → WfCtx T Γ →
      (∀ n (B : Tm), Γ[n]? = some B → Rc R eta (B.simple κ) (σ n)) → (∀ n, σ (n + d) = σ₀ n) → Rc R eta (A.simple κ) (t.sub σ) := by
  have up : ∀ {Γ : List Tm} {σ : Nat → Tm} {A u : Tm}, (∀ n (B : Tm), Γ[n]? = some B → Rc R eta (B.simple κ) (σ n)) → Rc R eta (A.simple κ) u →
      ∀ n (B : Tm), (A :: Γ)[n]? = some B → Rc R eta (B.simple κ) (match n with | 0 => u | n + 1 => σ n) := by
    intro Γ σ A u h hu n B hn
    cases n with
    | zero => simp at hn; exact hn ▸ hu
    | succ n => exact h n B (by simpa using hn)
  have inst : ∀ (t : Tm) (σ : Nat → Tm) (u : Tm), (t.sub (Tm.up σ)).inst u = t.sub (fun n => match n with | 0 => u | n + 1 => σ n) := by
    intro t σ u
    rw [Tm.inst, Tm.sub_sub]
    congr 1
    funext n
    cases n with
    | zero => rfl
    | succ n => exact Tm.ren_inst _ _
  induction h with
  | kind => intro Γ A σ h; exact h.gen.elim
  | type =>
    intro Γ A σ h hΓ _ _
    rw [← Strict.type.simple_gen hT he cr hκ h.gen hΓ]
    exact SN.type
  | @var d n =>
    intro Γ A σ h hΓ hσ _
    obtain ⟨Y, h1, h2⟩ := h.gen
    rw [← (Strict.var h1).simple_gen hT he cr hκ h2 hΓ, Tm.shift, Tm.simple_ren]
    exact hσ _ _ h1
  | @const d c hc =>
    intro Γ A σ h hΓ _ _
    obtain ⟨Y, h1, h2⟩ := h.gen
    rw [h.simple_const hT he cr hκ h1 hΓ]
    exact hlow c Y h1 hc
  | @app d f a _ _ ih1 ih2 =>
    intro Γ A σ h hΓ hσ hd
    obtain ⟨B, C, h1, h2, h3⟩ := h.gen
    obtain ⟨k1, -⟩ := h1.fun_typed hT.types hΓ
    rw [← (Strict.app h1 h2).simple_gen hT he cr hκ h3 hΓ, Tm.simple_inst C (h2.simple_base hT (.plain he cr) hκ.obj hΓ k1)]
    exact ih1 h1 hΓ hσ hd _ (ih2 h2 hΓ hσ hd)
  | @lam d B b _ _ ih1 ih2 =>
    intro Γ A σ h hΓ hσ hd
    obtain ⟨C, s, hs, h1, h2, h3, h4⟩ := h.gen
    rw [← (Strict.lam h1 h2 h3 hs).simple_gen hT he cr hκ h4 hΓ]
    refine Rc.lam hR (ih1 h1 hΓ hσ hd) fun u hu => ?_
    rw [inst]
    exact ih2 h2 (hΓ.cons h1) (up hσ hu) hd
  | @dlam d b _ ih2 =>
    intro Γ A σ h hΓ hσ hd
    obtain ⟨B, C, s, hs, h1, h2, h3, h4⟩ := h.gen
    rw [← (Strict.dlam h1 h2 h3 hs).simple_gen hT he cr hκ h4 hΓ]
    refine Rc.dlam hR fun u hu => ?_
    rw [inst]
    exact ih2 h2 (hΓ.cons h1) (up hσ hu) hd
  | @pi d B C _ _ ih1 ih2 =>
    intro Γ A σ h hΓ hσ hd
    obtain ⟨s, hs, h1, h2, h3⟩ := h.gen
    rw [← (Strict.pi h1 h2 hs).simple_gen hT he cr hκ h3 hΓ]
    have hC : SN R eta (C.sub (Tm.up σ)) := by
      refine SN.of_inst hR (u := .var 0) ?_
      rw [inst]
      exact (ih2 h2 (hΓ.cons h1) (up hσ (Rc.var _ 0)) hd).sn
    have : s.simple κ = .base := by cases hs <;> rfl
    rw [this]
    exact SN.pi (ih1 h1 hΓ hσ hd) hC
  | @call d c s ts ps q t hc hp hq ht hk hts ih =>
    intro Γ A σ h hΓ hσ hd
    obtain ⟨D, hD⟩ := h.apps_head
    obtain ⟨Y, h1, -⟩ := hD.gen
    obtain ⟨as, k1, k2⟩ := h.spine hT he cr hκ hΓ fun C hC => hC.simple_const hT he cr hκ h1 hΓ
    rw [Tm.apps_sub]
    refine hcall c Y as _ _ (t.sub σ₀) h1 hc k1 ?_ ?_ (hsmall s ps q t hp hq ht)
    · rw [List.forall₂_map_right_iff]
      have key : ∀ (us : List Tm) (as : List Ty), (∀ u ∈ us, u ∈ ts) → List.Forall₂ (fun t a => ∃ A, Strict T Γ t A ∧ A.simple κ = a) us as →
          List.Forall₂ (fun a u => Rc R eta a (u.sub σ)) as us := by
        intro us as hm h
        induction h with
        | nil => exact .nil
        | cons h _ ih' =>
          obtain ⟨A, h2, rfl⟩ := h
          exact .cons (ih _ (hm _ List.mem_cons_self) h2 hΓ hσ hd) (ih' fun u hu => hm u (List.mem_cons_of_mem _ hu))
      exact key ts as (fun _ h => h) k2
    · rw [List.getElem?_map, hk, Option.map_some, Tm.shift_sub]
      congr 1
      congr 1
      funext n
      exact hd n

/-! ## Constants are reducible -/

/-- what is matched by the variables of a rule is reducible -/
theorem Rule.Flat.reducible {R : RuleMap} {eta : Bool} (hb : ∀ c, (∀ rs, T.rules c = some rs → rs = []) → κ c = .base) {r : Rule} (hf : r.Flat T.rules)
    {Γ : List Tm} {tys : List LTerm} (hctx : r.ctx.map Prod.snd = tys.map some) (hΓe : Γ = (tys.map LTerm.den).reverse) (hΓ : WfCtx T Γ)
    {ls : List Tm} (hl : r.lhs.args.length = ls.length)
    (hls : ∀ (i : Nat) p t, r.lhs.args[i]? = some p → ls[i]? = some t → PatTm p t) {as : List Ty}
    (hty : List.Forall₂ (fun t a => ∃ A, Strict T Γ t A ∧ A.simple κ = a) ls as) {ts : List Tm} (hts : List.Forall₂ (Rc R eta) as ts)
    (hs : r.Scoped) {bs : List (Nat × Tm)} (hm : PBinds r.lhs.args ts bs) {σ : Nat → Tm} (hσ : ∀ m t, bs.lookup m = some t → σ m = t)
    (n : Nat) (Y : Tm) (hY : Γ[n]? = some Y) : Rc R eta (Y.simple κ) (σ n) := by
  have hn : n < r.ctx.length := by
    have h1 := (List.getElem?_eq_some_iff.1 hY).1
    have h2 := congrArg List.length hctx
    simp only [List.length_map] at h2
    rw [hΓe] at h1
    simp only [List.length_reverse, List.length_map] at h1
    omega
  have hmem : n ∈ bs.map Prod.fst := by rw [hm.vars]; exact (hs n).2 hn
  obtain ⟨v, hv⟩ := lookup_isSome hmem
  rw [hσ n v hv]
  obtain ⟨i, p, t, bs', h1, h2, h3, h4⟩ := hm.mem (mem_of_lookup hv)
  have hit := (List.getElem?_eq_some_iff.1 h2).1
  have hia : i < as.length := by rw [hts.length_eq]; exact hit
  have hil : i < ls.length := by rw [hty.length_eq]; exact hia
  have hrc : Rc R eta as[i] t := by
    have := hts.get hia hit
    simp only [List.get_eq_getElem] at this
    rwa [(List.getElem?_eq_some_iff.1 h2).2] at this
  obtain ⟨A, hA, hAs⟩ := hty.get hil hia
  simp only [List.get_eq_getElem] at hA hAs
  cases h3 with
  | mvar m t =>
    simp only [List.mem_singleton, Prod.mk.injEq] at h4
    obtain ⟨rfl, rfl⟩ := h4
    have hp := hls i _ _ h1 (List.getElem?_eq_getElem hil)
    generalize ls[i] = x at hp hA
    cases hp
    obtain ⟨Y', k1, k2⟩ := hA.gen
    rw [hY] at k1
    cases k1
    have := (Strict.var hY).simple_gen hT he cr hκ k2 hΓ
    rw [Tm.shift, Tm.simple_ren] at this
    rw [this, hAs]
    exact hrc
  | joker t => cases h4
  | @symb c ps ts' _ h3 =>
    have hv' : n ∈ Pattern.varsList ps := by
      rw [← h3.vars]
      exact List.mem_map.2 ⟨_, h4, rfl⟩
    obtain ⟨ty, c', us, k1, k2, k3⟩ := hf c ps n (List.mem_of_getElem? h1) hv'
    rw [hctx, ← List.map_reverse, List.getElem?_map, Option.map_eq_some_iff] at k1
    obtain ⟨ty', k4, k5⟩ := k1
    cases k5
    rw [hΓe, ← List.map_reverse, List.getElem?_map, k4, Option.map_some, Option.some.injEq, k2] at hY
    subst hY
    rw [Tm.simple_apps]
    simp only [Tm.simple, hb c' k3]
    rcases PBind.bound (R := R) (eta := eta) _ (.symb h3) _ h4 with h | h
    · exact (show v = _ from h) ▸ hrc.sn
    · exact hrc.sn.of_below h

/-- Symbols of a level are reducible if those of lower levels are. -/
theorem reducible_level (hR : ClosedRules T.rules) (hb : ∀ c, (∀ rs, T.rules c = some rs → rs = []) → κ c = .base) {lv pos : Sym → Nat}
    (hlin : ∀ s rs r, T.rules s = some rs → r ∈ rs → (Pattern.varsList r.lhs.args).Nodup)
    (hrt : ∀ s rs r, T.rules s = some rs → r ∈ rs → r.lhs.symbol = s ∧ RuleTyped T r)
    (hflat : ∀ s rs r, T.rules s = some rs → r ∈ rs → r.Flat T.rules)
    (hdesc : ∀ s rs r, T.rules s = some rs → r ∈ rs → r.rhs.den.Descends lv pos r 0) {ℓ : Nat}
    (hlow : ∀ c A, T.ty c = some A → lv c < ℓ → Rc T.rules T.eta (A.simple κ) (.const c)) {o : Option Tm} (ho : Acc (SmallerArg T.rules T.eta) o) :
    ∀ (s : Sym) (A : Tm) (as : List Ty) (us : List Tm), T.ty s = some A → lv s = ℓ → A.simple κ = Ty.arrs as .base →
      List.Forall₂ (Rc T.rules T.eta) as us → us[pos s]? = o → SN T.rules T.eta (Tm.apps (.const s) us) := by
  induction ho with
  | intro o _ iho =>
    intro s A as us hA hs hty hus hpos
    have htup : SN T.rules T.eta (tuple us) := SN.tuple (by
      have key : ∀ (as : List Ty) (us : List Tm), List.Forall₂ (Rc T.rules T.eta) as us → ∀ u ∈ us, SN T.rules T.eta u := by
        intro as us h
        induction h with
        | nil => intro u hu; cases hu
        | cons h _ ih =>
          intro u hu
          rcases List.mem_cons.1 hu with rfl | hu
          · exact h.sn
          · exact ih u hu
      exact key as us hus)
    generalize e : tuple us = x at htup
    induction htup generalizing us with
    | intro x _ ihx =>
      subst e
      refine ⟨_, fun v hv => ?_⟩
      rcases hv.apps_const with ⟨l, a, a', l', rfl, h1, rfl⟩ | ⟨rs, r, σ, ts, us', bs, rfl, h1, h2, h3, h4, h5, rfl⟩
      · have hus' := Rc.step_args hus h1
        by_cases hk : pos s = l.length
        · refine iho (some a') ⟨a', a, rfl, ?_, .single (.inl h1)⟩ s A as _ hA hs hty hus' ?_
          · rw [← hpos, hk]; simp
          · rw [hk]; simp
        · refine ihx _ (h1.tuple l l') _ hus' ?_ rfl
          rw [← hpos]
          rcases Nat.lt_or_gt_of_ne hk with hk | hk
          · rw [List.getElem?_append_left hk, List.getElem?_append_left hk]
          · rw [List.getElem?_append_right (by omega), List.getElem?_append_right (by omega)]
            obtain ⟨j, hj⟩ : ∃ j, pos s - l.length = j + 1 := ⟨pos s - l.length - 1, by omega⟩
            rw [hj, List.getElem?_cons_succ, List.getElem?_cons_succ]
      · obtain ⟨hrs, t, ht, hΓ, B, hB1, hB2⟩ := hrt s rs r h1 h2
        obtain ⟨tys, hctx, hΓe, hpat, -⟩ := Rule.consists_iff.2 ⟨t, ht, rfl, rfl, rfl⟩
        generalize (t.ctx.map LTerm.den).reverse = Γ at *
        generalize t.lhs.den = lh at *
        generalize ep : Pattern.symb r.lhs.symbol r.lhs.args = pt at hpat
        cases hpat with
        | var => cases ep
        | @symb s' ps ls hl hls =>
          cases ep
          subst hrs
          obtain ⟨as', k1, k2⟩ := hB1.spine hT he cr hκ hΓ fun C hC => hC.simple_const hT he cr hκ hA hΓ
          obtain ⟨as1, as2, rfl, hus1, hus2⟩ : ∃ as1 as2, as = as1 ++ as2 ∧ List.Forall₂ (Rc T.rules T.eta) as1 ts ∧
              List.Forall₂ (Rc T.rules T.eta) as2 us' := by
            refine ⟨as.take ts.length, as.drop ts.length, (List.take_append_drop _ _).symm, ?_, ?_⟩
            · exact List.forall₂_take_append as ts us' hus
            · exact List.forall₂_drop_append as ts us' hus
          rw [hty, Ty.arrs_append] at k1
          obtain ⟨rfl, k3⟩ := Ty.arrs_inj k1 (by rw [← k2.length_eq, ← hl, h4.length, hus1.length_eq])
          have hσ := Rule.Flat.reducible hT he cr hκ hb (hflat _ rs r h1 h2) hctx hΓe hΓ hl hls k2 hus1 h3 h4 h5.1
          have hres : Rc T.rules T.eta (B.simple κ) (r.rhs.den.sub σ) := by
            refine Tm.Descends.reducible hT he cr hκ hR (σ₀ := σ) (Small := fun v => SmallerArg T.rules T.eta (some v) o)
              (fun c A hc hlt => hlow c A hc (hs ▸ hlt)) ?_ ?_ (hdesc _ rs r h1 h2) hB2 hΓ hσ fun _ => rfl
            · intro c A' as' vs ρ v hc hlv hA' hvs hv hsm
              refine Rc.of_sn fun as3 ws hρ hws => ?_
              rw [← Tm.apps_append]
              refine iho (some v) hsm c A' (as' ++ as3) (vs ++ ws) hc (hlv.trans hs) (by rw [Ty.arrs_append, hA', hρ])
                (List.rel_append hvs hws) ?_
              rw [List.getElem?_append_left (List.getElem?_eq_some_iff.1 hv).1, hv]
            · intro s' ps' q t' hp hq ht'
              obtain ⟨w, bs', j1, j2, j3⟩ := h4.get hp
              cases j2 with
              | @symb _ _ ws _ j2 =>
                obtain ⟨v, bs'', i1, i2, w', i3, i4⟩ := PBinds.part (R := T.rules) (eta := T.eta) hq j2
                refine ⟨_, Tm.apps (.const s') ws, rfl, ?_, ?_⟩
                · rw [← hpos, List.getElem?_append_left (List.getElem?_eq_some_iff.1 j1).1, j1]
                · rw [ht'.sub_eq i1 fun b hb => h5.1 _ _ (lookup_of_nodup (by rw [h4.vars]; exact hlin _ rs r h1 h2) (j3 b (i2 b hb)))]
                  have := below_apps_arg (R := T.rules) (eta := T.eta) (f := .const s') i3
                  rcases i4 with rfl | i4
                  · exact this
                  · exact i4.trans this
          rw [← k3] at hres
          exact Rc.apps hres hus2

/-- All constants are reducible. -/
theorem reducible_consts (hR : ClosedRules T.rules) (hb : ∀ c, (∀ rs, T.rules c = some rs → rs = []) → κ c = .base) {lv pos : Sym → Nat}
    (hlin : ∀ s rs r, T.rules s = some rs → r ∈ rs → (Pattern.varsList r.lhs.args).Nodup)
    (hrt : ∀ s rs r, T.rules s = some rs → r ∈ rs → r.lhs.symbol = s ∧ RuleTyped T r)
    (hflat : ∀ s rs r, T.rules s = some rs → r ∈ rs → r.Flat T.rules)
    (hdesc : ∀ s rs r, T.rules s = some rs → r ∈ rs → r.rhs.den.Descends lv pos r 0) (c : Sym) (A : Tm) (hA : T.ty c = some A) :
    Rc T.rules T.eta (A.simple κ) (.const c) := by
  have key : ∀ n c A, T.ty c = some A → lv c = n → Rc T.rules T.eta (A.simple κ) (.const c) := by
    intro n
    induction n using Nat.strongRecOn with
    | ind n ih =>
      intro c A hA hn
      refine Rc.of_sn fun as us e hus => ?_
      refine reducible_level hT he cr hκ hR hb hlin hrt hflat hdesc (ℓ := n) (fun c A hc h => ih _ h c A hc rfl) (o := us[pos c]?) ?_ c A as us hA hn e hus rfl
      refine SmallerArg.acc fun w hw => ?_
      have h1 := (List.getElem?_eq_some_iff.1 hw).1
      have := hus.get (by rw [hus.length_eq]; exact h1) h1
      simp only [List.get_eq_getElem, (List.getElem?_eq_some_iff.1 hw).2] at this
      exact this.sn
  exact key _ c A hA rfl

end

/-! ## Fewer rules -/

/-- the symbols introduced by commands -/
def introduced (cmds : List Cmd) : List Sym :=
  cmds.filterMap fun
    | .intro s _ => some s
    | .rules _ => none

theorem introduced_append (cmds cmds' : List Cmd) : introduced (cmds ++ cmds') = introduced cmds ++ introduced cmds' := List.filterMap_append

theorem introduced_of_rules {cmds : List Cmd} {s : Sym} {rs : List Rule} (h : rulesOfCmds cmds s = some rs) : s ∈ introduced cmds := by
  induction cmds using List.reverseRecOn generalizing rs with
  | nil => cases h
  | append_singleton cmds cmd ih =>
    rw [introduced_append]
    rw [rulesOfCmds_snoc] at h
    cases cmd with
    | intro s' it =>
      simp only at h
      split at h
      · next e => subst e; simp [introduced]
      · exact List.mem_append_left _ (ih h)
    | rules rs' =>
      simp only [Option.map_eq_some_iff] at h
      obtain ⟨l, h1, -⟩ := h
      exact List.mem_append_left _ (ih h1)

/-- no symbol is introduced twice, so rules stay -/
theorem rulesOfCmds_prefix {pre post : List Cmd} (hn : (introduced (pre ++ post)).Nodup) {s : Sym} {rs : List Rule} (h : rulesOfCmds pre s = some rs) :
    ∃ rs', rulesOfCmds (pre ++ post) s = some rs' ∧ ∀ r ∈ rs, r ∈ rs' := by
  induction post using List.reverseRecOn with
  | nil => exact ⟨rs, by rw [List.append_nil]; exact h, fun _ h => h⟩
  | append_singleton post cmd ih =>
    rw [← List.append_assoc] at hn ⊢
    rw [introduced_append] at hn
    obtain ⟨rs', h1, h2⟩ := ih (List.nodup_append.1 hn).1
    rw [rulesOfCmds_snoc]
    cases cmd with
    | intro s' it =>
      refine ⟨rs', ?_, h2⟩
      simp only
      rw [if_neg, h1]
      rintro rfl
      exact (List.nodup_append.1 hn).2.2 s (introduced_of_rules h1) s (by simp [introduced]) rfl
    | rules l => exact ⟨_, by simp only [h1, Option.map_some]; rfl, fun r hr => List.mem_append_left _ (h2 r hr)⟩

theorem Shared.introduced {ns : List (List Str × Str)} {es : List Entry} {cmds : List Cmd} (h : Shared ns es cmds) :
    (introduced cmds).Nodup ∧ ∀ s ∈ Kontroli.introduced cmds, ns.length ≤ s := by
  induction h with
  | nil => exact ⟨List.nodup_nil, nofun⟩
  | @intro ns m x args it it' es cmds _ _ _ ih =>
    have e : Kontroli.introduced (.intro ns.length it' :: cmds) = ns.length :: Kontroli.introduced cmds := rfl
    rw [e]
    refine ⟨List.nodup_cons.2 ⟨fun h => ?_, ih.1⟩, fun s hs => ?_⟩
    · have := ih.2 _ h
      simp at this
    · rcases List.mem_cons.1 hs with rfl | hs
      · exact Nat.le_refl _
      · have := ih.2 s hs
        simp only [List.length_append, List.length_cons, List.length_nil] at this
        omega
  | rules _ _ ih => exact ih

/-! ## Sessions -/

theorem RulesForObjects.prefix {pre post : List Cmd} (h : RulesForObjects (pre ++ post)) : RulesForObjects pre := by
  intro p rs q T e hS
  exact h p rs (q ++ post) T (by rw [e]; simp) hS

theorem SessionIn.fits {cmds : List Cmd} {T : Theory} (h : Session cmds T) (ho : Orthogonal T.rules) (hobj : RulesForObjects cmds) :
    ∃ κ, Fits T κ ∧ ∀ c, (∀ rs, T.rules c = some rs → rs = []) → κ c = .base := by
  induction h with
  | nil => exact ⟨fun _ => .base, ⟨nofun, nofun⟩, fun _ _ => rfl⟩
  | @rules cmds T rs hS hr ih =>
    have hle := T.extend_le rs
    have ho' := Orthogonal.sub (fun s rs r h hr => let ⟨rs', h1, h2⟩ := hle.rules s rs h; ⟨rs', h1, h2 r hr⟩) ho
    obtain ⟨κ, hκ, hb⟩ := ih ho' hobj.prefix
    have hT := hS.wellFormed ho'.confluent
    have hS' := hS.rules hr
    have hT' := hS'.wellFormed ho.confluent
    refine ⟨κ, ⟨?_, ?_⟩, ?_⟩
    · intro c A hc hA
      refine hκ.obj c A hc ?_
      obtain ⟨s', hs', hB⟩ := hT.types c A hc
      cases hs' with
      | type => exact hB
      | kind =>
        obtain ⟨n, hn⟩ := (hB.mono hle).kind_kl (.plain hS'.eta ho.confluent) hT' rfl .nil
        exact (hn.not_type (.plain hS'.eta ho.confluent) hT' hA .nil).elim
    · intro s l r hl hr'
      simp only [Theory.extend, Option.map_eq_some_iff] at hl
      obtain ⟨l, h1, rfl⟩ := hl
      rcases List.mem_append.1 hr' with hr' | hr'
      · rcases hκ.rule s l r h1 hr' with h | ⟨A, h2, h3⟩
        · exact .inl h
        · exact .inr ⟨A, h2, h3.mono hle⟩
      · have h2 := List.mem_filter.1 hr'
        have h3 : r.lhs.symbol = s := by simpa using h2.2
        subst h3
        cases hA : T.ty r.lhs.symbol with
        | none => rw [hS.dom _ hA] at h1; cases h1
        | some A => exact .inr ⟨A, hA, (hobj cmds rs [] T rfl hS r h2.1 A hA).mono hle⟩
    · intro c hc
      refine hb c fun l hl => ?_
      have := hc _ (show (T.extend rs).rules c = some (l ++ rs.filter fun r => r.lhs.symbol = c) by simp only [Theory.extend, hl, Option.map_some])
      exact (List.append_eq_nil_iff.1 this).1
  | @intro cmds T s it A rs hS hs hI ih =>
    have hle := Theory.declare_le hs (hS.dom s hs) A rs
    have ho' := Orthogonal.sub (fun s rs r h hr => let ⟨rs', h1, h2⟩ := hle.rules s rs h; ⟨rs', h1, h2 r hr⟩) ho
    obtain ⟨κ, hκ, hb⟩ := ih ho' hobj.prefix
    have hS' := hS.intro hs hI
    have cr := ho'.confluent
    have cr' := ho.confluent
    have hT := hS.wellFormed cr
    have hT' := hS'.wellFormed cr'
    let k : Ty := match (generalizing := false) rs with
      | some [r] => r.rhs.den.simple κ
      | _ => .base
    let κ' : Sym → Ty := fun c => if c = s then k else κ c
    have hcc : ∀ c, T.ty c ≠ none → κ c = κ' c := by
      intro c hc
      simp only [κ']
      split
      · next e => subst e; exact absurd hs hc
      · rfl
    -- types in the old theory that have type `Type` in the new one
    have down : ∀ {B : Tm}, T.IsType B → Strict (T.declare s A rs) [] B .type → Strict T [] B .type := by
      rintro B ⟨s', hs', hB⟩ h
      cases hs' with
      | type => exact hB
      | kind =>
        obtain ⟨n, hn⟩ := (hB.mono hle).kind_kl (.plain hS'.eta cr') hT' rfl .nil
        exact (hn.not_type (.plain hS'.eta cr') hT' h .nil).elim
    refine ⟨κ', ⟨?_, ?_⟩, ?_⟩
    · intro c B hB h
      simp only [Theory.declare] at hB
      split at hB
      · next e =>
        subst e; cases hB
        simp only [κ', if_true, k]
        match rs, hI with
        | none, _ => rfl
        | some l, hI =>
          rcases hI.rules with rfl | ⟨tm, rfl, ht⟩
          · rfl
          · exact ht.simple_base hT (.plain hS.eta cr) hκ.obj .nil (down hI.strict.2 h)
      · rw [← hcc c (by rw [hB]; nofun)]
        exact hκ.obj c B hB (down (hT.types c B hB) h)
    · intro s' l r hl hr
      simp only [Theory.declare] at hl
      split at hl
      · next e =>
        subst e; subst hl
        rcases hI.rules with rfl | ⟨tm, rfl, ht⟩
        · cases hr
        · rw [List.mem_singleton] at hr
          subst hr
          refine .inl ⟨ht.freeBelow, ?_⟩
          rw [← ht.simple_congr hcc]
          simp [κ', k]
      · next e =>
        rcases hκ.rule s' l r hl hr with ⟨h1, h2⟩ | ⟨B, h1, h2⟩
        · refine .inl ⟨h1, ?_⟩
          have hty : T.ty s' ≠ none := fun h => by rw [hS.dom s' h] at hl; cases hl
          obtain ⟨-, t, ht, -, B, -, h3⟩ := hS.typed hl hr
          rw [← h3.simple_congr hcc, ← hcc s' hty]
          exact h2
        · exact .inr ⟨B, hle.ty _ _ h1, h2.mono hle⟩
    · intro c hc
      simp only [Theory.declare] at hc
      simp only [κ']
      split
      · next e =>
        subst e
        simp only [if_true] at hc
        simp only [k]
        match rs, hc with
        | none, _ => rfl
        | some l, hc =>
          have := hc l rfl
          subst this
          rfl
      · next e => exact hb c (by simpa [e] using hc)

theorem Rule.Flat.sub {R R' : RuleMap} (h : ∀ s rs, R s = some rs → ∃ rs', R' s = some rs' ∧ ∀ r ∈ rs, r ∈ rs') {r : Rule} (hf : r.Flat R') : r.Flat R := by
  intro s ps n h1 h2
  obtain ⟨ty, c, as, k1, k2, k3⟩ := hf s ps n h1 h2
  refine ⟨ty, c, as, k1, k2, fun rs hrs => ?_⟩
  obtain ⟨rs', h3, h4⟩ := h c rs hrs
  rw [k3 rs' h3] at h4
  exact List.eq_nil_iff_forall_not_mem.2 fun r hr => by simpa using h4 r hr

theorem Structural.prefix {pre post : List Cmd} (hn : (introduced (pre ++ post)).Nodup) (h : Structural (pre ++ post)) : Structural pre where
  objects := h.objects.prefix
  flat rs hm r hr := (h.flat rs (List.mem_append_left _ hm) r hr).sub fun _ _ h => rulesOfCmds_prefix hn h
  descends := by
    obtain ⟨lv, pos, hd⟩ := h.descends
    refine ⟨lv, pos, fun s rs r hs hr => ?_⟩
    obtain ⟨rs', h1, h2⟩ := rulesOfCmds_prefix hn hs
    exact hd s rs' r h1 (h2 r hr)

/-- Structurally recursive rules are normalising on typed terms. -/
theorem SessionIn.normalising_structural {cmds : List Cmd} {T : Theory} (h : Session cmds T) (ho : Orthogonal (rulesOfCmds cmds)) (hs : Structural cmds) :
    T.Normalising := by
  have e := h.rulesEq
  rw [← e] at ho
  obtain ⟨κ, hκ, hb⟩ := h.fits ho hs.objects
  obtain ⟨lv, pos, hd⟩ := hs.descends
  have cr := ho.confluent
  have hT := h.wellFormed cr
  refine Theory.normalising hT (.plain h.eta cr) hκ ho.closed
    (reducible_consts hT h.eta cr hκ ho.closed hb ho.linear (fun s rs r hr hm => h.typed hr hm) ?_ fun s rs r hr hm => hd s rs r (e ▸ hr) hm)
  intro s rs r hr hm
  rw [e] at hr
  have h1 := (rulesOfCmds_mem hr hm).1
  unfold allRules at h1
  obtain ⟨cmd, h2, h3⟩ := List.mem_flatMap.1 h1
  cases cmd with
  | intro s' it =>
    have : r.lhs.args = [] := by
      cases it with
      | declaration b ty => cases b <;> simp [Intro.ruleList] at h3
      | definition ty tm =>
        cases tm with
        | none => simp [Intro.ruleList] at h3
        | some tm => simp [Intro.ruleList] at h3; rw [h3]
      | theorem_ ty tm => simp [Intro.ruleList] at h3
    intro s ps n h4
    rw [this] at h4
    cases h4
  | rules rs' =>
    rw [e]
    exact hs.flat rs' h2 r h3

/-! ## The test -/

mutual
  theorem Pattern.term_patTm : (p : Pattern) → ∀ t, p.term = some t → PatTm p t
    | .mvar n, t, h => by
      simp only [Pattern.term, Option.some.injEq] at h
      subst h; exact .var
    | .joker, t, h => by cases h
    | .symb s ps, t, h => by
      simp only [Pattern.term, Option.map_eq_some_iff] at h
      obtain ⟨ts, h1, rfl⟩ := h
      obtain ⟨h2, h3⟩ := Pattern.terms_patTm ps ts h1
      exact .symb h2 h3
  theorem Pattern.terms_patTm : (ps : List Pattern) → ∀ ts, Pattern.terms ps = some ts →
      ps.length = ts.length ∧ ∀ (i : Nat) p t, ps[i]? = some p → ts[i]? = some t → PatTm p t
    | [], ts, h => by
      simp only [Pattern.terms, Option.some.injEq] at h
      subst h; exact ⟨rfl, nofun⟩
    | p :: ps, ts, h => by
      simp only [Pattern.terms, Option.bind_eq_some_iff, Option.map_eq_some_iff] at h
      obtain ⟨t, h1, us, h2, rfl⟩ := h
      have h3 := Pattern.term_patTm p t h1
      obtain ⟨h4, h5⟩ := Pattern.terms_patTm ps us h2
      refine ⟨by simp [h4], fun i q u hq hu => ?_⟩
      cases i with
      | zero =>
        simp only [List.getElem?_cons_zero, Option.some.injEq] at hq hu
        subst hq; subst hu; exact h3
      | succ i => exact h5 i q u (by simpa using hq) (by simpa using hu)
end

mutual
  theorem Pattern.parts_in : (p q : Pattern) → q ∈ p.parts → Pattern.In q p
    | .mvar n, q, h => by
      simp only [Pattern.parts, List.mem_singleton] at h
      subst h; exact .self
    | .joker, q, h => by
      simp only [Pattern.parts, List.mem_singleton] at h
      subst h; exact .self
    | .symb s ps, q, h => by
      simp only [Pattern.parts, List.mem_cons] at h
      rcases h with rfl | h
      · exact .self
      · exact .arg (Pattern.partsList_in ps q h)
  theorem Pattern.partsList_in : (ps : List Pattern) → (q : Pattern) → q ∈ Pattern.partsList ps → Pattern.InList q ps
    | [], q, h => by cases h
    | p :: ps, q, h => by
      simp only [Pattern.partsList, List.mem_append] at h
      rcases h with h | h
      · exact .here (Pattern.parts_in p q h)
      · exact .there (Pattern.partsList_in ps q h)
end

theorem Tm.Descends.apps {lv pos : Sym → Nat} {r : Rule} {d : Nat} {t : Tm} {as : List Tm} (h : Tm.Descends lv pos r d t)
    (ha : ∀ a ∈ as, Tm.Descends lv pos r d a) : Tm.Descends lv pos r d (Tm.apps t as) := by
  induction as generalizing t with
  | nil => exact h
  | cons a as ih => exact ih (.app h (ha a List.mem_cons_self)) fun b hb => ha b (List.mem_cons_of_mem _ hb)

theorem Tm.descends_sound {lv pos : Sym → Nat} {r : Rule} {d : Nat} {t : Tm} {as : List Tm} (h : t.descends lv pos r d as = true)
    (ha : ∀ a ∈ as, Tm.Descends lv pos r d a) : Tm.Descends lv pos r d (Tm.apps t as) := by
  induction t generalizing d as with
  | kind => exact Tm.Descends.kind.apps ha
  | type => exact Tm.Descends.type.apps ha
  | var n => exact Tm.Descends.var.apps ha
  | const c =>
    simp only [Tm.descends, Bool.or_eq_true, decide_eq_true_eq, Bool.and_eq_true, beq_iff_eq, List.any_eq_true] at h
    rcases h with h | ⟨h, t, ht, h2⟩
    · exact (Tm.Descends.const h).apps ha
    · unfold Rule.smaller at ht
      split at ht
      · next s ps e =>
        obtain ⟨q, h3, h4⟩ := List.mem_filterMap.1 ht
        exact .call h e (Pattern.partsList_in ps q h3) (Pattern.term_patTm q t h4) h2 ha
      · cases ht
  | app f a ihf iha =>
    simp only [Tm.descends, Bool.and_eq_true] at h
    refine ihf (as := a :: as) h.1 fun b hb => ?_
    rcases List.mem_cons.1 hb with rfl | hb
    · exact iha (as := []) h.2 nofun
    · exact ha b hb
  | lam A b ihA ihb =>
    simp only [Tm.descends, Bool.and_eq_true] at h
    exact (Tm.Descends.lam (ihA (as := []) h.1 nofun) (ihb (as := []) h.2 nofun)).apps ha
  | dlam b ihb =>
    simp only [Tm.descends] at h
    exact (Tm.Descends.dlam (ihb (as := []) h nofun)).apps ha
  | pi A b ihA ihb =>
    simp only [Tm.descends, Bool.and_eq_true] at h
    exact (Tm.Descends.pi (ihA (as := []) h.1 nofun) (ihb (as := []) h.2 nofun)).apps ha

theorem Tm.rigid_sound {R : RuleMap} {t : Tm} (h : t.rigid R = true) : ∃ c as, t = Tm.apps (.const c) as ∧ ∀ rs, R c = some rs → rs = [] := by
  induction t with
  | const c =>
    refine ⟨c, [], rfl, fun rs hrs => ?_⟩
    simp only [Tm.rigid, hrs, Option.all_some, List.isEmpty_iff] at h
    exact h
  | app f a ihf _ =>
    obtain ⟨c, as, rfl, h2⟩ := ihf h
    exact ⟨c, as ++ [a], (Tm.apps_snoc _ _ _).symm, h2⟩
  | _ => cases h

theorem Rule.flat_sound {R : RuleMap} {r : Rule} (h : r.flat R = true) : r.Flat R := by
  intro s ps n h1 h2
  unfold Rule.flat at h
  have h3 := List.all_eq_true.1 h _ h1
  simp only at h3
  have h4 := List.all_eq_true.1 h3 n h2
  obtain ⟨o, h5, h6⟩ := (Option.any_eq_true _ _).1 h4
  obtain ⟨ty, rfl, h7⟩ := (Option.any_eq_true _ _).1 h6
  obtain ⟨c, as, h8, h9⟩ := Tm.rigid_sound h7
  exact ⟨ty, c, as, h5, h8, h9⟩

theorem Strict.kind_small {T : Theory} (hT : T.Sorted) {Γ : List Tm} {B C : Tm} (h : Strict T Γ B C) (e : C = .kind) (hΓ : WfCtx T Γ) : B.small = false := by
  induction h with
  | type => rfl
  | const h =>
    subst e
    obtain ⟨s, _, h⟩ := hT _ _ h
    exact absurd rfl h.not_kind
  | var h =>
    have h1 := hΓ.get hT.closed h
    exact absurd e h1.not_kind
  | app h1 h2 _ _ =>
    obtain ⟨s, _, h3⟩ := h1.app_sort hT h2 hΓ
    exact absurd e h3.not_kind
  | lam => cases e
  | dlam => cases e
  | pi h1 _ _ _ ih2 => exact ih2 e (hΓ.cons h1)
  | conv _ _ h _ _ _ => exact absurd e h.not_kind

theorem SessionIn.ty_introduced {cmds : List Cmd} {T : Theory} (h : Session cmds T) {s : Sym} {A : Tm} (hA : T.ty s = some A) : ∃ it, .intro s it ∈ cmds := by
  induction h with
  | nil => cases hA
  | @intro cmds T s' it B rs _ _ _ ih =>
    simp only [Theory.declare] at hA
    split at hA
    · next e => subst e; exact ⟨it, by simp⟩
    · obtain ⟨it', h⟩ := ih hA
      exact ⟨it', List.mem_append_left _ h⟩
  | rules _ _ ih =>
    obtain ⟨it', h⟩ := ih hA
    exact ⟨it', List.mem_append_left _ h⟩

theorem objects_sound {cmds : List Cmd} (h : ∀ rs, Cmd.rules rs ∈ cmds → ∀ r ∈ rs, isObject cmds r.lhs.symbol = true) : RulesForObjects cmds := by
  intro pre rs post T e hS r hm A hA
  have h3 := h rs (e ▸ List.mem_append_right _ List.mem_cons_self) r hm
  obtain ⟨it, h4⟩ := hS.ty_introduced hA
  obtain ⟨B, h5, ⟨s, hs, h6⟩, h7, -⟩ := hS.introduced h4
  rw [hA] at h5
  cases h5
  have h8 := List.all_eq_true.1 h3 _ (e ▸ List.mem_append_left _ h4 : Cmd.intro r.lhs.symbol it ∈ cmds)
  simp only [bne_self_eq_false, Bool.false_or] at h8
  obtain ⟨ty, h9, h10⟩ := (Option.any_eq_true _ _).1 h8
  rw [← h7 ty h9] at h10
  cases hs with
  | type => exact h6
  | kind =>
    have := h6.kind_small hS.sorted rfl .nil
    rw [h10] at this
    cases this

theorem structural_sound {lv pos : Sym → Nat} {cmds : List Cmd} (h : structural lv pos cmds = true) : Structural cmds := by
  unfold structural at h
  simp only [Bool.and_eq_true] at h
  obtain ⟨h1, h2⟩ := h
  have hr : ∀ rs, Cmd.rules rs ∈ cmds → ∀ r ∈ rs, r.flat (rulesOfCmds cmds) = true ∧ isObject cmds r.lhs.symbol = true := by
    intro rs hm r hr
    have h3 := List.all_eq_true.1 h2 _ hm
    simp only at h3
    have h4 := List.all_eq_true.1 h3 r hr
    simpa using h4
  refine ⟨objects_sound fun rs hm r hm' => (hr rs hm r hm').2, fun rs hm r hm' => Rule.flat_sound (hr rs hm r hm').1, lv, pos, fun s rs r hs hm => ?_⟩
  exact Tm.descends_sound (as := []) (List.all_eq_true.1 h1 r (rulesOfCmds_mem hs hm).1) nofun

end Kontroli
