import Verif.Spec.Red
import Verif.Proofs.ConvLemmas

/-!
# Properties of reduction
-/

namespace Kontroli

mutual
  theorem PBind.sub (τ : Nat → Tm) {p : Pattern} {t : Tm} {bs : List (Nat × Tm)} (h : PBind p t bs) :
      PBind p (t.sub τ) (bs.map fun b => (b.1, b.2.sub τ)) :=
    match h with
    | .mvar m t => .mvar m _
    | .joker t => .joker _
    | .symb hs => by
      rw [Tm.apps_sub]
      exact .symb (PBinds.sub τ hs)
  theorem PBinds.sub (τ : Nat → Tm) {ps : List Pattern} {ts : List Tm} {bs : List (Nat × Tm)}
      (h : PBinds ps ts bs) : PBinds ps (ts.map (·.sub τ)) (bs.map fun b => (b.1, b.2.sub τ)) :=
    match h with
    | .nil => .nil
    | .cons hp hps => by
      rw [List.map_append]
      exact .cons (PBind.sub τ hp) (PBinds.sub τ hps)
end

mutual
  theorem PBind.vars {p : Pattern} {t : Tm} {bs : List (Nat × Tm)} (h : PBind p t bs) :
      bs.map Prod.fst = p.vars :=
    match h with
    | .mvar m t => by simp [Pattern.vars]
    | .joker t => by simp [Pattern.vars]
    | .symb hs => by simp [Pattern.vars, PBinds.vars hs]
  theorem PBinds.vars {ps : List Pattern} {ts : List Tm} {bs : List (Nat × Tm)} (h : PBinds ps ts bs) :
      bs.map Prod.fst = Pattern.varsList ps :=
    match h with
    | .nil => by simp [Pattern.varsList]
    | .cons hp hps => by simp [Pattern.varsList, PBind.vars hp, PBinds.vars hps]
end

theorem PBinds.length {ps : List Pattern} {ts : List Tm} {bs : List (Nat × Tm)} (h : PBinds ps ts bs) :
    ps.length = ts.length :=
  match h with
  | .nil => rfl
  | .cons _ hps => by simp [PBinds.length hps]

mutual
  /-- a match up to conversion of the variables is convertible with an instance -/
  theorem PBind.inst {R : RuleMap} {eta : Bool} {σ : Nat → Tm} {p : Pattern} {t : Tm} {bs : List (Nat × Tm)}
      (h : PBind p t bs) (hσ : ∀ b ∈ bs, Conv R eta b.2 (σ b.1)) :
      ∃ t', PInst σ p t' ∧ Conv R eta t t' :=
    match h with
    | .mvar m t => ⟨σ m, .mvar m, hσ (m, t) (by simp)⟩
    | .joker t => ⟨t, .joker t, .refl t⟩
    | .symb hs => by
      obtain ⟨ts', h1, h2⟩ := PBinds.inst hs hσ
      exact ⟨_, .symb h1, Conv.apps (.refl _) h2⟩
  theorem PBinds.inst {R : RuleMap} {eta : Bool} {σ : Nat → Tm} {ps : List Pattern} {ts : List Tm}
      {bs : List (Nat × Tm)} (h : PBinds ps ts bs) (hσ : ∀ b ∈ bs, Conv R eta b.2 (σ b.1)) :
      ∃ ts', PInsts σ ps ts' ∧ List.Forall₂ (Conv R eta) ts ts' :=
    match h with
    | .nil => ⟨[], .nil, .nil⟩
    | .cons hp hps => by
      obtain ⟨t', h1, h2⟩ := PBind.inst hp (fun b hb => hσ b (List.mem_append_left _ hb))
      obtain ⟨ts', h3, h4⟩ := PBinds.inst hps (fun b hb => hσ b (List.mem_append_right _ hb))
      exact ⟨t' :: ts', .cons h1 h3, .cons h2 h4⟩
end

theorem lookup_map_sub (bs : List (Nat × Tm)) (τ : Nat → Tm) (m : Nat) :
    (bs.map fun b => (b.1, b.2.sub τ)).lookup m = (bs.lookup m).map (·.sub τ) := by
  induction bs with
  | nil => rfl
  | cons b bs ih =>
    obtain ⟨k, u⟩ := b
    simp only [List.map_cons, List.lookup_cons]
    cases m == k <;> simp [ih]

theorem Solves.sub {R : RuleMap} {eta : Bool} {bs : List (Nat × Tm)} {σ : Nat → Tm} (h : Solves R eta bs σ)
    (τ : Nat → Tm) : Solves R eta (bs.map fun b => (b.1, b.2.sub τ)) (fun n => (σ n).sub τ) := by
  refine ⟨fun m t hl => ?_, fun p hp => ?_⟩
  · rw [lookup_map_sub] at hl
    cases hb : bs.lookup m with
    | none => rw [hb] at hl; simp at hl
    | some u => rw [hb] at hl; simp at hl; simp only [h.1 m u hb, hl]
  · obtain ⟨b, hb, rfl⟩ := List.mem_map.1 hp
    exact (h.2 b hb).sub τ

namespace Red

variable {R : RuleMap} {eta : Bool}

/-- reduction is contained in conversion -/
theorem conv {t u : Tm} (h : Red R eta t u) : Conv R eta t u := by
  induction h with
  | refl t => exact .refl t
  | trans _ _ h1 h2 => exact .trans h1 h2
  | app _ _ h1 h2 => exact .app h1 h2
  | lam _ _ _ h2 => exact Conv.lam' h2
  | dlam _ h => exact .dlam h
  | pi _ _ h1 h2 => exact .pi h1 h2
  | beta A b a => exact Conv.beta_lam _ _ _
  | dbeta b a => exact .beta _ _
  | rule h1 h2 h3 h4 h5 _ =>
    obtain ⟨ts', h6, h7⟩ := h4.inst h5.2
    exact Conv.rule' h1 h2 h3 h6 h7

theorem apps {f f' : Tm} {as as' : List Tm} (hf : Red R eta f f') (has : List.Forall₂ (Red R eta) as as') :
    Red R eta (f.apps as) (f'.apps as') := by
  induction has generalizing f f' with
  | nil => exact hf
  | cons h _ ih => exact ih (.app hf h)

theorem ren {t u : Tm} (h : Red R eta t u) (ρ : Nat → Nat) : Red R eta (t.ren ρ) (u.ren ρ) := by
  induction h generalizing ρ with
  | refl t => exact .refl _
  | trans _ _ ih1 ih2 => exact .trans (ih1 ρ) (ih2 ρ)
  | app _ _ ih1 ih2 => exact .app (ih1 ρ) (ih2 ρ)
  | lam _ _ ih1 ih2 => exact .lam (ih1 ρ) (ih2 _)
  | dlam _ ih => exact .dlam (ih _)
  | pi _ _ ih1 ih2 => exact .pi (ih1 ρ) (ih2 _)
  | beta A b a => rw [Tm.inst_ren]; exact .beta _ _ _
  | dbeta b a => rw [Tm.inst_ren]; exact .dbeta _ _
  | rule h1 h2 h3 h4 h5 h6 =>
    rw [Tm.ren_eq_sub, Tm.ren_eq_sub, Tm.apps_sub, Tm.sub_sub]
    refine .rule h1 h2 h3 (PBinds.sub _ h4) (h5.sub _) fun m hm => ?_
    obtain ⟨n, hn⟩ := h6 m hm
    exact ⟨ρ n, by simp [hn, Tm.sub]⟩

theorem shift {t u : Tm} (h : Red R eta t u) (k : Nat) : Red R eta (t.shift k) (u.shift k) := h.ren _

theorem up {σ τ : Nat → Tm} (h : ∀ n, Red R eta (σ n) (τ n)) (n : Nat) :
    Red R eta (Tm.up σ n) (Tm.up τ n) := by
  cases n with
  | zero => exact .refl _
  | succ n => exact (h n).ren _

theorem sub_congr (t : Tm) {σ τ : Nat → Tm} (h : ∀ n, Red R eta (σ n) (τ n)) :
    Red R eta (t.sub σ) (t.sub τ) := by
  induction t generalizing σ τ with
  | var n => exact h n
  | app f a ihf iha => exact .app (ihf h) (iha h)
  | lam A b ihA ihb => exact .lam (ihA h) (ihb (up h))
  | dlam b ihb => exact .dlam (ihb (up h))
  | pi A B ihA ihB => exact .pi (ihA h) (ihB (up h))
  | _ => exact .refl _

end Red

/-- reversed reduction: `Rev t u` means that `u` reduces to `t` -/
def Rev (R : RuleMap) (eta : Bool) (t u : Tm) : Prop := Red R eta u t

namespace Rev

variable {R : RuleMap} {eta : Bool}

theorem refl (t : Tm) : Rev R eta t t := Red.refl t
theorem trans {t u v : Tm} (h : Rev R eta t u) (h' : Rev R eta u v) : Rev R eta t v := Red.trans h' h
theorem conv {t u : Tm} (h : Rev R eta t u) : Conv R eta t u := (Red.conv h).symm
theorem shift {t u : Tm} (h : Rev R eta t u) (k : Nat) : Rev R eta (t.shift k) (u.shift k) := Red.shift h k
theorem apps {f f' : Tm} {as as' : List Tm} (hf : Rev R eta f f') (has : List.Forall₂ (Rev R eta) as as') :
    Rev R eta (f.apps as) (f'.apps as') := Red.apps hf (List.Forall₂.flip has)

end Rev

/-! ### Kind-free terms -/

namespace Tm

/-- the term does not contain `Kind` -/
def NoKind : Tm → Prop
  | kind => False
  | app f a => NoKind f ∧ NoKind a
  | lam A b => NoKind A ∧ NoKind b
  | dlam b => NoKind b
  | pi A B => NoKind A ∧ NoKind B
  | _ => True

theorem NoKind.ren {t : Tm} (h : NoKind t) (ρ : Nat → Nat) : NoKind (t.ren ρ) := by
  induction t generalizing ρ with
  | kind => exact h
  | app f a ihf iha => exact ⟨ihf h.1 ρ, iha h.2 ρ⟩
  | lam f a ihf iha => exact ⟨ihf h.1 ρ, iha h.2 _⟩
  | pi f a ihf iha => exact ⟨ihf h.1 ρ, iha h.2 _⟩
  | dlam a iha => exact iha (show NoKind a from h) _
  | _ => trivial

theorem NoKind.up {σ : Nat → Tm} (hσ : ∀ n, NoKind (σ n)) (n : Nat) : NoKind (up σ n) := by
  cases n with
  | zero => trivial
  | succ n => exact (hσ n).ren _

theorem NoKind.sub {t : Tm} (h : NoKind t) {σ : Nat → Tm} (hσ : ∀ n, NoKind (σ n)) : NoKind (t.sub σ) := by
  induction t generalizing σ with
  | kind => exact h
  | var n => exact hσ n
  | app f a ihf iha => exact ⟨ihf h.1 hσ, iha h.2 hσ⟩
  | lam f a ihf iha => exact ⟨ihf h.1 hσ, iha h.2 (NoKind.up hσ)⟩
  | pi f a ihf iha => exact ⟨ihf h.1 hσ, iha h.2 (NoKind.up hσ)⟩
  | dlam a iha => exact iha (show NoKind a from h) (NoKind.up hσ)
  | _ => trivial

theorem NoKind.inst {t u : Tm} (h : NoKind t) (hu : NoKind u) : NoKind (t.inst u) :=
  h.sub fun n => by cases n with
    | zero => exact hu
    | succ n => trivial

theorem noKind_apps {f : Tm} {as : List Tm} : NoKind (f.apps as) ↔ NoKind f ∧ ∀ a ∈ as, NoKind a := by
  induction as generalizing f with
  | nil => simp [apps]
  | cons a as ih => simp [apps, ih, NoKind, and_assoc]

end Tm

mutual
  theorem LTerm.noKind (t : LTerm) : t.den.NoKind := by
    cases t with
    | comb c => exact LComb.noKind c
    | _ => trivial
  theorem LComb.noKind (c : Comb Str LTerm) : (LComb.den c).NoKind := by
    cases c with
    | appl f as =>
      unfold LComb.den
      exact Tm.noKind_apps.2 ⟨LTerm.noKind f, LTerm.noKindList as⟩
    | prod id a b => exact ⟨LTerm.noKind a, LTerm.noKind b⟩
    | abst id a b => exact LTerm.noKindAbs a (LTerm.noKind b)
  theorem LTerm.noKindList (ts : List LTerm) : ∀ a ∈ LTerm.denList ts, a.NoKind := by
    cases ts with
    | nil => simp [LTerm.denList]
    | cons t ts =>
      intro a ha
      simp only [LTerm.denList, List.mem_cons] at ha
      rcases ha with rfl | ha
      · exact LTerm.noKind t
      · exact LTerm.noKindList ts a ha
  theorem LTerm.noKindAbs (o : Option LTerm) {b : Tm} (hb : b.NoKind) : (LTerm.denAbs o b).NoKind := by
    cases o with
    | none => exact hb
    | some t => exact ⟨LTerm.noKind t, hb⟩
end

mutual
  theorem PBind.noKind {p : Pattern} {t : Tm} {bs : List (Nat × Tm)} (h : PBind p t bs) (ht : t.NoKind) :
      ∀ b ∈ bs, b.2.NoKind := by
    cases h with
    | mvar m => simpa using ht
    | joker => simp
    | symb h => exact PBinds.noKind h (Tm.noKind_apps.1 ht).2
  theorem PBinds.noKind {ps : List Pattern} {ts : List Tm} {bs : List (Nat × Tm)} (h : PBinds ps ts bs)
      (ht : ∀ t ∈ ts, t.NoKind) : ∀ b ∈ bs, b.2.NoKind := by
    cases h with
    | nil => simp
    | cons h1 h2 =>
      intro b hb
      rcases List.mem_append.1 hb with hb | hb
      · exact PBind.noKind h1 (ht _ List.mem_cons_self) b hb
      · exact PBinds.noKind h2 (fun t h => ht t (List.mem_cons_of_mem _ h)) b hb
end

theorem mem_of_lookup {bs : List (Nat × Tm)} {m : Nat} {t : Tm} (h : bs.lookup m = some t) : (m, t) ∈ bs := by
  induction bs with
  | nil => simp at h
  | cons b bs ih =>
    obtain ⟨k, u⟩ := b
    simp only [List.lookup_cons] at h
    cases hk : m == k with
    | true => simp [hk] at h; simp at hk; subst hk; subst h; exact List.mem_cons_self
    | false => simp [hk] at h; exact List.mem_cons_of_mem _ (ih h)

theorem lookup_isSome {bs : List (Nat × Tm)} {m : Nat} (h : m ∈ bs.map Prod.fst) : ∃ t, bs.lookup m = some t := by
  induction bs with
  | nil => simp at h
  | cons b bs ih =>
    obtain ⟨k, u⟩ := b
    simp only [List.lookup_cons]
    cases hk : m == k with
    | true => exact ⟨u, rfl⟩
    | false =>
      simp at hk
      simp only [List.map_cons, List.mem_cons, hk, false_or] at h
      exact ih h

theorem Red.noKind {R : RuleMap} {eta : Bool} {t u : Tm} (h : Red R eta t u) (ht : t.NoKind) : u.NoKind := by
  induction h with
  | refl t => exact ht
  | trans _ _ ih1 ih2 => exact ih2 (ih1 ht)
  | app _ _ ih1 ih2 => exact ⟨ih1 ht.1, ih2 ht.2⟩
  | lam _ _ ih1 ih2 => exact ⟨ih1 ht.1, ih2 ht.2⟩
  | dlam _ ih => exact ih ht
  | pi _ _ ih1 ih2 => exact ⟨ih1 ht.1, ih2 ht.2⟩
  | beta A b a => exact Tm.NoKind.inst ht.1.2 ht.2
  | dbeta b a => exact Tm.NoKind.inst (t := b) ht.1 ht.2
  | @rule s rs r σ ts bs h1 h2 h3 h4 h5 h6 =>
    refine Tm.NoKind.sub (LTerm.noKind _) fun m => ?_
    by_cases hm : m < r.ctx.length
    · have : m ∈ bs.map Prod.fst := by rw [h4.vars]; exact (h3 m).2 hm
      obtain ⟨t, ht'⟩ := lookup_isSome this
      rw [h5.1 m t ht']
      exact h4.noKind (Tm.noKind_apps.1 ht).2 _ (mem_of_lookup ht')
    · obtain ⟨n, hn⟩ := h6 m (by omega)
      rw [hn]; trivial

theorem Tm.apps_ne_kind {f : Tm} {as : List Tm} (hf : f ≠ .kind) : f.apps as ≠ .kind := by
  induction as generalizing f with
  | nil => exact hf
  | cons b as ih => exact ih (by intro h; cases h)

theorem Red.of_kind {R : RuleMap} {eta : Bool} {t u : Tm} (h : Red R eta t u) (ht : t = .kind) : u = .kind := by
  induction h with
  | refl t => exact ht
  | trans _ _ ih1 ih2 => exact ih2 (ih1 ht)
  | rule => exact absurd ht (Tm.apps_ne_kind (by intro h; cases h))
  | _ => cases ht

end Kontroli
