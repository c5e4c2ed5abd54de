import Verif.Proofs.Eta

/-!
# With eta, and rules that only unfold definitions, terms that are apart are not convertible
-/

namespace Kontroli

section
variable {R : RuleMap}

theorem redEs_refl (ts : List Tm) : List.Forall₂ (RedE R) ts ts := by
  induction ts with
  | nil => exact .nil
  | cons t ts ih => exact .cons (.refl t) ih

theorem redEs_trans {ts us vs : List Tm} (h : List.Forall₂ (RedE R) ts us) (h' : List.Forall₂ (RedE R) us vs) :
    List.Forall₂ (RedE R) ts vs := by
  induction h generalizing vs with
  | nil => exact h'
  | cons h _ ih =>
    cases h' with
    | cons h1 h2 => exact .cons (h.trans h1) (ih h2)

theorem RedE.conv (hd : Definitional R) {t u : Tm} (h : RedE R t u) : Conv R true t u := by
  induction h with
  | refl => exact .refl _
  | trans _ _ ih1 ih2 => exact ih1.trans ih2
  | app _ _ ih1 ih2 => exact .app ih1 ih2
  | lam _ _ _ ih2 => exact (Conv.annot _ _).trans ((Conv.dlam ih2).trans (Conv.annot _ _).symm)
  | dlam _ ih => exact .dlam ih
  | annot => exact .annot _ _
  | pi _ _ ih1 ih2 => exact .pi ih1 ih2
  | beta => exact .beta _ _
  | eta f => exact .eta rfl f
  | @delta s d h =>
    obtain ⟨rs, r, h1, h2, h3, rfl⟩ := h
    have := Conv.rule (eta := true) (σ := .var) (ts := []) h1 h2 h3 (by rw [hd.args s rs r h1 h2]; exact .nil)
    rw [Tm.sub_var] at this
    exact this

/-- the term is not a constant that has a definition -/
def Tm.Undef (R : RuleMap) (h : Tm) : Prop := ∀ s, h = .const s → ∀ d, ¬ Defines R s d

/-- reduction inside a term whose head is atomic and has no definition -/
theorem RedE.atom {h v : Tm} {ts : List Tm} (ha : h.Atom) (hno : h.Undef R) (hr : RedE R (h.apps ts) v) :
    ∃ h' ts', v = h'.apps ts' ∧ h'.Atom ∧ h'.Undef R ∧ h.SameHead h' ∧ RedE R h h' ∧ List.Forall₂ (RedE R) ts ts' := by
  have same : ∀ {h : Tm}, h.Atom → h.SameHead h := fun ha => by cases ha <;> constructor
  generalize ht : h.apps ts = t at hr
  induction hr generalizing h ts with
  | refl => exact ⟨h, ts, ht.symm, ha, hno, same ha, .refl _, redEs_refl ts⟩
  | trans _ _ ih1 ih2 =>
    obtain ⟨h1, ts1, e1, a1, n1, s1, r1, rs1⟩ := ih1 ha hno ht
    obtain ⟨h2, ts2, e2, a2, n2, s2, r2, rs2⟩ := ih2 a1 n1 e1.symm
    refine ⟨h2, ts2, e2, a2, n2, ?_, r1.trans r2, redEs_trans rs1 rs2⟩
    cases s1 <;> cases s2 <;> constructor
  | app hf hx ih1 ih2 =>
    cases ts using List.reverseRecOn with
    | nil => exact absurd ht (ha.notApp _ _)
    | append_singleton init a =>
      rw [Tm.apps_snoc] at ht
      injection ht with e1 e2
      subst e2
      obtain ⟨h1, ts1, e1, a1, n1, s1, r1, rs1⟩ := ih1 ha hno e1
      refine ⟨h1, ts1 ++ [_], by rw [Tm.apps_snoc, e1], a1, n1, s1, r1, List.rel_append rs1 (.cons hx .nil)⟩
  | @lam A A' b b' =>
    obtain ⟨rfl, -⟩ := Tm.apps_inj (ts' := []) ha.notApp (Tm.IsAbs.lam A b).notApp ht
    cases ha
  | @dlam b b' =>
    obtain ⟨rfl, -⟩ := Tm.apps_inj (ts' := []) ha.notApp (Tm.IsAbs.dlam b).notApp ht
    cases ha
  | annot A b =>
    obtain ⟨rfl, -⟩ := Tm.apps_inj (ts' := []) ha.notApp (Tm.IsAbs.lam A b).notApp ht
    cases ha
  | eta f =>
    obtain ⟨rfl, -⟩ := Tm.apps_inj (ts' := []) ha.notApp (Tm.IsAbs.dlam _).notApp ht
    cases ha
  | @pi A A' B B' hA hB =>
    obtain ⟨rfl, rfl⟩ := Tm.apps_inj (ts' := []) ha.notApp (Tm.Atom.pi A B).notApp ht
    exact ⟨.pi A' B', [], rfl, .pi _ _, (by intro s h; cases h), .pi _ _ _ _, .pi hA hB, .nil⟩
  | beta b a =>
    obtain ⟨rfl, -⟩ := Tm.apps_inj (ts' := [a]) ha.notApp (Tm.IsAbs.dlam b).notApp ht
    cases ha
  | @delta s d h1 =>
    obtain ⟨rfl, rfl⟩ := Tm.apps_inj (ts' := []) ha.notApp (Tm.Atom.const s).notApp ht
    exact absurd h1 (hno s rfl d)

section
variable (hd : Definitional R)
include hd

/-- a weak-head normal form is an abstraction or has an atomic head without definition -/
theorem Whnf.neutral {h : Tm} {ts : List Tm} (ha : h.Atom) (hw : Whnf R true (h.apps ts)) : h.Undef R := by
  intro s hs d ⟨rs, r, h1, h2, h3, _⟩
  subst hs
  generalize ht : Tm.apps (.const s) ts = t at hw
  have an := (Tm.Atom.const s).notApp
  cases hw with
  | kind => cases (Tm.apps_inj an Tm.Atom.kind.notApp ht).1
  | type => cases (Tm.apps_inj an Tm.Atom.type.notApp ht).1
  | var n => cases (Tm.apps_inj an (Tm.Atom.var n).notApp ht).1
  | pi A B => cases (Tm.apps_inj an (Tm.Atom.pi A B).notApp ht).1
  | abs hb =>
    obtain ⟨e, -⟩ := Tm.apps_inj (ts' := []) an hb.notApp ht
    rw [← e] at hb
    cases hb
  | const hr =>
    obtain ⟨e, rfl⟩ := Tm.apps_inj an (Tm.Atom.const _).notApp ht
    cases e
    have hargs := hd.args s rs r h1 h2
    cases hr rs r h1 h2 with
    | short h => rw [hargs] at h; simp at h
    | unscoped h => exact h h3
    | clash h => rw [hargs] at h; cases h
    | apart h h' => rw [hargs] at h; cases h; simp at h'

theorem Definitional.atoms {h h' : Tm} {ts ts' : List Tm} (ha : h.Atom) (ha' : h'.Atom) (hs : h.Undef R)
    (hs' : h'.Undef R) (hc : Conv R true (h.apps ts) (h'.apps ts')) :
    h.SameHead h' ∧ Conv R true h h' ∧ List.Forall₂ (Conv R true) ts ts' := by
  obtain ⟨v, h1, h2⟩ := hd.confluent hc
  obtain ⟨k, vs, e1, a1, -, s1, r1, rs1⟩ := RedE.atom ha hs h1
  obtain ⟨k', vs', e2, a2, -, s2, r2, rs2⟩ := RedE.atom ha' hs' h2
  rw [e1] at e2
  obtain ⟨rfl, rfl⟩ := Tm.apps_inj a1.notApp a2.notApp e2
  refine ⟨?_, (r1.conv hd).trans (r2.conv hd).symm, ?_⟩
  · cases s1 <;> cases s2 <;> constructor
  · clear e1 e2 hc h1 h2
    induction rs1 generalizing ts' with
    | nil => cases rs2; exact .nil
    | cons h _ ih =>
      cases rs2 with
      | cons h' hs' => exact .cons ((h.conv hd).trans (h'.conv hd).symm) (ih hs')

theorem RedE.pi_inv {A B v : Tm} (h : RedE R (.pi A B) v) : ∃ A' B', v = .pi A' B' ∧ RedE R A A' ∧ RedE R B B' := by
  generalize ht : Tm.pi A B = t at h
  induction h generalizing A B with
  | refl => exact ⟨A, B, ht.symm, .refl _, .refl _⟩
  | trans _ _ ih1 ih2 =>
    obtain ⟨A1, B1, e1, r1, r2⟩ := ih1 ht
    obtain ⟨A2, B2, e2, r3, r4⟩ := ih2 e1.symm
    exact ⟨A2, B2, e2, r1.trans r3, r2.trans r4⟩
  | pi h1 h2 => cases ht; exact ⟨_, _, rfl, h1, h2⟩
  | _ => cases ht

/-- products are injective -/
theorem Definitional.pi {A B A' B' : Tm} (h : Conv R true (.pi A B) (.pi A' B')) : Conv R true A A' ∧ Conv R true B B' := by
  obtain ⟨v, h1, h2⟩ := hd.confluent h
  obtain ⟨A1, B1, rfl, r1, r2⟩ := RedE.pi_inv hd h1
  obtain ⟨A2, B2, e, r3, r4⟩ := RedE.pi_inv hd h2
  cases e
  exact ⟨(r1.conv hd).trans (r3.conv hd).symm, (r2.conv hd).trans (r4.conv hd).symm⟩

omit hd in
/-- two functions are equal if and only if they are equal on a new variable -/
theorem Conv.ext_body {t b u : Tm} (ht : t.IsAbs b) (h : Conv R true t u) : Conv R true b (.app (u.shift 1) (.var 0)) := by
  have h1 : Conv R true (.app (t.shift 1) (.var 0)) (.app (u.shift 1) (.var 0)) := .app (h.shift 1) (.refl _)
  refine Conv.trans (Conv.symm ?_) h1
  cases ht with
  | lam A b =>
    have := Conv.beta_lam (R := R) (eta := true) (A.ren (· + 1)) (b.ren (Tm.upr (· + 1))) (.var 0)
    rw [Tm.eta_beta] at this
    exact this
  | dlam b =>
    have := Conv.beta (R := R) (eta := true) (b.ren (Tm.upr (· + 1))) (.var 0)
    rw [Tm.eta_beta] at this
    exact this

omit hd in
theorem Conv.bodies {t u b b' : Tm} (ht : t.IsAbs b) (hu : u.IsAbs b') (h : Conv R true t u) : Conv R true b b' :=
  (h.ext_body ht).trans ((Conv.refl u).ext_body hu).symm

theorem Forall2.zip_mem {P : Tm → Tm → Prop} {ts us : List Tm} (h : List.Forall₂ P ts us) {a b : Tm} (hm : (a, b) ∈ ts.zip us) :
    P a b := by
  induction h with
  | nil => simp at hm
  | cons h1 _ ih =>
    rcases List.mem_cons.1 hm with e | hm
    · cases e; exact h1
    · exact ih hm

mutual
  theorem Apart.notConvE {t u : Tm} (h : Apart R true t u) : ¬ Conv R true t u :=
    match h with
    | .mk h1 h2 w1 w2 hdf => fun hc => Differ.notConvE hdf w1 w2 (h1.conv.symm.trans (hc.trans h2.conv))
  theorem Differ.notConvE {t u : Tm} (h : Differ R true t u) (ht : Whnf R true t) (hu : Whnf R true u) : ¬ Conv R true t u :=
    match h with
    | .length ha ha' hne => fun hc =>
      hne (hd.atoms ha ha' (Whnf.neutral hd ha ht) (Whnf.neutral hd ha' hu) hc).2.2.length_eq
    | .atom (h := h) (h' := h') ha ha' hne => fun hc =>
      hne (hd.atoms (ts := []) (ts' := []) ha ha' (Whnf.neutral hd (ts := []) ha ht) (Whnf.neutral hd (ts := []) ha' hu) hc).1
    | .head ha ha' _ hap => fun hc => Apart.notConvE hap (hd.atoms ha ha' (Whnf.neutral hd ha ht) (Whnf.neutral hd ha' hu) hc).2.1
    | .arg ha ha' _ hm hap => fun hc =>
      Apart.notConvE hap (Forall2.zip_mem hd (hd.atoms ha ha' (Whnf.neutral hd ha ht) (Whnf.neutral hd ha' hu) hc).2.2 hm)
    | .dom hap => fun hc => Apart.notConvE hap (hd.pi hc).1
    | .cod hap => fun hc => Apart.notConvE hap (hd.pi hc).2
    | .body hb hb' hap => fun hc => Apart.notConvE hap (hc.bodies hb hb')
    | .etaL _ hb _ hap => fun hc => Apart.notConvE hap (hc.ext_body hb)
    | .etaR _ hb _ hap => fun hc => Apart.notConvE hap (hc.symm.ext_body hb)
end

end

end

end Kontroli
