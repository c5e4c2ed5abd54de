import Verif.Spec.Confluence
import Verif.Proofs.WhnfLemmas

/-!
# If the rules are confluent, terms that are apart are not convertible
-/

namespace Kontroli

section
variable {R : RuleMap}

theorem RedA.conv {t u : Tm} (h : RedA R t u) : Conv R false t u := by
  induction h with
  | refl => exact .refl _
  | trans _ _ ih1 ih2 => exact ih1.trans ih2
  | app _ _ ih1 ih2 => exact .app ih1 ih2
  | lam _ _ _ ih2 => exact (Conv.annot _ _).trans ((Conv.dlam ih2).trans (Conv.annot _ _).symm)
  | dlam _ ih => exact .dlam ih
  | annot => exact .annot _ _
  | pi _ _ ih1 ih2 => exact .pi ih1 ih2
  | beta => exact .beta _ _
  | rule h1 h2 h3 h4 h5 h6 => exact (Red.rule (eta := false) h1 h2 h3 h4 h5 h6).conv

theorem Red.toA {t u : Tm} (h : Red R false t u) : RedA R t u := by
  induction h with
  | refl => exact .refl _
  | trans _ _ ih1 ih2 => exact ih1.trans ih2
  | app _ _ ih1 ih2 => exact .app ih1 ih2
  | lam _ _ ih1 ih2 => exact .lam ih1 ih2
  | dlam _ ih => exact .dlam ih
  | pi _ _ ih1 ih2 => exact .pi ih1 ih2
  | beta A b a => exact (RedA.app (.annot A b) (.refl a)).trans (.beta b a)
  | dbeta => exact .beta _ _
  | rule h1 h2 h3 h4 h5 h6 => exact .rule h1 h2 h3 h4 h5 h6

theorem redAs_refl (ts : List Tm) : List.Forall₂ (RedA R) ts ts := by
  induction ts with
  | nil => exact .nil
  | cons t ts ih => exact .cons (.refl t) ih

theorem redAs_trans {ts us vs : List Tm} (h : List.Forall₂ (RedA R) ts us) (h' : List.Forall₂ (RedA R) us vs) :
    List.Forall₂ (RedA R) ts vs := by
  induction h generalizing vs with
  | nil => exact h'
  | cons h _ ih =>
    cases h' with
    | cons h1 h2 => exact .cons (h.trans h1) (ih h2)

/-- no reduct of the arguments is matched by the rule -/
def NoMatch (R : RuleMap) (r : Rule) (ts : List Tm) : Prop :=
  ∀ ts', List.Forall₂ (RedA R) ts ts' → ∀ bs σ, PBinds r.lhs.args (ts'.take r.lhs.args.length) bs → ¬ Solves R false bs σ

theorem NoMatch.red {r : Rule} {ts us : List Tm} (h : NoMatch R r ts) (hr : List.Forall₂ (RedA R) ts us) :
    NoMatch R r us := fun vs h' => h vs (redAs_trans hr h')

theorem NoMatch.init {r : Rule} {ts : List Tm} {a : Tm} (h : NoMatch R r (ts ++ [a])) : NoMatch R r ts := by
  intro us hus bs σ hb
  have hl := hb.length
  rw [List.length_take] at hl
  refine h (us ++ [a]) (List.rel_append hus (.cons (.refl a) .nil)) bs σ ?_
  rw [List.take_append_of_le_length (by omega)]
  exact hb

/-- terms whose head stays under reduction -/
inductive Stable (R : RuleMap) : Tm → Prop
  | abs {t b : Tm} : t.IsAbs b → Stable R t
  | apps {h : Tm} {ts : List Tm} : h.Atom →
      (∀ s, h = .const s → ∀ rs r, R s = some rs → r ∈ rs → r.Scoped → NoMatch R r ts) → Stable R (h.apps ts)

theorem RedA.atom {h v : Tm} {ts : List Tm} (ha : h.Atom)
    (hno : ∀ s, h = .const s → ∀ rs r, R s = some rs → r ∈ rs → r.Scoped → NoMatch R r ts)
    (hr : RedA R (h.apps ts) v) :
    ∃ h' ts', v = h'.apps ts' ∧ h'.Atom ∧ h.SameHead h' ∧ RedA R h h' ∧ List.Forall₂ (RedA R) ts ts' := by
  have same : ∀ {h : Tm}, h.Atom → h.SameHead h := fun ha => by cases ha <;> constructor
  generalize ht : h.apps ts = t at hr
  induction hr generalizing h ts with
  | refl => exact ⟨h, ts, ht.symm, ha, same ha, .refl _, redAs_refl ts⟩
  | trans _ _ ih1 ih2 =>
    obtain ⟨h1, ts1, e1, a1, s1, r1, rs1⟩ := ih1 ha hno ht
    have hno1 : ∀ s, h1 = .const s → ∀ rs r, R s = some rs → r ∈ rs → r.Scoped → NoMatch R r ts1 := by
      intro s hs rs r h2 h3 h4
      have : h = .const s := by rw [hs] at s1; cases s1; rfl
      exact (hno s this rs r h2 h3 h4).red rs1
    obtain ⟨h2, ts2, e2, a2, s2, r2, rs2⟩ := ih2 a1 hno1 e1.symm
    refine ⟨h2, ts2, e2, a2, ?_, r1.trans r2, redAs_trans rs1 rs2⟩
    cases s1 <;> cases s2 <;> constructor
  | app hf hx ih1 ih2 =>
    cases ts using List.reverseRecOn with
    | nil => exact absurd ht (ha.notApp _ _)
    | append_singleton init a =>
      rw [Tm.apps_snoc] at ht
      injection ht with e1 e2
      subst e2
      obtain ⟨h1, ts1, e1, a1, s1, r1, rs1⟩ :=
        ih1 ha (fun s hs rs r h2 h3 h4 => (hno s hs rs r h2 h3 h4).init) e1
      refine ⟨h1, ts1 ++ [_], by rw [Tm.apps_snoc, e1], a1, s1, r1, List.rel_append rs1 (.cons hx .nil)⟩
  | @lam A A' b b' =>
    obtain ⟨rfl, -⟩ := Tm.apps_inj (ts' := []) ha.notApp (Tm.IsAbs.lam A b).notApp ht
    cases ha
  | @dlam b b' =>
    obtain ⟨rfl, -⟩ := Tm.apps_inj (ts' := []) ha.notApp (Tm.IsAbs.dlam b).notApp ht
    cases ha
  | annot A b =>
    obtain ⟨rfl, -⟩ := Tm.apps_inj (ts' := []) ha.notApp (Tm.IsAbs.lam A b).notApp ht
    cases ha
  | @pi A A' B B' hA hB =>
    obtain ⟨rfl, rfl⟩ := Tm.apps_inj (ts' := []) ha.notApp (Tm.Atom.pi A B).notApp ht
    exact ⟨.pi A' B', [], rfl, .pi _ _, .pi _ _ _ _, .pi hA hB, .nil⟩
  | beta b a =>
    obtain ⟨rfl, -⟩ := Tm.apps_inj (ts' := [a]) ha.notApp (Tm.IsAbs.dlam b).notApp ht
    cases ha
  | @rule s rs r σ us bs h1 h2 h3 h4 h5 h6 =>
    obtain ⟨rfl, rfl⟩ := Tm.apps_inj ha.notApp (Tm.Atom.const s).notApp ht
    have := hno s rfl rs r h1 h2 h3 ts (redAs_refl ts) bs σ
    rw [h4.length, List.take_length] at this
    exact absurd h5 (this h4)

theorem RedA.abs {t v b : Tm} (hb : t.IsAbs b) (hr : RedA R t v) : ∃ b', v.IsAbs b' ∧ RedA R b b' := by
  induction hr generalizing b with
  | refl => exact ⟨b, hb, .refl _⟩
  | trans _ _ ih1 ih2 =>
    obtain ⟨b1, h1, r1⟩ := ih1 hb
    obtain ⟨b2, h2, r2⟩ := ih2 h1
    exact ⟨b2, h2, r1.trans r2⟩
  | lam _ h => cases hb; exact ⟨_, .lam _ _, h⟩
  | dlam h => cases hb; exact ⟨_, .dlam _, h⟩
  | annot A b => cases hb; exact ⟨_, .dlam _, .refl _⟩
  | app => cases hb
  | pi => cases hb
  | beta => cases hb
  | @rule s rs r σ us bs h1 h2 h3 h4 h5 h6 =>
    have := hb.notApp
    obtain ⟨e, -⟩ := Tm.apps_inj (ts' := []) (Tm.Atom.const s).notApp hb.notApp (show _ = Tm.apps _ [] from rfl)
    rw [← e] at hb
    cases hb

/-- What a reduct of a stable term looks like. -/
theorem Stable.apps_red {h v : Tm} {ts : List Tm} (ha : h.Atom) (hs : Stable R (h.apps ts)) (hr : RedA R (h.apps ts) v) :
    ∃ h' ts', v = h'.apps ts' ∧ h'.Atom ∧ h.SameHead h' ∧ RedA R h h' ∧ List.Forall₂ (RedA R) ts ts' := by
  generalize ht : h.apps ts = t at hs
  cases hs with
  | @abs _ b hb =>
    obtain ⟨e, -⟩ := Tm.apps_inj (ts' := []) ha.notApp hb.notApp ht
    rw [← e] at hb
    exact absurd hb ha.not_abs
  | apps ha' hno =>
    obtain ⟨rfl, rfl⟩ := Tm.apps_inj ha.notApp ha'.notApp ht
    exact RedA.atom ha hno hr

theorem Stable.const_red {s : Sym} {v : Tm} {ts : List Tm} (hs : Stable R (Tm.apps (.const s) ts))
    (hr : RedA R (Tm.apps (.const s) ts) v) : ∃ ts', v = Tm.apps (.const s) ts' ∧ List.Forall₂ (RedA R) ts ts' := by
  obtain ⟨h', ts', e, -, h2, -, h3⟩ := hs.apps_red (.const s) hr
  cases h2
  exact ⟨ts', e, h3⟩

/-- reduction of bindings -/
def BsRedA (R : RuleMap) : List (Nat × Tm) → List (Nat × Tm) → Prop :=
  List.Forall₂ fun b b' => b.1 = b'.1 ∧ RedA R b.2 b'.2

theorem BsRedA.sublist {bs l bs' : List (Nat × Tm)} (h : BsRedA R bs bs') (hl : l.Sublist bs) :
    ∃ l', l'.Sublist bs' ∧ BsRedA R l l' := by
  induction hl generalizing bs' with
  | slnil => exact ⟨[], List.nil_sublist _, .nil⟩
  | cons a _ ih =>
    cases h with
    | cons h1 h2 =>
      obtain ⟨l', h3, h4⟩ := ih h2
      exact ⟨l', .cons _ h3, h4⟩
  | cons_cons a _ ih =>
    cases h with
    | cons h1 h2 =>
      obtain ⟨l', h3, h4⟩ := ih h2
      exact ⟨_, .cons_cons _ h3, .cons h1 h4⟩

theorem forall2_take {α β : Type} {P : α → β → Prop} {as : List α} {bs : List β} (h : List.Forall₂ P as bs) (n : Nat) :
    List.Forall₂ P (as.take n) (bs.take n) := by
  induction h generalizing n with
  | nil => simp
  | cons h hs ih =>
    cases n with
    | zero => simp
    | succ n => exact .cons h (ih n)

theorem zip_common {ts us vs : List Tm} (h1 : List.Forall₂ (RedA R) ts vs) (h2 : List.Forall₂ (RedA R) us vs)
    {a b : Tm} (h : (a, b) ∈ ts.zip us) : Conv R false a b := by
  induction h1 generalizing us with
  | nil => simp at h
  | cons h1 _ ih =>
    cases h2 with
    | cons h2 h2' =>
      rcases List.mem_cons.1 h with e | h
      · cases e; exact h1.conv.trans h2.conv.symm
      · exact ih h2' h

theorem RedA.pi_inv {A B v : Tm} (h : RedA R (.pi A B) v) : ∃ A' B', v = .pi A' B' ∧ RedA R A A' ∧ RedA R B B' := by
  generalize ht : Tm.pi A B = t at h
  induction h generalizing A B with
  | refl => exact ⟨A, B, ht.symm, .refl _, .refl _⟩
  | trans _ _ ih1 ih2 =>
    obtain ⟨A1, B1, e1, r1, r2⟩ := ih1 ht
    obtain ⟨A2, B2, e2, r3, r4⟩ := ih2 e1.symm
    exact ⟨A2, B2, e2, r1.trans r3, r2.trans r4⟩
  | pi h1 h2 => cases ht; exact ⟨_, _, rfl, h1, h2⟩
  | @rule s rs r σ us bs h1 h2 h3 h4 h5 h6 =>
    obtain ⟨e, -⟩ := Tm.apps_inj (ts := []) (Tm.Atom.pi A B).notApp (Tm.Atom.const s).notApp ht
    cases e
  | _ => cases ht

variable (cr : Confluent R)
include cr

/-- the body of an abstraction, up to conversion -/
theorem Confluent.body {t u b b' : Tm} (ht : t.IsAbs b) (hu : u.IsAbs b') (h : Conv R false t u) : Conv R false b b' := by
  obtain ⟨v, h1, h2⟩ := cr _ _ h
  obtain ⟨c, hc, r1⟩ := RedA.abs ht h1
  obtain ⟨c', hc', r2⟩ := RedA.abs hu h2
  have : c = c' := by cases hc <;> cases hc' <;> rfl
  subst this
  exact r1.conv.trans r2.conv.symm

theorem Confluent.pi {A B A' B' : Tm} (h : Conv R false (.pi A B) (.pi A' B')) :
    Conv R false A A' ∧ Conv R false B B' := by
  obtain ⟨v, h1, h2⟩ := cr _ _ h
  obtain ⟨A1, B1, rfl, r1, r2⟩ := RedA.pi_inv h1
  obtain ⟨A2, B2, e, r3, r4⟩ := RedA.pi_inv h2
  cases e
  exact ⟨r1.conv.trans r3.conv.symm, r2.conv.trans r4.conv.symm⟩

theorem Confluent.atoms {h h' : Tm} {ts ts' : List Tm} (ha : h.Atom) (ha' : h'.Atom) (hs : Stable R (h.apps ts))
    (hs' : Stable R (h'.apps ts')) (hc : Conv R false (h.apps ts) (h'.apps ts')) :
    h.SameHead h' ∧ Conv R false h h' ∧ ∃ vs, List.Forall₂ (RedA R) ts vs ∧ List.Forall₂ (RedA R) ts' vs := by
  obtain ⟨v, h1, h2⟩ := cr _ _ hc
  obtain ⟨k, vs, e1, a1, s1, r1, rs1⟩ := hs.apps_red ha h1
  obtain ⟨k', vs', e2, a2, s2, r2, rs2⟩ := hs'.apps_red ha' h2
  rw [e1] at e2
  obtain ⟨rfl, rfl⟩ := Tm.apps_inj a1.notApp a2.notApp e2
  refine ⟨?_, r1.conv.trans r2.conv.symm, vs, rs1, rs2⟩
  cases s1 <;> cases s2 <;> constructor

theorem Confluent.abs_atom {t b h : Tm} {ts : List Tm} (hb : t.IsAbs b) (ha : h.Atom) (hs : Stable R (h.apps ts)) :
    ¬ Conv R false t (h.apps ts) := by
  intro hc
  obtain ⟨v, h1, h2⟩ := cr _ _ hc
  obtain ⟨b', hb', -⟩ := RedA.abs hb h1
  obtain ⟨k, vs, e1, a1, -⟩ := hs.apps_red ha h2
  obtain ⟨rfl, -⟩ := Tm.apps_inj (ts := []) hb'.notApp a1.notApp e1
  exact a1.not_abs hb'

mutual
  theorem Whnf.stable {t : Tm} (h : Whnf R false t) : Stable R t :=
    match h with
    | .kind ts => .apps .kind (by intro s h; cases h)
    | .type ts => .apps .type (by intro s h; cases h)
    | .var n ts => .apps (.var n) (by intro s h; cases h)
    | .pi A B ts => .apps (.pi A B) (by intro s h; cases h)
    | .abs hb => .abs hb
    | .const hr => .apps (.const _) (by
        intro s hs rs r h1 h2 h3
        cases hs
        exact Refused.noMatch (hr rs r h1 h2) h3)
  theorem Refused.noMatch {r : Rule} {ts : List Tm} (h : Refused R false r ts) (hsc : r.Scoped) : NoMatch R r ts :=
    match h with
    | .short h => by
      intro ts' hr bs σ hb
      have := hb.length
      rw [List.length_take, ← hr.length_eq] at this
      omega
    | .unscoped h => absurd hsc h
    | .clash h => by
      intro ts' hr bs σ hb
      exact absurd hb (Clashes.noBind h hr bs)
    | .apart (m := m) h1 h2 h3 h4 h5 => by
      intro ts' hr bs σ hb hσ
      obtain ⟨l', h6, h7⟩ := BsRedA.sublist (WBinds.red h1 (forall2_take hr _) hb) h2
      match l', h6, h7 with
      | [(m1, u1), (m2, u2)], h6, .cons ⟨e1, r1⟩ (.cons ⟨e2, r2⟩ .nil) =>
        simp only at e1 e2 r1 r2
        subst e1 e2
        have c1 := hσ.2 _ (h6.subset List.mem_cons_self)
        have c2 := hσ.2 _ (h6.subset (List.mem_cons_of_mem _ List.mem_cons_self))
        exact Apart.notConv h5 (h3.symm.trans (r1.conv.trans (c1.trans (c2.symm.trans (r2.conv.symm.trans h4)))))
  theorem WBind.red {p : Pattern} {t t' : Tm} {bs bs' : List (Nat × Tm)} (h : WBind R false p t bs) (hr : RedA R t t')
      (hb : PBind p t' bs') : BsRedA R bs bs' :=
    match h with
    | .mvar m t => by cases hb; exact .cons ⟨rfl, hr⟩ .nil
    | .joker t => by cases hb; exact .nil
    | .symb (s := s) hw hbs => by
      obtain ⟨ts', e, hr'⟩ := (Whnf.stable hw).const_red hr
      subst e
      generalize ht : Tm.apps (.const s) ts' = t' at hb
      cases hb with
      | symb hb =>
        obtain ⟨-, rfl⟩ := Tm.apps_inj (Tm.Atom.const s).notApp (Tm.Atom.const s).notApp ht
        exact WBinds.red hbs hr' hb
  theorem WBinds.red {ps : List Pattern} {ts ts' : List Tm} {bs bs' : List (Nat × Tm)} (h : WBinds R false ps ts bs)
      (hr : List.Forall₂ (RedA R) ts ts') (hb : PBinds ps ts' bs') : BsRedA R bs bs' :=
    match h with
    | .nil => by cases hb; exact .nil
    | .cons h1 h2 => by
      cases hr with
      | cons hr1 hr2 =>
        cases hb with
        | cons hb1 hb2 => exact List.rel_append (WBind.red h1 hr1 hb1) (WBinds.red h2 hr2 hb2)
  theorem Clash.noBind {p : Pattern} {t t' : Tm} (h : Clash R false p t) (hr : RedA R t t') (bs : List (Nat × Tm)) :
      ¬ PBind p t' bs :=
    match h with
    | .head (s := s) (ps := ps) hw hne => by
      intro hb
      have hst := Whnf.stable hw
      generalize hp : Pattern.symb s ps = p at hb
      cases hb with
      | mvar => simp at hp
      | joker => simp at hp
      | @symb s' ps' ts' bs hb =>
        simp only [Pattern.symb.injEq] at hp
        obtain ⟨rfl, rfl⟩ := hp
        cases hst with
        | abs hb' =>
          obtain ⟨b', hb', -⟩ := RedA.abs hb' hr
          obtain ⟨e, -⟩ := Tm.apps_inj (ts := []) hb'.notApp (Tm.Atom.const s).notApp (by rfl)
          rw [e] at hb'
          cases hb'
        | apps ha hno =>
          obtain ⟨k, vs, e1, a1, s1, r1, rs1⟩ := RedA.atom ha hno hr
          obtain ⟨rfl, rfl⟩ := Tm.apps_inj (Tm.Atom.const s).notApp a1.notApp e1
          cases s1
          exact hne _ rfl (by rw [rs1.length_eq, hb.length])
    | .arg (s := s) (ps := ps) hw hlen hc => by
      intro hb
      obtain ⟨ts', rfl, hr'⟩ := (Whnf.stable hw).const_red hr
      generalize hp : Pattern.symb s ps = p at hb
      generalize ht : Tm.apps (.const s) ts' = t' at hb
      cases hb with
      | mvar => simp at hp
      | joker => simp at hp
      | symb hb =>
        simp only [Pattern.symb.injEq] at hp
        obtain ⟨rfl, rfl⟩ := hp
        obtain ⟨-, rfl⟩ := Tm.apps_inj (Tm.Atom.const _).notApp (Tm.Atom.const _).notApp ht
        refine absurd (List.take_length (l := ts') ▸ hb) ?_
        have := Clashes.noBind hc hr' bs
        rwa [← hlen, hr'.length_eq] at this
  theorem Clashes.noBind {ps : List Pattern} {ts ts' : List Tm} (h : Clashes R false ps ts)
      (hr : List.Forall₂ (RedA R) ts ts') (bs : List (Nat × Tm)) : ¬ PBinds ps (ts'.take ps.length) bs :=
    match h with
    | .here h => by
      intro hb
      cases hr with
      | cons hr hrs =>
        cases hb with
        | cons hb hbs => exact Clash.noBind h hr _ hb
    | .there h => by
      intro hb
      cases hr with
      | cons hr hrs =>
        cases hb with
        | cons hb hbs => exact Clashes.noBind h hrs _ hbs
  theorem Apart.notConv {t u : Tm} (h : Apart R false t u) : ¬ Conv R false t u :=
    match h with
    | .mk h1 h2 w1 w2 hd => fun hc =>
      Differ.notConv hd (Whnf.stable w1) (Whnf.stable w2) (h1.conv.symm.trans (hc.trans h2.conv))
  theorem Differ.notConv {t u : Tm} (h : Differ R false t u) (ht : Stable R t) (hu : Stable R u) :
      ¬ Conv R false t u :=
    match h with
    | .length ha ha' hne => fun hc => by
      obtain ⟨-, -, vs, h1, h2⟩ := cr.atoms ha ha' ht hu hc
      exact hne (h1.length_eq.trans h2.length_eq.symm)
    | .atom (h := h) (h' := h') ha ha' hne => fun hc => hne (cr.atoms (ts := []) (ts' := []) ha ha' ht hu hc).1
    | .head ha ha' _ hap => fun hc => Apart.notConv hap (cr.atoms ha ha' ht hu hc).2.1
    | .arg ha ha' _ hm hap => fun hc => by
      obtain ⟨-, -, vs, h1, h2⟩ := cr.atoms ha ha' ht hu hc
      exact Apart.notConv hap (zip_common h1 h2 hm)
    | .dom hap => fun hc => Apart.notConv hap (cr.pi hc).1
    | .cod hap => fun hc => Apart.notConv hap (cr.pi hc).2
    | .body hb hb' hap => fun hc => Apart.notConv hap (cr.body hb hb' hc)
    | .absL _ hb ha => fun hc => cr.abs_atom hb ha hu hc
    | .absR _ hb ha => fun hc => cr.abs_atom hb ha ht hc.symm
end

end

end Kontroli
