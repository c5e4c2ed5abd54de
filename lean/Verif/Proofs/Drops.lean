import Verif.Proofs.Reducible

/-! # Dropping annotations can be put off to the end of a reduction -/

namespace Kontroli

/-- annotations of some abstractions are dropped -/
inductive Drops : Tm → Tm → Prop
  | refl (t : Tm) : Drops t t
  | app {f f' a a' : Tm} : Drops f f' → Drops a a' → Drops (.app f a) (.app f' a')
  | lam {A A' b b' : Tm} : Drops A A' → Drops b b' → Drops (.lam A b) (.lam A' b')
  | dlam {b b' : Tm} : Drops b b' → Drops (.dlam b) (.dlam b')
  | annot {A b b' : Tm} : Drops b b' → Drops (.lam A b) (.dlam b')
  | pi {A A' B B' : Tm} : Drops A A' → Drops B B' → Drops (.pi A B) (.pi A' B')

theorem Drops.conv {R : RuleMap} {t u : Tm} (h : Drops t u) : Conv R false t u := by
  induction h with
  | refl => exact .refl _
  | app _ _ ih1 ih2 => exact .app ih1 ih2
  | lam _ _ _ ih2 => exact (Conv.annot _ _).trans ((Conv.dlam ih2).trans (Conv.annot _ _).symm)
  | dlam _ ih => exact .dlam ih
  | annot _ ih => exact (Conv.annot _ _).trans (.dlam ih)
  | pi _ _ ih1 ih2 => exact .pi ih1 ih2

theorem Drops.app_inv {u f a : Tm} (h : Drops u (.app f a)) : ∃ f' a', u = .app f' a' ∧ Drops f' f ∧ Drops a' a := by
  cases h with
  | refl => exact ⟨_, _, rfl, .refl _, .refl _⟩
  | app h1 h2 => exact ⟨_, _, rfl, h1, h2⟩

theorem Drops.lam_inv {u A b : Tm} (h : Drops u (.lam A b)) : ∃ A' b', u = .lam A' b' ∧ Drops A' A ∧ Drops b' b := by
  cases h with
  | refl => exact ⟨_, _, rfl, .refl _, .refl _⟩
  | lam h1 h2 => exact ⟨_, _, rfl, h1, h2⟩

theorem Drops.dlam_inv {u b : Tm} (h : Drops u (.dlam b)) : ∃ b', ((∃ A, u = .lam A b') ∨ u = .dlam b') ∧ Drops b' b := by
  cases h with
  | refl => exact ⟨_, .inr rfl, .refl _⟩
  | dlam h => exact ⟨_, .inr rfl, h⟩
  | annot h => exact ⟨_, .inl ⟨_, rfl⟩, h⟩

theorem Drops.pi_inv {u A b : Tm} (h : Drops u (.pi A b)) : ∃ A' b', u = .pi A' b' ∧ Drops A' A ∧ Drops b' b := by
  cases h with
  | refl => exact ⟨_, _, rfl, .refl _, .refl _⟩
  | pi h1 h2 => exact ⟨_, _, rfl, h1, h2⟩

theorem Drops.apps_inv {u : Tm} {s : Sym} {ts : List Tm} (h : Drops u (Tm.apps (.const s) ts)) : ∃ us, u = Tm.apps (.const s) us ∧ List.Forall₂ Drops us ts := by
  induction ts using List.reverseRecOn generalizing u with
  | nil => cases h with | refl => exact ⟨[], rfl, .nil⟩
  | append_singleton ts a ih =>
    rw [Tm.apps_append] at h
    obtain ⟨f', a', rfl, h1, h2⟩ := h.app_inv
    obtain ⟨us, rfl, h3⟩ := ih h1
    exact ⟨us ++ [a'], by rw [Tm.apps_append]; rfl, List.rel_append h3 (.cons h2 .nil)⟩

theorem Drops.ren {t u : Tm} (h : Drops t u) (ρ : Nat → Nat) : Drops (t.ren ρ) (u.ren ρ) := by
  induction h generalizing ρ with
  | refl => exact .refl _
  | app _ _ ih1 ih2 => exact .app (ih1 _) (ih2 _)
  | lam _ _ ih1 ih2 => exact .lam (ih1 _) (ih2 _)
  | dlam _ ih => exact .dlam (ih _)
  | annot _ ih => exact .annot (ih _)
  | pi _ _ ih1 ih2 => exact .pi (ih1 _) (ih2 _)

theorem Drops.up {σ τ : Nat → Tm} (h : ∀ n, Drops (σ n) (τ n)) (n : Nat) : Drops (Tm.up σ n) (Tm.up τ n) := by
  cases n with
  | zero => exact .refl _
  | succ n => exact (h n).ren _

theorem Drops.sub_right (t : Tm) {σ τ : Nat → Tm} (h : ∀ n, Drops (σ n) (τ n)) : Drops (t.sub σ) (t.sub τ) := by
  induction t generalizing σ τ with
  | var n => exact h n
  | app f a ih1 ih2 => exact .app (ih1 h) (ih2 h)
  | lam A b ih1 ih2 => exact .lam (ih1 h) (ih2 (Drops.up h))
  | dlam b ih => exact .dlam (ih (Drops.up h))
  | pi A b ih1 ih2 => exact .pi (ih1 h) (ih2 (Drops.up h))
  | _ => exact .refl _

theorem Drops.sub {t u : Tm} (ht : Drops t u) {σ τ : Nat → Tm} (h : ∀ n, Drops (σ n) (τ n)) : Drops (t.sub σ) (u.sub τ) := by
  induction ht generalizing σ τ with
  | refl => exact .sub_right _ h
  | app _ _ ih1 ih2 => exact .app (ih1 h) (ih2 h)
  | lam _ _ ih1 ih2 => exact .lam (ih1 h) (ih2 (Drops.up h))
  | dlam _ ih => exact .dlam (ih (Drops.up h))
  | annot _ ih => exact .annot (ih (Drops.up h))
  | pi _ _ ih1 ih2 => exact .pi (ih1 h) (ih2 (Drops.up h))

theorem Drops.inst {b b' a a' : Tm} (h : Drops b b') (h' : Drops a a') : Drops (b.inst a) (b'.inst a') := by
  refine h.sub fun n => ?_
  cases n with
  | zero => exact h'
  | succ n => exact .refl _

/-- bindings of the same variables -/
abbrev DropsB := List.Forall₂ fun b b' : Nat × Tm => b.1 = b'.1 ∧ Drops b.2 b'.2

mutual
  theorem PBind.drops {p : Pattern} {t u : Tm} {bs : List (Nat × Tm)} (h : PBind p t bs) (hd : Drops u t) : ∃ bs', PBind p u bs' ∧ DropsB bs' bs :=
    match h with
    | .mvar m t => ⟨_, .mvar m u, .cons ⟨rfl, hd⟩ .nil⟩
    | .joker t => ⟨_, .joker u, .nil⟩
    | .symb hs => by
      obtain ⟨us, rfl, h1⟩ := hd.apps_inv
      obtain ⟨bs', h2, h3⟩ := hs.drops h1
      exact ⟨bs', .symb h2, h3⟩
  theorem PBinds.drops {ps : List Pattern} {ts us : List Tm} {bs : List (Nat × Tm)} (h : PBinds ps ts bs) (hd : List.Forall₂ Drops us ts) :
      ∃ bs', PBinds ps us bs' ∧ DropsB bs' bs :=
    match h with
    | .nil => by cases hd; exact ⟨[], .nil, .nil⟩
    | .cons hp hps => by
      cases hd with
      | cons h1 h2 =>
        obtain ⟨b1, k1, k2⟩ := hp.drops h1
        obtain ⟨b2, k3, k4⟩ := hps.drops h2
        exact ⟨b1 ++ b2, .cons k1 k3, List.rel_append k2 k4⟩
end

theorem DropsB.lookup {bs' bs : List (Nat × Tm)} (h : DropsB bs' bs) (m : Nat) :
    (bs'.lookup m = none ∧ bs.lookup m = none) ∨ ∃ t' t, bs'.lookup m = some t' ∧ bs.lookup m = some t ∧ Drops t' t := by
  induction h with
  | nil => exact .inl ⟨rfl, rfl⟩
  | @cons b b' bs bs' h _ ih =>
    obtain ⟨i, t⟩ := b
    obtain ⟨j, u⟩ := b'
    obtain ⟨e, hd⟩ := h
    have e : i = j := e
    subst e
    simp only [List.lookup_cons]
    by_cases hm : m = i
    · subst hm
      exact .inr ⟨t, u, by simp, by simp, hd⟩
    · have : (m == i) = false := by simpa using hm
      simp only [this]
      exact ih

theorem RedA.drops {R : RuleMap} {v w : Tm} (h : RedA R v w) {u : Tm} (hd : Drops u v) : ∃ u', Red R false u u' ∧ Drops u' w := by
  induction h generalizing u with
  | refl => exact ⟨u, .refl _, hd⟩
  | trans _ _ ih1 ih2 =>
    obtain ⟨u1, h1, h2⟩ := ih1 hd
    obtain ⟨u2, h3, h4⟩ := ih2 h2
    exact ⟨u2, h1.trans h3, h4⟩
  | app _ _ ih1 ih2 =>
    obtain ⟨f, a, rfl, h1, h2⟩ := hd.app_inv
    obtain ⟨f', k1, k2⟩ := ih1 h1
    obtain ⟨a', k3, k4⟩ := ih2 h2
    exact ⟨_, .app k1 k3, .app k2 k4⟩
  | lam _ _ ih1 ih2 =>
    obtain ⟨f, a, rfl, h1, h2⟩ := hd.lam_inv
    obtain ⟨f', k1, k2⟩ := ih1 h1
    obtain ⟨a', k3, k4⟩ := ih2 h2
    exact ⟨_, .lam k1 k3, .lam k2 k4⟩
  | dlam _ ih =>
    obtain ⟨b, ⟨A, rfl⟩ | rfl, h1⟩ := hd.dlam_inv
    · obtain ⟨b', k1, k2⟩ := ih h1
      exact ⟨_, .lam (.refl A) k1, .annot k2⟩
    · obtain ⟨b', k1, k2⟩ := ih h1
      exact ⟨_, .dlam k1, .dlam k2⟩
  | annot A b =>
    obtain ⟨A', b', rfl, h1, h2⟩ := hd.lam_inv
    exact ⟨_, .refl _, .annot h2⟩
  | pi _ _ ih1 ih2 =>
    obtain ⟨f, a, rfl, h1, h2⟩ := hd.pi_inv
    obtain ⟨f', k1, k2⟩ := ih1 h1
    obtain ⟨a', k3, k4⟩ := ih2 h2
    exact ⟨_, .pi k1 k3, .pi k2 k4⟩
  | beta b a =>
    obtain ⟨f, a', rfl, h1, h2⟩ := hd.app_inv
    obtain ⟨b', ⟨A, rfl⟩ | rfl, h3⟩ := h1.dlam_inv
    · exact ⟨_, .beta A b' a', h3.inst h2⟩
    · exact ⟨_, .dbeta b' a', h3.inst h2⟩
  | @rule s rs r σ ts bs h1 h2 h3 h4 h5 h6 =>
    obtain ⟨us, rfl, k1⟩ := hd.apps_inv
    obtain ⟨bs', k2, k3⟩ := h4.drops k1
    have hσ : ∀ n, Drops ((bs'.lookup n).getD (σ n)) (σ n) := by
      intro n
      rcases DropsB.lookup k3 n with ⟨e, -⟩ | ⟨t', t, e1, e2, e3⟩
      · rw [e]
        exact .refl _
      · rw [e1, h5.1 n t e2]
        exact e3
    refine ⟨_, .rule (σ := fun n => (bs'.lookup n).getD (σ n)) h1 h2 h3 k2 ⟨?_, ?_⟩ ?_, .sub_right _ hσ⟩
    · intro m t hm
      simp only [hm, Option.getD_some]
    · have : ∀ p ∈ bs', ∃ q ∈ bs, p.1 = q.1 ∧ Drops p.2 q.2 := by
        clear h4 h5 hσ k2
        induction k3 with
        | nil => intro p hp; cases hp
        | cons h _ ih =>
          intro p hp
          rcases List.mem_cons.1 hp with rfl | hp
          · exact ⟨_, List.mem_cons_self .., h⟩
          · obtain ⟨q, k1, k2⟩ := ih p hp
            exact ⟨q, List.mem_cons_of_mem _ k1, k2⟩
      intro p hp
      obtain ⟨q, hq, e, hd'⟩ := this p hp
      refine hd'.conv.trans (.trans (h5.2 q hq) ?_)
      rw [← e]
      exact (hσ p.1).conv.symm
    · intro m hm
      have : bs'.lookup m = none := by
        rcases DropsB.lookup k3 m with ⟨e, -⟩ | ⟨t', t, e1, e2, e3⟩
        · exact e
        · have : m ∈ bs.map Prod.fst := List.mem_map.2 ⟨_, mem_of_lookup e2, rfl⟩
          rw [h4.vars] at this
          exact absurd ((h3 m).1 this) (Nat.not_lt.2 hm)
      simp only [this, Option.getD_none]
      exact h6 m hm

/-- a term without steps -/
def Still (R : RuleMap) (t : Tm) : Prop := ∀ u, ¬ Step R false t u

theorem Still.red {R : RuleMap} {t u : Tm} (h : Still R t) (hr : Red R false t u) : u = t := by
  have := hr.steps
  clear hr
  induction this with
  | refl => rfl
  | tail _ h1 ih =>
    subst ih
    exact absurd h1 (h _)

theorem Confluent.to_pi {R : RuleMap} (cr : Confluent R) {t A B : Tm} (h : Conv R false t (.pi A B)) : ∃ A' B', Red R false t (.pi A' B') := by
  obtain ⟨v, h1, h2⟩ := cr _ _ h
  obtain ⟨A1, B1, rfl, -, -⟩ := h2.pi_inv
  obtain ⟨u, h3, h4⟩ := h1.drops (.refl t)
  obtain ⟨A2, B2, rfl, -, -⟩ := h4.pi_inv
  exact ⟨A2, B2, h3⟩

theorem Confluent.to_type {R : RuleMap} (cr : Confluent R) {t : Tm} (h : Conv R false t .type) : Red R false t .type := by
  obtain ⟨v, h1, h2⟩ := cr _ _ h
  have := h2.of_type rfl
  subst this
  obtain ⟨u, h3, h4⟩ := h1.drops (.refl t)
  cases h4 with | refl => exact h3

theorem Confluent.to_kind {R : RuleMap} (cr : Confluent R) {t : Tm} (h : Conv R false t .kind) : Red R false t .kind := by
  obtain ⟨v, h1, h2⟩ := cr _ _ h
  have := h2.of_kind rfl
  subst this
  obtain ⟨u, h3, h4⟩ := h1.drops (.refl t)
  cases h4 with | refl => exact h3

theorem SN.still {R : RuleMap} {t : Tm} (h : SN R false t) : ∃ u, Red R false t u ∧ Still R u := by
  induction h with
  | intro t _ ih =>
    by_cases hs : Still R t
    · exact ⟨t, .refl t, hs⟩
    · simp only [Still, not_forall, not_not] at hs
      obtain ⟨u, hu⟩ := hs
      obtain ⟨v, h1, h2⟩ := ih u hu
      exact ⟨v, hu.red.trans h1, h2⟩

theorem SN.red {R : RuleMap} {t u : Tm} (h : SN R false t) (hr : Red R false t u) : SN R false u := by
  have := hr.steps
  induction this with
  | refl => exact h
  | tail h0 h1 ih => exact (ih (Steps.red h0)).step h1

end Kontroli
