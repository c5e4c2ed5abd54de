import Mathlib.Data.List.Induction
import Verif.Proofs.RedLemmas

/-!
# Terms headed by a constant without rules
-/

namespace Kontroli

namespace Tm

theorem apps_concat (f : Tm) (as : List Tm) (a : Tm) : f.apps (as ++ [a]) = .app (f.apps as) a := by
  rw [apps_append]; rfl

/-- every term headed by a constant is the constant or an application of such a term -/
theorem apps_const_cases {s : Sym} {as : List Tm} :
    (as = [] ∧ apps (.const s) as = .const s) ∨
    ∃ bs b, as = bs ++ [b] ∧ apps (.const s) as = .app (apps (.const s) bs) b := by
  rcases List.eq_nil_or_concat as with rfl | ⟨bs, b, rfl⟩
  · exact .inl ⟨rfl, rfl⟩
  · exact .inr ⟨bs, b, by simp, by simp [apps_concat]⟩

theorem apps_const_inj {s s' : Sym} {as bs : List Tm} (h : apps (.const s) as = apps (.const s') bs) :
    s = s' ∧ as = bs := by
  induction as using List.reverseRecOn generalizing bs with
  | nil =>
    rcases apps_const_cases (s := s') (as := bs) with ⟨rfl, e⟩ | ⟨cs, c, rfl, e⟩
    · rw [e] at h; simp [apps] at h; exact ⟨h, rfl⟩
    · rw [e] at h; simp [apps] at h
  | append_singleton as a ih =>
    rw [apps_concat] at h
    rcases apps_const_cases (s := s') (as := bs) with ⟨rfl, e⟩ | ⟨cs, c, rfl, e⟩
    · rw [e] at h; simp at h
    · rw [e] at h
      simp only [app.injEq] at h
      obtain ⟨h1, h2⟩ := ih h.1
      exact ⟨h1, by rw [h2, h.2]⟩

end Tm

theorem Forall₂.concat {α β : Type} {P : α → β → Prop} {as : List α} {bs : List β} {a : α} {b : β}
    (h : List.Forall₂ P as bs) (hab : P a b) : List.Forall₂ P (as ++ [a]) (bs ++ [b]) := by
  induction h with
  | nil => exact .cons hab .nil
  | cons h _ ih => exact .cons h ih

/-- Reduction of a term headed by a constant without rules happens in the arguments. -/
theorem Red.static {R : RuleMap} {eta : Bool} {s : Sym} (hs : R s = none) {args : List Tm} {u : Tm}
    (h : Red R eta (Tm.apps (.const s) args) u) :
    ∃ args', u = Tm.apps (.const s) args' ∧ List.Forall₂ (Red R eta) args args' := by
  generalize e : Tm.apps (.const s) args = t at h
  induction h generalizing args with
  | refl t => exact ⟨args, e.symm, by clear e; induction args with
      | nil => exact .nil
      | cons a as ih => exact .cons (.refl a) ih⟩
  | trans h1 h2 ih1 ih2 =>
    obtain ⟨as1, e1, f1⟩ := ih1 e
    obtain ⟨as2, e2, f2⟩ := ih2 e1.symm
    refine ⟨as2, e2, ?_⟩
    clear e e1 e2 ih1 ih2 h1 h2
    induction f1 generalizing as2 with
    | nil => cases f2; exact .nil
    | cons h _ ih =>
      cases f2 with
      | cons h' f2 => exact .cons (h.trans h') (ih _ f2)
  | app h1 h2 ih1 ih2 =>
    rcases Tm.apps_const_cases (s := s) (as := args) with ⟨rfl, e'⟩ | ⟨bs, b, rfl, e'⟩
    · rw [e'] at e; simp at e
    · rw [e'] at e
      simp only [Tm.app.injEq] at e
      obtain ⟨as1, e1, f1⟩ := ih1 e.1
      refine ⟨as1 ++ [_], ?_, Forall₂.concat f1 (e.2 ▸ h2)⟩
      rw [Tm.apps_concat, e1]
  | lam =>
    rcases Tm.apps_const_cases (s := s) (as := args) with ⟨rfl, e'⟩ | ⟨bs, b, rfl, e'⟩ <;> rw [e'] at e <;> simp at e
  | dlam =>
    rcases Tm.apps_const_cases (s := s) (as := args) with ⟨rfl, e'⟩ | ⟨bs, b, rfl, e'⟩ <;> rw [e'] at e <;> simp at e
  | pi =>
    rcases Tm.apps_const_cases (s := s) (as := args) with ⟨rfl, e'⟩ | ⟨bs, b, rfl, e'⟩ <;> rw [e'] at e <;> simp at e
  | beta =>
    rcases Tm.apps_const_cases (s := s) (as := args) with ⟨rfl, e'⟩ | ⟨bs, b, rfl, e'⟩ <;> rw [e'] at e
    · simp at e
    · simp only [Tm.app.injEq] at e
      have e := e.1
      rcases Tm.apps_const_cases (s := s) (as := bs) with ⟨rfl, e'⟩ | ⟨bs, b, rfl, e'⟩ <;> rw [e'] at e <;> simp at e
  | dbeta =>
    rcases Tm.apps_const_cases (s := s) (as := args) with ⟨rfl, e'⟩ | ⟨bs, b, rfl, e'⟩ <;> rw [e'] at e
    · simp at e
    · simp only [Tm.app.injEq] at e
      have e := e.1
      rcases Tm.apps_const_cases (s := s) (as := bs) with ⟨rfl, e'⟩ | ⟨bs, b, rfl, e'⟩ <;> rw [e'] at e <;> simp at e
  | rule hr =>
    obtain ⟨rfl, -⟩ := Tm.apps_const_inj e
    rw [hs] at hr; simp at hr

end Kontroli
