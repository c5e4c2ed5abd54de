import Verif.Spec.Tm

/-!
# Substitution calculus on plain terms
-/

namespace Kontroli
namespace Tm

theorem upr_id : upr (fun n => n) = fun n => n := by
  funext n; cases n <;> rfl

theorem up_var : up var = var := by
  funext n; cases n <;> rfl

theorem ren_id (t : Tm) : t.ren (fun n => n) = t := by
  induction t with
  | app f a ihf iha => simp [ren, ihf, iha]
  | lam A b ihA ihb => simp [ren, upr_id, ihA, ihb]
  | dlam b ihb => simp [ren, upr_id, ihb]
  | pi A B ihA ihB => simp [ren, upr_id, ihA, ihB]
  | _ => rfl

theorem sub_var (t : Tm) : t.sub var = t := by
  induction t with
  | app f a ihf iha => simp [sub, ihf, iha]
  | lam A b ihA ihb => simp [sub, up_var, ihA, ihb]
  | dlam b ihb => simp [sub, up_var, ihb]
  | pi A B ihA ihB => simp [sub, up_var, ihA, ihB]
  | _ => rfl

theorem upr_comp (ρ ξ : Nat → Nat) : (fun n => upr ξ (upr ρ n)) = upr (fun n => ξ (ρ n)) := by
  funext n; cases n <;> rfl

theorem ren_ren (t : Tm) (ρ ξ : Nat → Nat) : (t.ren ρ).ren ξ = t.ren (fun n => ξ (ρ n)) := by
  induction t generalizing ρ ξ with
  | app f a ihf iha => simp [ren, ihf, iha]
  | lam A b ihA ihb => simp [ren, ihA, ihb, upr_comp]
  | dlam b ihb => simp [ren, ihb, upr_comp]
  | pi A B ihA ihB => simp [ren, ihA, ihB, upr_comp]
  | _ => rfl

theorem up_upr (ρ : Nat → Nat) (σ : Nat → Tm) : (fun n => up σ (upr ρ n)) = up (fun n => σ (ρ n)) := by
  funext n; cases n <;> rfl

theorem ren_sub (t : Tm) (ρ : Nat → Nat) (σ : Nat → Tm) : (t.ren ρ).sub σ = t.sub (fun n => σ (ρ n)) := by
  induction t generalizing ρ σ with
  | app f a ihf iha => simp [ren, sub, ihf, iha]
  | lam A b ihA ihb => simp [ren, sub, ihA, ihb, up_upr]
  | dlam b ihb => simp [ren, sub, ihb, up_upr]
  | pi A B ihA ihB => simp [ren, sub, ihA, ihB, up_upr]
  | _ => rfl

theorem upr_up (σ : Nat → Tm) (ρ : Nat → Nat) :
    (fun n => (up σ n).ren (upr ρ)) = up (fun n => (σ n).ren ρ) := by
  funext n
  cases n with
  | zero => rfl
  | succ n => simp [up, ren_ren, upr]

theorem sub_ren (t : Tm) (σ : Nat → Tm) (ρ : Nat → Nat) : (t.sub σ).ren ρ = t.sub (fun n => (σ n).ren ρ) := by
  induction t generalizing ρ σ with
  | app f a ihf iha => simp [ren, sub, ihf, iha]
  | lam A b ihA ihb => simp [ren, sub, ihA, ihb, upr_up]
  | dlam b ihb => simp [ren, sub, ihb, upr_up]
  | pi A B ihA ihB => simp [ren, sub, ihA, ihB, upr_up]
  | _ => rfl

theorem up_up (σ τ : Nat → Tm) : (fun n => (up σ n).sub (up τ)) = up (fun n => (σ n).sub τ) := by
  funext n
  cases n with
  | zero => rfl
  | succ n => simp [up, ren_sub, sub_ren]

theorem sub_sub (t : Tm) (σ τ : Nat → Tm) : (t.sub σ).sub τ = t.sub (fun n => (σ n).sub τ) := by
  induction t generalizing σ τ with
  | app f a ihf iha => simp [sub, ihf, iha]
  | lam A b ihA ihb => simp [sub, ihA, ihb, up_up]
  | dlam b ihb => simp [sub, ihb, up_up]
  | pi A B ihA ihB => simp [sub, ihA, ihB, up_up]
  | _ => rfl

theorem up_ren (ρ : Nat → Nat) : up (fun n => var (ρ n)) = fun n => var (upr ρ n) := by
  funext n; cases n <;> rfl

theorem ren_eq_sub (t : Tm) (ρ : Nat → Nat) : t.ren ρ = t.sub (fun n => var (ρ n)) := by
  induction t generalizing ρ with
  | app f a ihf iha => simp [ren, sub, ihf, iha]
  | lam A b ihA ihb => simp [ren, sub, ihA, ihb, up_ren]
  | dlam b ihb => simp [ren, sub, ihb, up_ren]
  | pi A B ihA ihB => simp [ren, sub, ihA, ihB, up_ren]
  | _ => rfl

/-- `(t[u])σ = (t (up σ))[uσ]` -/
theorem inst_sub (t u : Tm) (σ : Nat → Tm) : (t.inst u).sub σ = (t.sub (up σ)).inst (u.sub σ) := by
  simp only [inst, sub_sub]
  congr 1
  funext n
  cases n with
  | zero => rfl
  | succ n =>
    simp only [one, sub, up, ren_sub]
    exact (sub_var _).symm

theorem inst_ren (t u : Tm) (ρ : Nat → Nat) : (t.inst u).ren ρ = (t.ren (upr ρ)).inst (u.ren ρ) := by
  rw [ren_eq_sub, inst_sub, ren_eq_sub t, ren_eq_sub u, up_ren]

/-- a shifted term does not see the substituted variable -/
theorem ren_inst (t u : Tm) : (t.ren (· + 1)).inst u = t := by
  rw [inst, ren_sub]; exact sub_var t

theorem shift_zero (t : Tm) : t.shift 0 = t := ren_id t

theorem shift_shift (t : Tm) (j k : Nat) : (t.shift j).shift k = t.shift (j + k) := by
  simp [shift, ren_ren, Nat.add_assoc]

theorem apps_append (f : Tm) (as bs : List Tm) : f.apps (as ++ bs) = (f.apps as).apps bs := by
  induction as generalizing f with
  | nil => rfl
  | cons a as ih => simp [apps, ih]

theorem apps_ren (f : Tm) (as : List Tm) (ρ : Nat → Nat) :
    (f.apps as).ren ρ = (f.ren ρ).apps (as.map (·.ren ρ)) := by
  induction as generalizing f with
  | nil => rfl
  | cons a as ih => simp [apps, ih, ren]

theorem apps_sub (f : Tm) (as : List Tm) (σ : Nat → Tm) :
    (f.apps as).sub σ = (f.sub σ).apps (as.map (·.sub σ)) := by
  induction as generalizing f with
  | nil => rfl
  | cons a as ih => simp [apps, ih, sub]

/-- substitution lifted under `k` binders -/
def upn (σ : Nat → Tm) : Nat → Nat → Tm
  | 0 => σ
  | k + 1 => up (upn σ k)

theorem upn_lt (σ : Nat → Tm) {k n : Nat} (h : n < k) : upn σ k n = var n := by
  induction k generalizing n with
  | zero => omega
  | succ k ih =>
    cases n with
    | zero => rfl
    | succ n => simp [upn, up, ih (by omega : n < k), ren]

theorem upn_ge (σ : Nat → Tm) {k n : Nat} (h : k ≤ n) : upn σ k n = (σ (n - k)).shift k := by
  induction k generalizing n with
  | zero => simp [upn, shift_zero]
  | succ k ih =>
    cases n with
    | zero => omega
    | succ n =>
      simp only [upn, up, ih (by omega : k ≤ n)]
      have : n + 1 - (k + 1) = n - k := by omega
      rw [this]
      exact shift_shift _ k 1

end Tm

/-- `denList` is a map. -/
theorem LTerm.denList_eq (ts : List LTerm) : LTerm.denList ts = ts.map LTerm.den := by
  induction ts with
  | nil => rfl
  | cons t ts ih => simp [LTerm.denList, ih]

theorem STerm.denList_eq (ts : List STerm) : STerm.denList ts = ts.map STerm.den := by
  induction ts with
  | nil => rfl
  | cons t ts ih => simp [STerm.denList, ih]

@[simp] theorem STerm.den_ofL (t : LTerm) : (STerm.ofL t).den = t.den := by
  cases t <;> rfl

@[simp] theorem SComb.den_ofL (c : LComb) : SComb.den (SComb.ofL c) = LComb.den c := by
  cases c with
  | appl f args =>
    simp only [SComb.ofL, SComb.den, LComb.den, STerm.denList_eq, LTerm.denList_eq, STerm.den_ofL, List.map_map]
    congr 1
    apply List.map_congr_left; intro a _; simp
  | prod id ty tm => simp [SComb.ofL, SComb.den, LComb.den]
  | abst id ty tm => cases ty <;> simp [SComb.ofL, SComb.den, LComb.den, STerm.denAbs, LTerm.denAbs]

theorem STerm.den_getComb {t : STerm} {c : SComb} (h : t.getComb = some c) : t.den = SComb.den c := by
  cases t <;> simp [STerm.getComb] at h
  · subst h; simp [STerm.den]
  · subst h; rfl

theorem STerm.den_getProd {t : STerm} {id : Str} {a b : STerm} (h : t.getProd = some (id, a, b)) :
    t.den = .pi a.den b.den := by
  unfold STerm.getProd at h
  split at h
  · next id' ty tm heq =>
    simp at h
    obtain ⟨-, rfl, rfl⟩ := h
    rw [STerm.den_getComb heq]; rfl
  · simp at h

theorem STerm.den_getAbst {t : STerm} {id : Str} {ty : Option STerm} {b : STerm}
    (h : t.getAbst = some (id, ty, b)) : t.den = STerm.denAbs ty b.den := by
  unfold STerm.getAbst at h
  split at h
  · simp at h; obtain ⟨-, rfl, rfl⟩ := h; rfl
  · next id' ty' tm =>
    simp at h; obtain ⟨-, rfl, rfl⟩ := h
    cases ty' <;> simp [STerm.den, LComb.den, LTerm.denAbs, STerm.denAbs]
  · simp at h

end Kontroli
