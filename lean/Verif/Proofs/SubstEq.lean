import Verif.Proofs.Wp

/-!
# Substitution on long terms is the same code; substitution always returns
-/

namespace Kontroli

mutual
  /-- `applySubstL` is `applySubst` on the short form of a long term. -/
  theorem applySubst_ofL (S : Nat → Nat → M STerm) (t : LTerm) (k : Nat) :
      applySubst S (STerm.ofL t) k = applySubstL S t k := by
    cases t <;> rfl
  /-- `applySubstLC` is `applySubstC` on the short form of a long combinator. -/
  theorem applySubst_lcomb (S : Nat → Nat → M STerm) (c : Comb Str LTerm) (k : Nat) :
      applySubstC S (SComb.ofL c) k = applySubstLC S c k := by
    cases c with
    | appl f args =>
      simp only [SComb.ofL, applySubstC, applySubstLC, applySubst_ofL S f k, applySubst_list S args k]
    | prod id a b =>
      simp only [SComb.ofL, applySubstC, applySubstLC, applySubst_ofL S a k, applySubst_ofL S b (k + 1)]
    | abst id a b =>
      simp only [SComb.ofL, applySubstC, applySubstLC, applySubst_opt S a k, applySubst_ofL S b (k + 1)]
  theorem applySubst_list (S : Nat → Nat → M STerm) (ts : List LTerm) (k : Nat) :
      applySubstList S (ts.map STerm.ofL) k = applySubstLList S ts k := by
    cases ts with
    | nil => rfl
    | cons t ts =>
      simp only [List.map_cons, applySubstList, applySubstLList, applySubst_ofL S t k, applySubst_list S ts k]
  theorem applySubst_opt (S : Nat → Nat → M STerm) (o : Option LTerm) (k : Nat) :
      applySubstOpt S (o.map STerm.ofL) k = applySubstLOpt S o k := by
    cases o with
    | none => rfl
    | some t => simp only [Option.map_some, applySubstOpt, applySubstLOpt, applySubst_ofL S t k]
end

/-- the computation returns a value -/
def Total {α : Type} (m : M α) : Prop := ∀ s, ∃ a s', m s = .ok (a, s')

theorem Total.pure {α : Type} (a : α) : Total (M.pure a) := fun s => ⟨a, s, rfl⟩

theorem Total.bind {α β : Type} {m : M α} {f : α → M β} (h : Total m) (h' : ∀ a, Total (f a)) :
    Total (M.bind m f) := by
  intro s
  obtain ⟨a, s', e⟩ := h s
  obtain ⟨b, s'', e'⟩ := h' a s'
  exact ⟨b, s'', by unfold M.bind; rw [e]; exact e'⟩

theorem Total.tick : Total tick := fun _ => ⟨_, _, rfl⟩

theorem Total.ite {α : Type} {c : Prop} [Decidable c] {m m' : M α} (h : c → Total m) (h' : ¬ c → Total m') :
    Total (if c then m else m') := by
  split
  · exact h ‹_›
  · exact h' ‹_›

section
variable {S : Nat → Nat → M STerm}

mutual
  theorem applySubstL_total (hS : ∀ n k, k ≤ n → Total (S n k)) (t : LTerm) (k : Nat) :
      Total (applySubstL S t k) := by
    cases t with
    | var n => exact .ite (fun h => .bind (hS n k h) fun _ => .pure _) fun _ => .pure _
    | comb c => exact .bind (applySubstLC_total hS c k) fun _ => .pure _
    | _ => exact .pure _
  theorem applySubstLC_total (hS : ∀ n k, k ≤ n → Total (S n k)) (t : Comb Str LTerm) (k : Nat) :
      Total (applySubstLC S t k) := by
    cases t with
    | appl f as => exact .bind (applySubstL_total hS f k) fun _ => .bind (applySubstLList_total hS as k) fun _ => .pure _
    | prod id a b =>
      exact .bind (applySubstL_total hS a k) fun _ => .bind (applySubstL_total hS b (k + 1)) fun _ => .pure _
    | abst id a b =>
      exact .bind (applySubstL_total hS b (k + 1)) fun _ => .bind (applySubstLOpt_total hS a k) fun _ => .pure _
  theorem applySubstLList_total (hS : ∀ n k, k ≤ n → Total (S n k)) (ts : List LTerm) (k : Nat) :
      Total (applySubstLList S ts k) := by
    cases ts with
    | nil => exact .pure _
    | cons t ts => exact .bind (applySubstL_total hS t k) fun _ => .bind (applySubstLList_total hS ts k) fun _ => .pure _
  theorem applySubstLOpt_total (hS : ∀ n k, k ≤ n → Total (S n k)) (o : Option LTerm) (k : Nat) :
      Total (applySubstLOpt S o k) := by
    cases o with
    | none => exact .pure _
    | some t => exact .bind (applySubstL_total hS t k) fun _ => .pure _
end

mutual
  theorem applySubst_total (hS : ∀ n k, k ≤ n → Total (S n k)) (t : STerm) (k : Nat) :
      Total (applySubst S t k) := by
    cases t with
    | var n => exact .ite (fun h => .bind (hS n k h) fun _ => .pure _) fun _ => .pure _
    | lcomb c => exact .bind (applySubstLC_total hS c k) fun _ => .pure _
    | scomb c =>
      unfold applySubst
      refine .bind .tick fun _ => .bind (applySubstC_total hS c k) fun _ => ?_
      split
      · exact .pure _
      · split <;> exact .pure _
    | _ => exact .pure _
  theorem applySubstC_total (hS : ∀ n k, k ≤ n → Total (S n k)) (t : Comb Str STerm) (k : Nat) :
      Total (applySubstC S t k) := by
    cases t with
    | appl f as => exact .bind (applySubst_total hS f k) fun _ => .bind (applySubstList_total hS as k) fun _ => .pure _
    | prod id a b =>
      exact .bind (applySubst_total hS a k) fun _ => .bind (applySubst_total hS b (k + 1)) fun _ => .pure _
    | abst id a b =>
      exact .bind (applySubst_total hS b (k + 1)) fun _ => .bind (applySubstOpt_total hS a k) fun _ => .pure _
  theorem applySubstList_total (hS : ∀ n k, k ≤ n → Total (S n k)) (ts : List STerm) (k : Nat) :
      Total (applySubstList S ts k) := by
    cases ts with
    | nil => exact .pure _
    | cons t ts => exact .bind (applySubst_total hS t k) fun _ => .bind (applySubstList_total hS ts k) fun _ => .pure _
  theorem applySubstOpt_total (hS : ∀ n k, k ≤ n → Total (S n k)) (o : Option STerm) (k : Nat) :
      Total (applySubstOpt S o k) := by
    cases o with
    | none => exact .pure _
    | some t => exact .bind (applySubst_total hS t k) fun _ => .pure _
end

end

theorem shiftMut_total (t : STerm) (k : Nat) : Total (shiftMut t k) :=
  .bind (applySubst_total (fun _ _ _ => .pure _) t 0) fun _ => .pure _

theorem shift_total (t : STerm) (k : Nat) : Total (shift t k) :=
  .ite (fun _ => shiftMut_total t k) fun _ => .pure _

theorem psubstSingle_total (u : STerm) (n k : Nat) (h : k ≤ n) : Total (psubstSingle u n k) := by
  unfold psubstSingle
  refine .ite (fun _ => shift_total u k) fun h1 => .ite (fun h2 => ?_) fun _ => .pure _
  omega

theorem subst_total (t u : STerm) : Total (subst t u) :=
  .bind (applySubst_total (psubstSingle_total u) t 0) fun _ => .pure _

end Kontroli
