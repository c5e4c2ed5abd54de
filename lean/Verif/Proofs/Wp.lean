import Mathlib.Data.List.Forall2
import Verif.Model.Subst
import Verif.Proofs.TmLemmas

/-!
# A weakest-precondition calculus for the kernel monad

`wp m Q s`: started in `s`, the computation `m` does not panic, and if it returns a value, `Q` holds.
-/

namespace Kontroli

/-- no panic, and `Q` if a value is returned -/
def wp {α : Type} (m : M α) (Q : α → St → Prop) (s : St) : Prop :=
  match m s with
  | .ok (a, s') => Q a s'
  | .err _ => True
  | .panic => False
  | .timeout => True

variable {α β : Type}

theorem wp_pure {a : α} {Q : α → St → Prop} {s : St} : wp (M.pure a) Q s ↔ Q a s := Iff.rfl

theorem wp_bind {m : M α} {f : α → M β} {Q : β → St → Prop} {s : St} :
    wp (M.bind m f) Q s ↔ wp m (fun a s' => wp (f a) Q s') s := by
  unfold wp M.bind
  rcases m s with ⟨a, s'⟩ | _ | _ | _ <;> rfl

theorem wp_mono {m : M α} {Q Q' : α → St → Prop} {s : St} (h : wp m Q s) (hQ : ∀ a s', Q a s' → Q' a s') :
    wp m Q' s := by
  unfold wp at *
  split <;> simp_all

/-- like `wp_mono`, and the value is known to be a result of the computation -/
theorem wp_mono' {m : M α} {Q Q' : α → St → Prop} {s : St} (h : wp m Q s)
    (hQ : ∀ a s', m s = .ok (a, s') → Q a s' → Q' a s') : wp m Q' s := by
  unfold wp at *
  split <;> simp_all

theorem wp_and {m : M α} {Q Q' : α → St → Prop} {s : St} (h : wp m Q s) (h' : wp m Q' s) :
    wp m (fun a s' => Q a s' ∧ Q' a s') s := by
  unfold wp at *
  split <;> simp_all

theorem wp_timeout {Q : α → St → Prop} {s : St} : wp (M.timeout : M α) Q s := trivial

theorem wp_throw {e : KError} {Q : α → St → Prop} {s : St} : wp (M.throw e : M α) Q s := trivial

theorem wp_ok {m : M α} {Q : α → St → Prop} {s s' : St} {a : α} (h : wp m Q s) (e : m s = .ok (a, s')) : Q a s' := by
  unfold wp at h; rw [e] at h; exact h

theorem wp_no_panic {m : M α} {Q : α → St → Prop} {s : St} (h : wp m Q s) : m s ≠ .panic := by
  intro e; unfold wp at h; rw [e] at h; exact h

theorem wp_okOr {e : KError} {o : Option α} {Q : α → St → Prop} {s : St}
    (h : ∀ a, o = some a → Q a s) : wp (M.okOr e o) Q s := by
  cases o with
  | none => exact trivial
  | some a => exact h a rfl

theorem wp_tick {Q : Bool → St → Prop} {s : St}
    (h : ∀ b, Q b { s with rc := fun n => s.rc (n + 1) }) : wp tick Q s := h _

theorem wp_ite {c : Prop} [Decidable c] {m m' : M α} {Q : α → St → Prop} {s : St}
    (h : c → wp m Q s) (h' : ¬ c → wp m' Q s) : wp (if c then m else m') Q s := by
  split
  · exact h ‹_›
  · exact h' ‹_›

/-- A relation on terms that is compatible with all term constructors. -/
structure Congr (E : Tm → Tm → Prop) : Prop where
  refl : ∀ t, E t t
  app : ∀ {f f' a a'}, E f f' → E a a' → E (.app f a) (.app f' a')
  lam : ∀ {A A' b b'}, E A A' → E b b' → E (.lam A b) (.lam A' b')
  dlam : ∀ {b b'}, E b b' → E (.dlam b) (.dlam b')
  pi : ∀ {A A' B B'}, E A A' → E B B' → E (.pi A B) (.pi A' B')

theorem Congr.eq : Congr Eq where
  refl _ := rfl
  app h1 h2 := by rw [h1, h2]
  lam h1 h2 := by rw [h1, h2]
  dlam h := by rw [h]
  pi h1 h2 := by rw [h1, h2]

theorem Congr.apps {E : Tm → Tm → Prop} (hE : Congr E) {f f' : Tm} {as as' : List Tm} (hf : E f f')
    (h : List.Forall₂ E as as') : E (f.apps as) (f'.apps as') := by
  induction h generalizing f f' with
  | nil => exact hf
  | cons h _ ih => exact ih (hE.app hf h)

/-- the state with the first answer of the oracle consumed -/
def St.ticked (s : St) : St := { s with rc := fun n => s.rc (n + 1) }

section ApplySubst

variable {S : Nat → Nat → M STerm} {E : Tm → Tm → Prop} {P : St → Prop} {σ : Nat → Tm}

/-- the guarantee of `applySubst`, on plain terms -/
def SubPost (E : Tm → Tm → Prop) (P : St → Prop) (σ : Nat → Tm) (k : Nat) (t : Tm) (u : Tm) (ch : Bool)
    (s : St) : Prop :=
  P s ∧ E u (t.sub (Tm.upn σ k)) ∧ (ch = false → t.sub (Tm.upn σ k) = t)

/-- the guarantee of `applySubst` on lists -/
def SubPosts (E : Tm → Tm → Prop) (P : St → Prop) (σ : Nat → Tm) (k : Nat) (ts : List Tm) (us : List Tm) (ch : Bool)
    (s : St) : Prop :=
  P s ∧ List.Forall₂ E us (ts.map (·.sub (Tm.upn σ k))) ∧ (ch = false → ts.map (·.sub (Tm.upn σ k)) = ts)

theorem subPost_var (hE : Congr E) {n k : Nat} (h : ¬ n ≥ k) {s : St} (hP : P s) :
    SubPost E P σ k (.var n) (.var n) false s := by
  have : Tm.upn σ k n = .var n := Tm.upn_lt σ (by omega)
  refine ⟨hP, ?_, fun _ => ?_⟩
  · simp only [Tm.sub, this]; exact hE.refl _
  · simp only [Tm.sub, this]

mutual
  theorem applySubstL_wp (hE : Congr E)
      (hS : ∀ n k s, k ≤ n → P s → wp (S n k) (fun t s' => P s' ∧ E t.den (Tm.upn σ k n)) s)
      (t : LTerm) (k : Nat) (s : St) (hP : P s) :
      wp (applySubstL S t k) (fun r s' => SubPost E P σ k t.den r.1.den r.2 s') s := by
    cases t with
    | type => exact ⟨hP, hE.refl _, fun _ => rfl⟩
    | const c => exact ⟨hP, hE.refl _, fun _ => rfl⟩
    | var n =>
      unfold applySubstL
      refine wp_ite (fun h => ?_) (fun h => subPost_var hE h hP)
      rw [wp_bind]
      refine wp_mono (hS n k s h hP) ?_
      rintro t s' ⟨h1, h2⟩
      exact ⟨h1, h2, by simp⟩
    | comb c =>
      unfold applySubstL
      rw [wp_bind]
      exact wp_mono (applySubstLC_wp hE hS c k s hP) fun r s' h => h
  theorem applySubstLC_wp (hE : Congr E)
      (hS : ∀ n k s, k ≤ n → P s → wp (S n k) (fun t s' => P s' ∧ E t.den (Tm.upn σ k n)) s)
      (c : Comb Str LTerm) (k : Nat) (s : St) (hP : P s) :
      wp (applySubstLC S c k) (fun r s' => SubPost E P σ k (LComb.den c) (SComb.den r.1) r.2 s') s := by
    cases c with
    | appl f args =>
      unfold applySubstLC
      rw [wp_bind]
      refine wp_mono (applySubstL_wp hE hS f k s hP) ?_
      rintro ⟨f', cf⟩ s1 ⟨hP1, e1, c1⟩
      rw [wp_bind]
      refine wp_mono (applySubstLList_wp hE hS args k s1 hP1) ?_
      rintro ⟨as', ca⟩ s2 ⟨hP2, e2, c2⟩
      refine ⟨hP2, ?_, ?_⟩
      · simp only [SComb.den, LComb.den, Tm.apps_sub, STerm.denList_eq]
        exact hE.apps e1 e2
      · intro h
        simp only [Bool.or_eq_false_iff] at h
        simp only [LComb.den, Tm.apps_sub]
        rw [c1 h.2, c2 h.1]
    | prod id ty tm =>
      unfold applySubstLC
      rw [wp_bind]
      refine wp_mono (applySubstL_wp hE hS ty k s hP) ?_
      rintro ⟨f', cf⟩ s1 ⟨hP1, e1, c1⟩
      rw [wp_bind]
      refine wp_mono (applySubstL_wp hE hS tm (k+1) s1 hP1) ?_
      rintro ⟨as', ca⟩ s2 ⟨hP2, e2, c2⟩
      refine ⟨hP2, ?_, ?_⟩
      · simp only [SComb.den, LComb.den, Tm.sub]
        exact hE.pi e1 e2
      · intro h
        simp only [Bool.or_eq_false_iff] at h
        simp only [LComb.den, Tm.sub]
        have := c2 h.1
        simp only [Tm.upn] at this
        rw [c1 h.2, this]
    | abst id ty tm =>
      unfold applySubstLC
      rw [wp_bind]
      refine wp_mono (applySubstL_wp hE hS tm (k+1) s hP) ?_
      rintro ⟨f', cf⟩ s1 ⟨hP1, e1, c1⟩
      rw [wp_bind]
      simp only [Tm.upn] at c1 e1
      cases ty with
      | none =>
        refine ⟨hP1, ?_, ?_⟩
        · simp only [SComb.den, LComb.den, STerm.denAbs, LTerm.denAbs, Tm.sub]
          exact hE.dlam e1
        · intro h
          simp only [Bool.or_eq_false_iff] at h
          simp only [LComb.den, LTerm.denAbs, Tm.sub, c1 h.2]
      | some ty =>
        unfold applySubstLOpt
        rw [wp_bind]
        refine wp_mono (applySubstL_wp hE hS ty k s1 hP1) ?_
        rintro ⟨as', ca⟩ s2 ⟨hP2, e2, c2⟩
        refine ⟨hP2, ?_, ?_⟩
        · simp only [SComb.den, LComb.den, STerm.denAbs, LTerm.denAbs, Tm.sub]
          exact hE.lam e2 e1
        · intro h
          simp only [Bool.or_eq_false_iff] at h
          simp only [LComb.den, LTerm.denAbs, Tm.sub, c1 h.2, c2 h.1]
  theorem applySubstLList_wp (hE : Congr E)
      (hS : ∀ n k s, k ≤ n → P s → wp (S n k) (fun t s' => P s' ∧ E t.den (Tm.upn σ k n)) s)
      (ts : List LTerm) (k : Nat) (s : St) (hP : P s) :
      wp (applySubstLList S ts k)
        (fun r s' => SubPosts E P σ k (LTerm.denList ts) (r.1.map STerm.den) r.2 s') s := by
    cases ts with
    | nil => exact ⟨hP, .nil, fun _ => rfl⟩
    | cons t ts =>
      unfold applySubstLList
      rw [wp_bind]
      refine wp_mono (applySubstL_wp hE hS t k s hP) ?_
      rintro ⟨f', cf⟩ s1 ⟨hP1, e1, c1⟩
      rw [wp_bind]
      refine wp_mono (applySubstLList_wp hE hS ts k s1 hP1) ?_
      rintro ⟨as', ca⟩ s2 ⟨hP2, e2, c2⟩
      refine ⟨hP2, .cons e1 e2, ?_⟩
      intro h
      simp only [Bool.or_eq_false_iff] at h
      simp only [LTerm.denList, List.map_cons, c1 h.2, c2 h.1]
end

mutual
  theorem applySubst_wp (hE : Congr E) (hT : ∀ s, P s → P s.ticked)
      (hS : ∀ n k s, k ≤ n → P s → wp (S n k) (fun t s' => P s' ∧ E t.den (Tm.upn σ k n)) s)
      (t : STerm) (k : Nat) (s : St) (hP : P s) :
      wp (applySubst S t k) (fun r s' => SubPost E P σ k t.den r.1.den r.2 s') s := by
    cases t with
    | kind => exact ⟨hP, hE.refl _, fun _ => rfl⟩
    | type => exact ⟨hP, hE.refl _, fun _ => rfl⟩
    | const c => exact ⟨hP, hE.refl _, fun _ => rfl⟩
    | var n =>
      unfold applySubst
      refine wp_ite (fun h => ?_) (fun h => subPost_var hE h hP)
      rw [wp_bind]
      refine wp_mono (hS n k s h hP) ?_
      rintro t s' ⟨h1, h2⟩
      exact ⟨h1, h2, by simp⟩
    | lcomb c =>
      unfold applySubst
      rw [wp_bind]
      exact wp_mono (applySubstLC_wp hE hS c k s hP) fun r s' h => h
    | scomb c =>
      unfold applySubst
      rw [wp_bind]
      refine wp_tick fun unique => ?_
      rw [wp_bind]
      refine wp_mono (applySubstC_wp hE hT hS c k s.ticked (hT s hP)) ?_
      rintro ⟨c', ch⟩ s1 ⟨hP1, e1, c1⟩
      refine wp_ite (fun _ => ⟨hP1, e1, c1⟩) fun _ => ?_
      refine wp_ite (fun _ => ⟨hP1, e1, by simp⟩) fun h => ?_
      have h' : ch = false := by simpa using h
      refine ⟨hP1, ?_, fun _ => c1 h'⟩
      simp only [STerm.den] at *
      rw [c1 h']; exact hE.refl _
  theorem applySubstC_wp (hE : Congr E) (hT : ∀ s, P s → P s.ticked)
      (hS : ∀ n k s, k ≤ n → P s → wp (S n k) (fun t s' => P s' ∧ E t.den (Tm.upn σ k n)) s)
      (c : Comb Str STerm) (k : Nat) (s : St) (hP : P s) :
      wp (applySubstC S c k) (fun r s' => SubPost E P σ k (SComb.den c) (SComb.den r.1) r.2 s') s := by
    cases c with
    | appl f args =>
      unfold applySubstC
      rw [wp_bind]
      refine wp_mono (applySubst_wp hE hT hS f k s hP) ?_
      rintro ⟨f', cf⟩ s1 ⟨hP1, e1, c1⟩
      rw [wp_bind]
      refine wp_mono (applySubstList_wp hE hT hS args k s1 hP1) ?_
      rintro ⟨as', ca⟩ s2 ⟨hP2, e2, c2⟩
      refine ⟨hP2, ?_, ?_⟩
      · simp only [SComb.den, Tm.apps_sub, STerm.denList_eq] at *
        exact hE.apps e1 e2
      · intro h
        simp only [Bool.or_eq_false_iff] at h
        simp only [SComb.den, Tm.apps_sub]
        rw [c1 h.2, c2 h.1]
    | prod id ty tm =>
      unfold applySubstC
      rw [wp_bind]
      refine wp_mono (applySubst_wp hE hT hS ty k s hP) ?_
      rintro ⟨f', cf⟩ s1 ⟨hP1, e1, c1⟩
      rw [wp_bind]
      refine wp_mono (applySubst_wp hE hT hS tm (k+1) s1 hP1) ?_
      rintro ⟨as', ca⟩ s2 ⟨hP2, e2, c2⟩
      refine ⟨hP2, ?_, ?_⟩
      · simp only [SComb.den, Tm.sub]
        exact hE.pi e1 e2
      · intro h
        simp only [Bool.or_eq_false_iff] at h
        simp only [SComb.den, Tm.sub]
        have := c2 h.1
        simp only [Tm.upn] at this
        rw [c1 h.2, this]
    | abst id ty tm =>
      unfold applySubstC
      rw [wp_bind]
      refine wp_mono (applySubst_wp hE hT hS tm (k+1) s hP) ?_
      rintro ⟨f', cf⟩ s1 ⟨hP1, e1, c1⟩
      rw [wp_bind]
      simp only [Tm.upn] at c1 e1
      cases ty with
      | none =>
        refine ⟨hP1, ?_, ?_⟩
        · simp only [SComb.den, STerm.denAbs, Tm.sub]
          exact hE.dlam e1
        · intro h
          simp only [Bool.or_eq_false_iff] at h
          simp only [SComb.den, STerm.denAbs, Tm.sub, c1 h.2]
      | some ty =>
        unfold applySubstOpt
        rw [wp_bind]
        refine wp_mono (applySubst_wp hE hT hS ty k s1 hP1) ?_
        rintro ⟨as', ca⟩ s2 ⟨hP2, e2, c2⟩
        refine ⟨hP2, ?_, ?_⟩
        · simp only [SComb.den, STerm.denAbs, Tm.sub]
          exact hE.lam e2 e1
        · intro h
          simp only [Bool.or_eq_false_iff] at h
          simp only [SComb.den, STerm.denAbs, Tm.sub, c1 h.2, c2 h.1]
  theorem applySubstList_wp (hE : Congr E) (hT : ∀ s, P s → P s.ticked)
      (hS : ∀ n k s, k ≤ n → P s → wp (S n k) (fun t s' => P s' ∧ E t.den (Tm.upn σ k n)) s)
      (ts : List STerm) (k : Nat) (s : St) (hP : P s) :
      wp (applySubstList S ts k)
        (fun r s' => SubPosts E P σ k (STerm.denList ts) (r.1.map STerm.den) r.2 s') s := by
    cases ts with
    | nil => exact ⟨hP, .nil, fun _ => rfl⟩
    | cons t ts =>
      unfold applySubstList
      rw [wp_bind]
      refine wp_mono (applySubst_wp hE hT hS t k s hP) ?_
      rintro ⟨f', cf⟩ s1 ⟨hP1, e1, c1⟩
      rw [wp_bind]
      refine wp_mono (applySubstList_wp hE hT hS ts k s1 hP1) ?_
      rintro ⟨as', ca⟩ s2 ⟨hP2, e2, c2⟩
      refine ⟨hP2, .cons e1 e2, ?_⟩
      intro h
      simp only [Bool.or_eq_false_iff] at h
      simp only [STerm.denList, List.map_cons, c1 h.2, c2 h.1]
end

end ApplySubst

/-- shifting is textbook shifting -/
theorem shiftMut_wp {P : St → Prop} (hT : ∀ s, P s → P s.ticked) (t : STerm) (m : Nat) (s : St) (hP : P s) :
    wp (shiftMut t m) (fun t' s' => P s' ∧ t'.den = t.den.shift m) s := by
  unfold shiftMut
  rw [wp_bind]
  have key := applySubst_wp (S := fun n _ => M.pure (.var (n + m))) (E := Eq) (P := P)
    (σ := fun n => .var (n + m)) Congr.eq hT ?_ t 0 s hP
  · refine wp_mono key ?_
    rintro ⟨t', c⟩ s' ⟨h1, h2, -⟩
    exact ⟨h1, by rw [h2, Tm.shift, Tm.ren_eq_sub]; rfl⟩
  · intro n k s hk hP
    refine ⟨hP, ?_⟩
    rw [Tm.upn_ge _ hk]
    simp only [STerm.den, Tm.shift, Tm.ren, Tm.var.injEq]
    omega

theorem shift_wp {P : St → Prop} (hT : ∀ s, P s → P s.ticked) (t : STerm) (m : Nat) (s : St) (hP : P s) :
    wp (shift t m) (fun t' s' => P s' ∧ t'.den = t.den.shift m) s := by
  unfold shift
  refine wp_ite (fun _ => shiftMut_wp hT t m s hP) fun h => ⟨hP, ?_⟩
  have : m = 0 := by simpa using h
  subst this
  exact (Tm.shift_zero _).symm

/-- substitution is textbook substitution -/
theorem subst_wp {P : St → Prop} (hT : ∀ s, P s → P s.ticked) (t u : STerm) (s : St) (hP : P s) :
    wp (subst t u) (fun t' s' => P s' ∧ t'.den = t.den.inst u.den) s := by
  unfold subst
  rw [wp_bind]
  have key := applySubst_wp (S := psubstSingle u) (E := Eq) (P := P) (σ := Tm.one u.den) Congr.eq hT ?_ t 0 s hP
  · refine wp_mono key ?_
    rintro ⟨t', c⟩ s' ⟨h1, h2, -⟩
    exact ⟨h1, h2⟩
  · intro n k s hk hP
    unfold psubstSingle
    rw [Tm.upn_ge _ hk]
    refine wp_ite (fun h => ?_) fun h => ?_
    · subst h
      rw [Nat.sub_self]
      exact shift_wp hT u n s hP
    · refine wp_ite (fun h0 => by omega) fun h0 => ⟨hP, ?_⟩
      obtain ⟨j, hj⟩ : ∃ j, n - k = j + 1 := ⟨n - k - 1, by omega⟩
      rw [hj]
      simp only [STerm.den, Tm.one, Tm.shift, Tm.ren, Tm.var.injEq]
      omega

theorem applyArgs_wp {P : St → Prop} (hT : ∀ s, P s → P s.ticked) (t : STerm) (args : List STerm) (s : St)
    (hP : P s) :
    wp (applyArgs t args) (fun t' s' => P s' ∧ t'.den = t.den.apps (args.map STerm.den)) s := by
  unfold applyArgs
  split
  · next f args1 =>
    rw [wp_bind]
    refine wp_tick fun unique => ?_
    refine wp_ite (fun _ => ⟨hT s hP, ?_⟩) fun _ => ⟨hT s hP, ?_⟩
    · simp [STerm.den, SComb.den, STerm.denList_eq, Tm.apps_append]
    · simp [STerm.den, SComb.den, STerm.denList_eq]
  · exact ⟨hP, by simp [STerm.den, SComb.den, STerm.denList_eq]⟩

end Kontroli
