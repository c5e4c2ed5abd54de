import Mathlib.Order.GameAdd
import Verif.Proofs.Terminate
import Verif.Proofs.Reducible
import Verif.Proofs.Eta

/-!
# Conversion with eta stops on strongly normalising terms, if rules only unfold definitions

With eta, a constraint between an abstraction and another term leads to one between its body and the other term applied to a new variable.
So the terms that are compared are parts of the given ones up to renaming, applied to variables.
-/

namespace Kontroli

open _root_.Relation

section
variable {R : RuleMap} {eta : Bool} (hd : Definitional R)
include hd

/-- steps of a renamed term come from steps of the term -/
theorem Step.unren {t u : Tm} {ρ : Nat → Nat} (h : Step R eta (t.ren ρ) u) : ∃ u' : Tm, u = u'.ren ρ ∧ Step R eta t u' := by
  generalize hx : t.ren ρ = x at h
  induction h generalizing t ρ with
  | appL _ ih =>
    cases t <;> simp only [Tm.ren, reduceCtorEq, Tm.app.injEq] at hx
    obtain ⟨f', rfl, h1⟩ := ih hx.1
    exact ⟨.app f' _, by rw [Tm.ren, hx.2], .appL h1⟩
  | appR _ ih =>
    cases t <;> simp only [Tm.ren, reduceCtorEq, Tm.app.injEq] at hx
    obtain ⟨f', rfl, h1⟩ := ih hx.2
    exact ⟨.app _ f', by rw [Tm.ren, hx.1], .appR h1⟩
  | lamL _ ih =>
    cases t <;> simp only [Tm.ren, reduceCtorEq, Tm.lam.injEq] at hx
    obtain ⟨f', rfl, h1⟩ := ih hx.1
    exact ⟨.lam f' _, by rw [Tm.ren, hx.2], .lamL h1⟩
  | lamR _ ih =>
    cases t <;> simp only [Tm.ren, reduceCtorEq, Tm.lam.injEq] at hx
    obtain ⟨f', rfl, h1⟩ := ih hx.2
    exact ⟨.lam _ f', by rw [Tm.ren, hx.1], .lamR h1⟩
  | dlam _ ih =>
    cases t <;> simp only [Tm.ren, reduceCtorEq, Tm.dlam.injEq] at hx
    obtain ⟨f', rfl, h1⟩ := ih hx
    exact ⟨.dlam f', rfl, .dlam h1⟩
  | piL _ ih =>
    cases t <;> simp only [Tm.ren, reduceCtorEq, Tm.pi.injEq] at hx
    obtain ⟨f', rfl, h1⟩ := ih hx.1
    exact ⟨.pi f' _, by rw [Tm.ren, hx.2], .piL h1⟩
  | piR _ ih =>
    cases t <;> simp only [Tm.ren, reduceCtorEq, Tm.pi.injEq] at hx
    obtain ⟨f', rfl, h1⟩ := ih hx.2
    exact ⟨.pi _ f', by rw [Tm.ren, hx.1], .piR h1⟩
  | beta A b a =>
    cases t <;> simp only [Tm.ren, reduceCtorEq, Tm.app.injEq] at hx
    rename_i f a'
    obtain ⟨e1, rfl⟩ := hx
    cases f <;> simp only [Tm.ren, reduceCtorEq, Tm.lam.injEq] at e1
    obtain ⟨rfl, rfl⟩ := e1
    exact ⟨_, (Tm.inst_ren _ _ _).symm, .beta _ _ _⟩
  | dbeta b a =>
    cases t <;> simp only [Tm.ren, reduceCtorEq, Tm.app.injEq] at hx
    rename_i f a'
    obtain ⟨e1, rfl⟩ := hx
    cases f <;> simp only [Tm.ren, reduceCtorEq, Tm.dlam.injEq] at e1
    subst e1
    exact ⟨_, (Tm.inst_ren _ _ _).symm, .dbeta _ _⟩
  | @rule s rs r σ ts bs h1 h2 h3 h4 h5 h6 =>
    have h4' := h4
    rw [hd.args s rs r h1 h2] at h4'
    cases h4'
    cases t <;> simp only [Tm.ren, Tm.apps, reduceCtorEq, Tm.const.injEq] at hx
    rename_i s'
    obtain rfl : s' = s := hx
    refine ⟨r.rhs.den.sub σ, ?_, .rule (ts := []) h1 h2 h3 h4 h5 h6⟩
    rw [(hd.closed _ rs r h1 h2).sub_closed, (hd.closed _ rs r h1 h2).ren_closed]

theorem SN.ren {t : Tm} (h : SN R eta t) (ρ : Nat → Nat) : SN R eta (t.ren ρ) := by
  induction h with
  | intro t _ ih =>
    refine ⟨_, fun u hu => ?_⟩
    obtain ⟨u', rfl, h⟩ := hu.unren hd
    exact ih u' h

omit hd in
theorem Part.unren {x t : Tm} {ρ : Nat → Nat} (h : Part x (t.ren ρ)) : ∃ (x' : Tm) (ρ' : Nat → Nat), x = x'.ren ρ' ∧ Part x' t := by
  cases t with
  | app f a => cases h with
    | appL => exact ⟨f, ρ, rfl, .appL _ _⟩
    | appR => exact ⟨a, ρ, rfl, .appR _ _⟩
  | lam A b => cases h with
    | lamL => exact ⟨A, ρ, rfl, .lamL _ _⟩
    | lamR => exact ⟨b, _, rfl, .lamR _ _⟩
  | dlam b => cases h with
    | dlam => exact ⟨b, _, rfl, .dlam _⟩
  | pi A B => cases h with
    | piL => exact ⟨A, ρ, rfl, .piL _ _⟩
    | piR => exact ⟨B, _, rfl, .piR _ _⟩
  | _ => cases h

omit hd in
theorem Tm.inst_var_ren (b : Tm) (ρ : Nat → Nat) (k : Nat) : (b.ren (Tm.upr ρ)).inst (.var k) = b.ren (fun n => match n with | 0 => k | n + 1 => ρ n) := by
  rw [Tm.inst, Tm.ren_sub, Tm.ren_eq_sub]
  congr 1
  funext n
  cases n <;> rfl

omit hd in
theorem Step.not_var {n : Nat} {u : Tm} : ¬ Step R eta (.var n) u := by
  intro h
  generalize e : Tm.var n = t at h
  cases h with
  | rule => exact absurd e.symm Tm.apps_const_ne_var
  | _ => cases e

/-- a step of an application to a variable -/
theorem Step.app_var {f x : Tm} {k : Nat} (h : Step R eta (.app f (.var k)) x) :
    (∃ f', Step R eta f f' ∧ x = .app f' (.var k)) ∨ ∃ b, f.IsAbs b ∧ x = b.inst (.var k) := by
  generalize e : Tm.app f (.var k) = t at h
  cases h with
  | appL h => cases e; exact .inl ⟨_, h, rfl⟩
  | appR h => cases e; exact absurd h Step.not_var
  | beta A b a => cases e; exact .inr ⟨b, .lam _ _, rfl⟩
  | dbeta b a => cases e; exact .inr ⟨b, .dlam _, rfl⟩
  | @rule s rs r σ ts bs h1 h2 h3 h4 h5 h6 =>
    rw [hd.args s rs r h1 h2] at h4
    cases h4
    cases e
  | _ => cases e

theorem SN.app_var {f : Tm} (h : SN R eta f) (k : Nat) : SN R eta (.app f (.var k)) := by
  induction h with
  | intro f hf ih =>
    refine ⟨_, fun x hx => ?_⟩
    rcases hx.app_var hd with ⟨f', h1, rfl⟩ | ⟨b, hb, rfl⟩
    · exact ih f' h1
    · have hb' : SN R eta b := by
        have : SN R eta f := ⟨_, hf⟩
        cases hb with
        | lam A b => exact SN.pull (fun b => .lam A b) (fun _ _ h => .lamR h) this
        | dlam b => exact SN.pull (fun b => .dlam b) (fun _ _ h => .dlam h) this
      have e : b.inst (.var k) = b.ren (fun n => match n with | 0 => k | n + 1 => n) := by
        rw [Tm.inst, Tm.ren_eq_sub]
        congr 1
        funext n
        cases n <;> rfl
      rw [e]
      exact hb'.ren hd _

/-- a renaming of the term, or a variable, applied to a number of variables -/
def Fan (u : Tm) (n : Nat) (t : Tm) : Prop :=
  ∃ (h : Tm) (ρ : Nat → Nat) (ns : List Nat), (h = u ∨ h = .var 0) ∧ t = (h.ren ρ).apps (ns.map .var) ∧ n = ns.length

omit hd in
theorem Fan.self (u : Tm) : Fan u 0 u := ⟨u, fun n => n, [], .inl rfl, by simp [Tm.apps, Tm.ren_id], rfl⟩

omit hd in
theorem Fan.app {u t : Tm} {n : Nat} (h : Fan u n t) (k : Nat) : Fan u (n + 1) (.app t (.var k)) := by
  obtain ⟨h, ρ, ns, h1, rfl, rfl⟩ := h
  exact ⟨h, ρ, ns ++ [k], h1, by rw [List.map_append, List.map_singleton, Tm.apps_snoc], by simp⟩

omit hd in
theorem Fan.ren {u t : Tm} {n : Nat} (h : Fan u n t) (ξ : Nat → Nat) : Fan u n (t.ren ξ) := by
  obtain ⟨h, ρ, ns, h1, rfl, rfl⟩ := h
  refine ⟨h, fun n => ξ (ρ n), ns.map ξ, h1, ?_, by simp⟩
  rw [Tm.apps_ren, Tm.ren_ren, List.map_map, List.map_map]
  rfl

theorem Fan.sn {u t : Tm} {n : Nat} (h : Fan u n t) (hu : SN R eta u) : SN R eta t := by
  obtain ⟨h, ρ, ns, h1, rfl, rfl⟩ := h
  induction ns using List.reverseRecOn with
  | nil =>
    rcases h1 with rfl | rfl
    · exact hu.ren hd ρ
    · exact SN.var _
  | append_singleton ns k ih =>
    rw [List.map_append, List.map_singleton, Tm.apps_snoc]
    exact ih.app_var hd k

theorem Fan.step {u t x : Tm} {n : Nat} (h : Fan u n t) (hs : Step R eta t x) : ∃ u' n', Less R eta u' u ∧ Fan u' n' x := by
  obtain ⟨h, ρ, ns, h1, rfl, rfl⟩ := h
  induction ns using List.reverseRecOn generalizing x with
  | nil =>
    obtain ⟨x', rfl, h2⟩ := hs.unren hd
    rcases h1 with rfl | rfl
    · exact ⟨x', 0, .inl h2, x', ρ, [], .inl rfl, rfl, rfl⟩
    · exact absurd h2 Step.not_var
  | append_singleton ns k ih =>
    rw [List.map_append, List.map_singleton, Tm.apps_snoc] at hs
    rcases hs.app_var hd with ⟨f', h2, rfl⟩ | ⟨b, hb, rfl⟩
    · obtain ⟨u', n', h3, h4⟩ := ih h2
      exact ⟨u', n' + 1, h3, h4.app k⟩
    · cases ns using List.reverseRecOn with
      | append_singleton ns k' =>
        rw [List.map_append, List.map_singleton, Tm.apps_snoc] at hb
        cases hb
      | nil =>
        obtain ⟨b', hb', rfl⟩ := Tm.IsAbs.ren_inv hb
        rcases h1 with rfl | rfl
        · refine ⟨b', 0, .inr ?_, b', _, [], .inl rfl, Tm.inst_var_ren b' ρ k, rfl⟩
          cases hb' with
          | lam A b => exact .lamR _ _
          | dlam b => exact .dlam _
        · cases hb'

/-- something smaller, or the same with fewer variables -/
def Falls (R : RuleMap) (eta : Bool) (u : Tm) (n : Nat) (x : Tm) : Prop :=
  ∃ u' n', Fan u' n' x ∧ (Below R eta u' u ∨ u' = u ∧ n' < n)

theorem Fan.less {u t x : Tm} {n : Nat} (h : Fan u n t) (hl : Less R eta x t) : Falls R eta u n x := by
  rcases hl with hs | hp
  · obtain ⟨u', n', h1, h2⟩ := h.step hd hs
    exact ⟨u', n', h2, .inl (.single h1)⟩
  · obtain ⟨h, ρ, ns, h1, rfl, rfl⟩ := h
    cases ns using List.reverseRecOn with
    | nil =>
      obtain ⟨x', ρ', rfl, h2⟩ := Part.unren hp
      rcases h1 with rfl | rfl
      · exact ⟨x', 0, ⟨x', ρ', [], .inl rfl, rfl, rfl⟩, .inl h2.below⟩
      · cases h2
    | append_singleton ns k =>
      rw [List.map_append, List.map_singleton, Tm.apps_snoc] at hp
      cases hp with
      | appL => exact ⟨u, _, ⟨h, ρ, ns, h1, rfl, rfl⟩, .inr ⟨rfl, by simp⟩⟩
      | appR => exact ⟨u, 0, ⟨.var 0, fun _ => k, [], .inr rfl, rfl, rfl⟩, .inr ⟨rfl, by simp⟩⟩

theorem Fan.below {u t x : Tm} {n : Nat} (h : Fan u n t) (hl : Below R eta x t) : Falls R eta u n x := by
  induction hl using Relation.TransGen.head_induction_on with
  | single hl => exact h.less hd hl
  | head hl _ ih =>
    obtain ⟨u', n', h1, h2⟩ := ih
    obtain ⟨u'', n'', h3, h4⟩ := h1.less hd hl
    refine ⟨u'', n'', h3, ?_⟩
    rcases h4 with h4 | ⟨rfl, h4⟩
    · rcases h2 with h2 | ⟨rfl, -⟩
      · exact .inl (h4.trans h2)
      · exact .inl h4
    · rcases h2 with h2 | ⟨rfl, h2⟩
      · exact .inl h2
      · exact .inr ⟨rfl, by omega⟩

theorem Fan.red {u t x : Tm} {n : Nat} (h : Fan u n t) (hr : Red R eta t x) : ∃ u' n', Fan u' n' x ∧ (Below R eta u' u ∨ u' = u) := by
  rcases hr.eq_or_lower with rfl | h'
  · exact ⟨u, n, h, .inr rfl⟩
  · obtain ⟨u', n', h1, h2⟩ := h.below hd h'
    exact ⟨u', n', h1, h2.imp_right fun h => h.1⟩

omit hd in
theorem Fan.abs {u t b : Tm} {n : Nat} (h : Fan u n t) (hb : t.IsAbs b) : ∃ u', Fan u' 0 b ∧ Below R eta u' u := by
  obtain ⟨h, ρ, ns, h1, rfl, rfl⟩ := h
  cases ns using List.reverseRecOn with
  | append_singleton ns k =>
    rw [List.map_append, List.map_singleton, Tm.apps_snoc] at hb
    cases hb
  | nil =>
    obtain ⟨b', hb', rfl⟩ := Tm.IsAbs.ren_inv hb
    rcases h1 with rfl | rfl
    · refine ⟨b', ⟨b', _, [], .inl rfl, rfl, rfl⟩, ?_⟩
      cases hb' with
      | lam A b => exact (Part.lamR _ _).below
      | dlam b => exact (Part.dlam _).below
    · cases hb'

end

/-! ## Steps of the comparison -/

theorem step2_eta (cns : List (STerm × STerm)) (c1 c2 : SComb) :
    step2 true cns c1 c2 = step2 false cns c1 c2 ∨ ∃ b a : STerm,
      ((SComb.den c1).IsAbs b.den ∧ a.den = SComb.den c2 ∨ (SComb.den c2).IsAbs b.den ∧ a.den = SComb.den c1) ∧
        step2 true cns c1 c2 = M.bind (shiftApp a) fun a => M.pure (some ((b, a) :: cns)) := by
  unfold Kontroli.step2
  split
  · exact .inl rfl
  · exact .inl rfl
  · exact .inl rfl
  · next b _ => exact .inr ⟨b, .scomb c2, .inl ⟨by simp only [SComb.den]; exact denAbs_isAbs _ _, rfl⟩, rfl⟩
  · next b _ => exact .inr ⟨b, .scomb c1, .inr ⟨by simp only [SComb.den]; exact denAbs_isAbs _ _, rfl⟩, rfl⟩
  · exact .inl rfl

theorem step1_eta (cns : List (STerm × STerm)) (c : SComb) (t : STerm) :
    step1 cns c t = M.pure none ∨ ∃ b : STerm, (SComb.den c).IsAbs b.den ∧ step1 cns c t = M.bind (shiftApp t) fun a => M.pure (some ((b, a) :: cns)) := by
  unfold Kontroli.step1
  split
  · next b => exact .inr ⟨b, by simp only [SComb.den]; exact denAbs_isAbs _ _, rfl⟩
  · exact .inl rfl

theorem step_eta (cns : List (STerm × STerm)) (t1 t2 : STerm) :
    step true cns t1 t2 = step false cns t1 t2 ∨ step true cns t1 t2 = M.pure none ∨ ∃ b a : STerm,
      (t1.den.IsAbs b.den ∧ a.den = t2.den ∨ t2.den.IsAbs b.den ∧ a.den = t1.den) ∧
        step true cns t1 t2 = M.bind (shiftApp a) fun a => M.pure (some ((b, a) :: cns)) := by
  unfold Kontroli.step
  split
  · exact .inl rfl
  · exact .inl rfl
  · exact .inl rfl
  · exact .inl rfl
  · next c1 c2 => simpa [STerm.den] using (step2_eta cns (SComb.ofL c1) (SComb.ofL c2)).imp_right (Or.inr (a := step2 true cns (SComb.ofL c1) (SComb.ofL c2) = M.pure none))
  · next c1 c2 => simpa [STerm.den] using (step2_eta cns (SComb.ofL c1) c2).imp_right (Or.inr (a := step2 true cns (SComb.ofL c1) c2 = M.pure none))
  · next c1 c2 => simpa [STerm.den] using (step2_eta cns c1 (SComb.ofL c2)).imp_right (Or.inr (a := step2 true cns c1 (SComb.ofL c2) = M.pure none))
  · next c1 c2 => simpa [STerm.den] using (step2_eta cns c1 c2).imp_right (Or.inr (a := step2 true cns c1 c2 = M.pure none))
  · next b _ _ => exact .inr ((step1_eta cns b t2).imp_right fun ⟨b', h1, h2⟩ => ⟨b', t2, .inl ⟨h1, rfl⟩, h2⟩)
  · next b _ _ => exact .inr ((step1_eta cns b t1).imp_right fun ⟨b', h1, h2⟩ => ⟨b', t1, .inr ⟨h1, rfl⟩, h2⟩)
  · next b _ _ => exact .inr ((step1_eta cns (SComb.ofL b) t2).imp_right fun ⟨b', h1, h2⟩ => ⟨b', t2, .inl ⟨by simpa [STerm.den] using h1, rfl⟩, h2⟩)
  · next b _ _ => exact .inr ((step1_eta cns (SComb.ofL b) t1).imp_right fun ⟨b', h1, h2⟩ => ⟨b', t1, .inr ⟨by simpa [STerm.den] using h1, rfl⟩, h2⟩)
  · exact .inl rfl

/-! ## The theorem -/

section
variable {gc : GCtx} {G : Ghost} {q : ℚ} (hd : Definitional gc.rules)
include hd

theorem whStops_eta {T : Tm} (hacc : Acc (Below gc.rules gc.eta) T) : WhStops gc T := by
  induction hacc with
  | intro T hacc ih => exact whStops_of ih (.inr hd)

omit hd in
theorem SN.of_falls {R : RuleMap} {eta : Bool} {t : Tm} (h : Acc (Below R eta) t) : SN R eta t :=
  Subrelation.accessible (fun h => .single (.inl h)) h

omit hd in
theorem acc_irrefl {α : Type} {r : α → α → Prop} {a : α} (h : Acc r a) : ¬ r a a := by
  induction h with
  | intro a _ ih => exact fun h => ih a h h

theorem cvStops_eta (he : gc.eta = true) {p : Tm × Tm}
    (hacc : Acc (TransGen (Prod.GameAdd (Below gc.rules gc.eta) (Below gc.rules gc.eta))) p) : ∀ (k n m : Nat), n + m = k →
    Acc (Below gc.rules gc.eta) p.1 → Acc (Below gc.rules gc.eta) p.2 → ∀ (a b : STerm), Fan p.1 n a.den → Fan p.2 m b.den →
      CvStops gc a b ∧ CvStops gc b a := by
  induction hacc with
  | intro p _ ih =>
  obtain ⟨u, v⟩ := p
  intro k
  induction k using Nat.strong_induction_on with
  | _ k ihk =>
  intro n m hk hu hv
  have outer : ∀ u' v' n' m' (a b : STerm), Fan u' n' a.den → Fan v' m' b.den → (Below gc.rules gc.eta u' u ∨ u' = u) → (Below gc.rules gc.eta v' v ∨ v' = v) →
      (u' = u → v' = v → n' + m' < k) → CvStops gc a b ∧ CvStops gc b a := by
    intro u' v' n' m' a b h1 h2 h3 h4 h5
    rcases h3 with h3 | rfl
    · have hu' := hu.inv h3
      rcases h4 with h4 | rfl
      · exact ih (u', v') (.tail (.single (.snd h4)) (.fst h3)) _ n' m' rfl hu' (hv.inv h4) a b h1 h2
      · exact ih (u', v') (.single (.fst h3)) _ n' m' rfl hu' hv a b h1 h2
    · rcases h4 with h4 | rfl
      · exact ih (u', v') (.single (.snd h4)) _ n' m' rfl hu (hv.inv h4) a b h1 h2
      · exact ihk _ (h5 rfl rfl) n' m' rfl hu hv a b h1 h2
  have main : ∀ (a b : STerm) (n m : Nat) (u v : Tm), Fan u n a.den → Fan v m b.den → SN gc.rules gc.eta u → SN gc.rules gc.eta v →
      (∀ u' v' n' m' (a b : STerm), Fan u' n' a.den → Fan v' m' b.den → (Below gc.rules gc.eta u' u ∨ u' = u) → (Below gc.rules gc.eta v' v ∨ v' = v) →
        (u' = u → v' = v → n' + m' < n + m) → CvStops gc a b ∧ CvStops gc b a) → CvStops gc a b := by
    clear outer
    intro a b n m u v ha hb hu hv outer G q rest hrest
    have wa := whStops_eta hd (ha.sn hd hu).below
    have wb := whStops_eta hd (hb.sn hd hv).below
    refine TH.succ ?_
    change TH gc.rules gc.eta G q (fun m => cvBody gc (ops gc m) ((a, b) :: rest))
    unfold Kontroli.cvBody
    refine .ite (fun _ => hrest G (.refl G)) fun _ => ?_
    refine TH.bind (TH.whnfTerm wa) (fun m => Tri.whnfTerm (opsOk gc m) a) ?_
    rintro G1 w1 e1 ⟨h1, -, f1⟩
    refine TH.bind (TH.whnfTerm wb) (fun m => Tri.whnfTerm (opsOk gc m) b) ?_
    rintro G2 w2 e2 ⟨h2, -, f2⟩
    rw [he]
    rcases step_eta rest w1 w2 with hs | hs | ⟨c, d, hcd, hs⟩
    · obtain ⟨r, hr, hsm⟩ := step_smaller (R := gc.rules) (eta := gc.eta) rest w1 w2 f1 f2
      rw [hs, hr]
      cases r with
      | none => exact .pure false
      | some cns' =>
        obtain ⟨ps, rfl, hps⟩ := hsm
        change TH gc.rules true G2 q (fun m => (ops gc m).cv (ps ++ rest))
        rw [← he]
        refine cvStops_list (fun p hp => ?_) fun G' e => hrest G' ((e1.trans e2).trans e)
        obtain ⟨hp1, hp2⟩ := hps p hp
        obtain ⟨u', n', k1, k2⟩ := ha.below hd (hp1.red h1)
        obtain ⟨v', m', k3, k4⟩ := hb.below hd (hp2.red h2)
        refine (outer u' v' n' m' p.1 p.2 k1 k3 (k2.imp_right fun h => h.1) (k4.imp_right fun h => h.1) fun eu ev => ?_).1
        have c1 := k2.resolve_left fun h => acc_irrefl hu.below (eu ▸ h)
        have c2 := k4.resolve_left fun h => acc_irrefl hv.below (ev ▸ h)
        omega
    · rw [hs]
      exact .pure false
    · rw [hs]
      rw [← he]
      refine TH.bind (F := fun _ => M.bind (Kontroli.shiftApp d) fun a => M.pure (some ((c, a) :: rest)))
        (Φ := fun _ res => ∃ d' : STerm, res = some ((c, d') :: rest) ∧ d'.den = .app (d.den.shift 1) (.var 0))
        (.of_nt (.bind (.shiftApp d) fun _ => .pure _)) (fun _ => Tri.bind (Tri.shiftApp d) fun _ d' _ h => Tri.pure ⟨d', rfl, h⟩) ?_
      rintro G3 _ e3 ⟨d', rfl, hd'⟩
      change TH gc.rules gc.eta G3 q (fun m => (ops gc m).cv ([(c, d')] ++ rest))
      refine cvStops_list (fun p hp => ?_) fun G' e => hrest G' (((e1.trans e2).trans e3).trans e)
      rw [List.mem_singleton] at hp
      subst hp
      obtain ⟨u1, n1, k1, k2⟩ := ha.red hd h1
      obtain ⟨v1, m1, k3, k4⟩ := hb.red hd h2
      rcases hcd with ⟨hc, hdd⟩ | ⟨hc, hdd⟩
      · obtain ⟨u2, k5, k6⟩ := k1.abs (R := gc.rules) (eta := gc.eta) hc
        have k7 : Below gc.rules gc.eta u2 u := by
          rcases k2 with k2 | rfl
          · exact k6.trans k2
          · exact k6
        have k8 : Fan v1 (m1 + 1) d'.den := by
          rw [hd', hdd]
          exact (k3.ren _).app 0
        exact (outer u2 v1 0 (m1 + 1) c d' k5 k8 (.inl k7) k4 fun e _ => absurd (e ▸ k7) (acc_irrefl hu.below)).1
      · obtain ⟨v2, k5, k6⟩ := k3.abs (R := gc.rules) (eta := gc.eta) hc
        have k7 : Below gc.rules gc.eta v2 v := by
          rcases k4 with k4 | rfl
          · exact k6.trans k4
          · exact k6
        have k8 : Fan u1 (n1 + 1) d'.den := by
          rw [hd', hdd]
          exact (k1.ren _).app 0
        exact (outer u1 v2 (n1 + 1) 0 d' c k8 k5 k2 (.inl k7) fun _ e => absurd (e ▸ k7) (acc_irrefl hv.below)).2
  intro a b ha hb
  have su := SN.of_falls hu
  have sv := SN.of_falls hv
  refine ⟨main a b n m u v ha hb su sv (by rw [hk]; exact outer), main b a m n v u hb ha sv su ?_⟩
  intro u' v' n' m' a b h1 h2 h3 h4 h5
  exact (outer v' u' m' n' b a h2 h1 h4 h3 fun e1 e2 => by have := h5 e2 e1; omega).symm

omit hd in
/-- Evaluation of a strongly normalising term stops: without eta, or if rules only unfold definitions. -/
theorem SN.whStopsIn (h : gc.eta = true → Definitional gc.rules) {t : Tm} (ht : SN gc.rules gc.eta t) : WhStops gc t := by
  cases he : gc.eta with
  | false => exact ht.whStops he
  | true => exact whStops_eta (h he) ht.below

omit hd in
/-- Comparison of strongly normalising terms stops: without eta, or if rules only unfold definitions. -/
theorem SN.cvIn (h : gc.eta = true → Definitional gc.rules) {a b : STerm} (ha : SN gc.rules gc.eta a.den) (hb : SN gc.rules gc.eta b.den) :
    TH gc.rules gc.eta G q (fun m => (ops gc m).cv [(a, b)]) := by
  cases he : gc.eta with
  | false => rw [← he]; exact SN.cv he ha hb
  | true =>
    rw [← he]
    exact (cvStops_eta (h he) he (p := (a.den, b.den)) (Acc.prod_gameAdd ha.below hb.below).transGen 0 0 0 rfl ha.below hb.below a b (.self _) (.self _)).1
      G q [] fun _ _ => TH.cvNil

end

end Kontroli
