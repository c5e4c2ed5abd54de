import Mathlib.Logic.Relation
import Verif.Spec.Normal
import Verif.Proofs.RedLemmas

/-!
# Steps, subterms and strong normalisation
-/

namespace Kontroli

open Relation

section
variable {R : RuleMap} {eta : Bool}

/-- many steps, in the sense of `Step` -/
abbrev Steps (R : RuleMap) (eta : Bool) : Tm → Tm → Prop := ReflTransGen (Step R eta)

theorem Steps.map {t u : Tm} (f : Tm → Tm) (hf : ∀ t u, Step R eta t u → Step R eta (f t) (f u)) (h : Steps R eta t u) :
    Steps R eta (f t) (f u) := by
  induction h with
  | refl => exact .refl
  | tail _ h ih => exact ih.tail (hf _ _ h)

theorem Steps.app {f f' a a' : Tm} (h : Steps R eta f f') (h' : Steps R eta a a') : Steps R eta (.app f a) (.app f' a') :=
  (h.map (fun f => Tm.app f a) fun _ _ h => .appL h).trans (h'.map (fun a => Tm.app f' a) fun _ _ h => .appR h)

theorem Steps.lam {A A' b b' : Tm} (h : Steps R eta A A') (h' : Steps R eta b b') : Steps R eta (.lam A b) (.lam A' b') :=
  (h.map (fun A => Tm.lam A b) fun _ _ h => .lamL h).trans (h'.map (fun b => Tm.lam A' b) fun _ _ h => .lamR h)

theorem Steps.dlam {b b' : Tm} (h : Steps R eta b b') : Steps R eta (.dlam b) (.dlam b') := h.map Tm.dlam fun _ _ h => .dlam h

theorem Steps.pi {A A' b b' : Tm} (h : Steps R eta A A') (h' : Steps R eta b b') : Steps R eta (.pi A b) (.pi A' b') :=
  (h.map (fun A => Tm.pi A b) fun _ _ h => .piL h).trans (h'.map (fun b => Tm.pi A' b) fun _ _ h => .piR h)

theorem Red.steps {t u : Tm} (h : Red R eta t u) : Steps R eta t u := by
  induction h with
  | refl => exact .refl
  | trans _ _ ih1 ih2 => exact ih1.trans ih2
  | app _ _ ih1 ih2 => exact ih1.app ih2
  | lam _ _ ih1 ih2 => exact ih1.lam ih2
  | dlam _ ih => exact ih.dlam
  | pi _ _ ih1 ih2 => exact ih1.pi ih2
  | beta => exact .single (.beta _ _ _)
  | dbeta => exact .single (.dbeta _ _)
  | rule h1 h2 h3 h4 h5 h6 => exact .single (.rule h1 h2 h3 h4 h5 h6)

theorem Step.red {t u : Tm} (h : Step R eta t u) : Red R eta t u := by
  induction h with
  | appL _ ih => exact .app ih (.refl _)
  | appR _ ih => exact .app (.refl _) ih
  | lamL _ ih => exact .lam ih (.refl _)
  | lamR _ ih => exact .lam (.refl _) ih
  | dlam _ ih => exact .dlam ih
  | piL _ ih => exact .pi ih (.refl _)
  | piR _ ih => exact .pi (.refl _) ih
  | beta => exact .beta _ _ _
  | dbeta => exact .dbeta _ _
  | rule h1 h2 h3 h4 h5 h6 => exact .rule h1 h2 h3 h4 h5 h6

theorem Steps.red {t u : Tm} (h : Steps R eta t u) : Red R eta t u := by
  induction h with
  | refl => exact .refl _
  | tail _ h ih => exact ih.trans h.red

theorem Step.apps {f f' : Tm} (h : Step R eta f f') (as : List Tm) : Step R eta (f.apps as) (f'.apps as) := by
  induction as generalizing f f' with
  | nil => exact h
  | cons a as ih => exact ih h.appL

theorem transGen_apps {f f' : Tm} (h : TransGen (Step R eta) f f') (as : List Tm) : TransGen (Step R eta) (f.apps as) (f'.apps as) := by
  induction h with
  | single h => exact .single (h.apps as)
  | tail _ h ih => exact ih.tail (h.apps as)

/-! ## Subterms -/

/-- immediate subterms -/
inductive Part : Tm → Tm → Prop
  | appL (f a : Tm) : Part f (.app f a)
  | appR (f a : Tm) : Part a (.app f a)
  | lamL (A b : Tm) : Part A (.lam A b)
  | lamR (A b : Tm) : Part b (.lam A b)
  | dlam (b : Tm) : Part b (.dlam b)
  | piL (A B : Tm) : Part A (.pi A B)
  | piR (A B : Tm) : Part B (.pi A B)

/-- a step or an immediate subterm: `Less u t` if `u` is after `t` -/
def Less (R : RuleMap) (eta : Bool) (u t : Tm) : Prop := Step R eta t u ∨ Part u t

/-- some steps and subterms -/
abbrev Below (R : RuleMap) (eta : Bool) : Tm → Tm → Prop := TransGen (Less R eta)

theorem Part.step {v w t : Tm} (h : Part v t) (hs : Step R eta v w) : ∃ t', Step R eta t t' ∧ Part w t' := by
  cases h with
  | appL => exact ⟨_, .appL hs, .appL _ _⟩
  | appR => exact ⟨_, .appR hs, .appR _ _⟩
  | lamL => exact ⟨_, .lamL hs, .lamL _ _⟩
  | lamR => exact ⟨_, .lamR hs, .lamR _ _⟩
  | dlam => exact ⟨_, .dlam hs, .dlam _⟩
  | piL => exact ⟨_, .piL hs, .piL _ _⟩
  | piR => exact ⟨_, .piR hs, .piR _ _⟩

theorem parts_step {v w t : Tm} (h : ReflTransGen Part v t) (hs : Step R eta v w) : ∃ t', Step R eta t t' ∧ ReflTransGen Part w t' := by
  induction h with
  | refl => exact ⟨w, hs, .refl⟩
  | tail _ h ih =>
    obtain ⟨t', h1, h2⟩ := ih
    obtain ⟨t'', h3, h4⟩ := h.step h1
    exact ⟨t'', h3, h2.tail h4⟩

theorem acc_parts {t : Tm} (h : Acc (Less R eta) t) {v : Tm} (hv : ReflTransGen Part v t) : Acc (Less R eta) v := by
  induction hv with
  | refl => exact h
  | tail _ hp ih => exact ih (h.inv (.inr hp))

theorem SN.acc {t : Tm} (h : SN R eta t) : Acc (Less R eta) t := by
  induction h with
  | intro t _ ih =>
    have key : ∀ v, ReflTransGen Part v t → Acc (Less R eta) v := by
      intro v
      induction v with
      | kind | type | const _ | var _ =>
        intro hv
        refine .intro _ fun w hw => ?_
        rcases hw with hw | hw
        · obtain ⟨t', h1, h2⟩ := parts_step hv hw
          exact acc_parts (ih t' h1) h2
        · cases hw
      | app f a ihf iha =>
        intro hv
        refine .intro _ fun w hw => ?_
        rcases hw with hw | hw
        · obtain ⟨t', h1, h2⟩ := parts_step hv hw
          exact acc_parts (ih t' h1) h2
        · cases hw with
          | appL => exact ihf (.head (.appL _ _) hv)
          | appR => exact iha (.head (.appR _ _) hv)
      | lam f a ihf iha =>
        intro hv
        refine .intro _ fun w hw => ?_
        rcases hw with hw | hw
        · obtain ⟨t', h1, h2⟩ := parts_step hv hw
          exact acc_parts (ih t' h1) h2
        · cases hw with
          | lamL => exact ihf (.head (.lamL _ _) hv)
          | lamR => exact iha (.head (.lamR _ _) hv)
      | dlam b ihb =>
        intro hv
        refine .intro _ fun w hw => ?_
        rcases hw with hw | hw
        · obtain ⟨t', h1, h2⟩ := parts_step hv hw
          exact acc_parts (ih t' h1) h2
        · cases hw
          exact ihb (.head (.dlam _) hv)
      | pi f a ihf iha =>
        intro hv
        refine .intro _ fun w hw => ?_
        rcases hw with hw | hw
        · obtain ⟨t', h1, h2⟩ := parts_step hv hw
          exact acc_parts (ih t' h1) h2
        · cases hw with
          | piL => exact ihf (.head (.piL _ _) hv)
          | piR => exact iha (.head (.piR _ _) hv)
    exact key t .refl

theorem SN.below {t : Tm} (h : SN R eta t) : Acc (Below R eta) t := h.acc.transGen

theorem steps_below {t u : Tm} (h : TransGen (Step R eta) t u) : Below R eta u t := by
  induction h with
  | single h => exact .single (.inl h)
  | tail _ h ih => exact .head (.inl h) ih

theorem Part.below {t u : Tm} (h : Part u t) : Below R eta u t := .single (.inr h)

theorem Below.red {t u v : Tm} (h : Below R eta v u) (hr : Red R eta t u) : Below R eta v t := by
  rcases reflTransGen_iff_eq_or_transGen.1 hr.steps with rfl | h'
  · exact h
  · exact h.trans (steps_below h')

theorem Red.lower {t u v : Tm} (hr : Red R eta u v) (h : Below R eta u t) : Below R eta v t := by
  rcases reflTransGen_iff_eq_or_transGen.1 hr.steps with rfl | h'
  · exact h
  · exact (steps_below h').trans h

theorem Red.eq_or_lower {t u : Tm} (hr : Red R eta t u) : u = t ∨ Below R eta u t :=
  (reflTransGen_iff_eq_or_transGen.1 hr.steps).imp_right steps_below

theorem below_apps_head {f : Tm} {as : List Tm} (h : as ≠ []) : Below R eta f (f.apps as) := by
  induction as generalizing f with
  | nil => exact absurd rfl h
  | cons a as ih =>
    cases as with
    | nil => exact (Part.appL f a).below
    | cons b bs => exact (Part.appL f a).below.trans (ih (f := .app f a) (by simp))

theorem below_apps_arg {f a : Tm} {as : List Tm} (h : a ∈ as) : Below R eta a (f.apps as) := by
  induction as generalizing f with
  | nil => cases h
  | cons b bs ih =>
    rcases List.mem_cons.1 h with rfl | h
    · cases bs with
      | nil => exact (Part.appR f a).below
      | cons c cs => exact (Part.appR f a).below.trans (below_apps_head (f := .app f a) (by simp))
    · exact ih h

end

end Kontroli
