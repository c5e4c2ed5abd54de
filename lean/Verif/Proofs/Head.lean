import Verif.Proofs.Eta
import Verif.Proofs.Levels
import Verif.Proofs.Normal
import Verif.Proofs.WhnfLemmas
import Verif.Spec.Head

/-!
# Head reduction finds weak-head normal forms

For rules that only unfold definitions: a parallel step is some head steps followed by a parallel step that leaves the head alone
(`IPar`); such a step can be postponed after head steps.  So a term that reduces to a weak-head normal form has a finite head
reduction, and reduction does not make the head reduction of a term longer.
-/

namespace Kontroli

section
variable {R : RuleMap}

/-- a parallel step that leaves the head alone -/
inductive IPar (R : RuleMap) : Tm → Tm → Prop
  | kind : IPar R .kind .kind
  | type : IPar R .type .type
  | const (s : Sym) : IPar R (.const s) (.const s)
  | var (n : Nat) : IPar R (.var n) (.var n)
  | app {f f' a a' : Tm} : IPar R f f' → Par R a a' → IPar R (.app f a) (.app f' a')
  | lam {A A' b b' : Tm} : Par R A A' → Par R b b' → IPar R (.lam A b) (.lam A' b')
  | dlam {b b' : Tm} : Par R b b' → IPar R (.dlam b) (.dlam b')
  | annot {A b b' : Tm} : Par R b b' → IPar R (.lam A b) (.dlam b')
  | pi {A A' B B' : Tm} : Par R A A' → Par R B B' → IPar R (.pi A B) (.pi A' B')

theorem IPar.refl (t : Tm) : IPar R t t := by
  induction t with
  | kind => exact .kind
  | type => exact .type
  | const s => exact .const s
  | var n => exact .var n
  | app f a ih _ => exact .app ih (.refl a)
  | lam A b => exact .lam (.refl A) (.refl b)
  | dlam b => exact .dlam (.refl b)
  | pi A B => exact .pi (.refl A) (.refl B)

theorem IPar.par {t u : Tm} (h : IPar R t u) : Par R t u := by
  induction h with
  | kind => exact .refl _
  | type => exact .refl _
  | const => exact .refl _
  | var => exact .refl _
  | app _ h ih => exact .app ih h
  | lam h1 h2 => exact .lam h1 h2
  | dlam h => exact .dlam h
  | annot h => exact .annot h
  | pi h1 h2 => exact .pi h1 h2

/-- any number of head steps -/
abbrev HSteps (R : RuleMap) : Tm → Tm → Prop := _root_.Relation.ReflTransGen (HStep R)

theorem HSteps.app {f f' : Tm} (a : Tm) (h : HSteps R f f') : HSteps R (.app f a) (.app f' a) := by
  induction h with
  | refl => exact .refl
  | tail _ h ih => exact ih.tail (.app h)

theorem HStep.noAbs {f b t : Tm} (h : f.IsAbs b) : ¬ HStep R f t := by
  intro hs
  cases h <;> cases hs

theorem Par.abs {f f' b : Tm} (h : Par R f f') (hb : f.IsAbs b) : ∃ b', f'.IsAbs b' ∧ Par R b b' := by
  have hn : f.NotApp := by cases hb <;> exact nofun
  have := Par.apps_inv (ts := []) hn h
  cases this with
  | cong h1 h2 =>
    cases h2
    cases h1 with
    | refl => exact ⟨b, hb, .refl b⟩
    | pi => cases hb
    | abs h1 h2 h3 _ => exact ⟨_, h2, hb.unique h1 ▸ h3⟩
  | rule e => subst e; cases hb
  | beta _ e => cases e

/-- some head steps, then a step that leaves the head alone -/
def Split (R : RuleMap) (t u : Tm) : Prop := ∃ t', HSteps R t t' ∧ IPar R t' u

variable (hd : Definitional R)
include hd

theorem HStep.sub {t u : Tm} (h : HStep R t u) (σ : Nat → Tm) : HStep R (t.sub σ) (u.sub σ) := by
  induction h with
  | beta hf =>
    rw [Tm.inst_sub]
    exact .beta (hf.sub σ)
  | delta h =>
    rw [(hd.free h).sub_closed σ]
    exact .delta h
  | app _ ih => exact .app ih

theorem HSteps.sub {t u : Tm} (h : HSteps R t u) (σ : Nat → Tm) : HSteps R (t.sub σ) (u.sub σ) := by
  induction h with
  | refl => exact .refl
  | tail _ h ih => exact ih.tail (h.sub hd σ)

theorem HStep.unique {t u v : Tm} (h : HStep R t u) (h' : HStep R t v) : u = v := by
  induction h generalizing v with
  | beta hf =>
    cases h' with
    | beta hf' => rw [hf.unique hf']
    | app h => exact (HStep.noAbs hf h).elim
  | delta h =>
    cases h' with
    | delta h' => exact hd.uniq h h'
  | app h ih =>
    cases h' with
    | beta hf' => exact (HStep.noAbs hf' h).elim
    | app h' => rw [ih h']

theorem IPar.split_sub {b b' : Tm} (h : IPar R b b') {σ τ : Nat → Tm} (hp : ∀ n, Par R (σ n) (τ n)) (hs : ∀ n, Split R (σ n) (τ n)) :
    Split R (b.sub σ) (b'.sub τ) := by
  induction h with
  | kind => exact ⟨_, .refl, .kind⟩
  | type => exact ⟨_, .refl, .type⟩
  | const s => exact ⟨_, .refl, .const s⟩
  | var n => exact hs n
  | app _ h ih =>
    obtain ⟨t, h1, h2⟩ := ih
    exact ⟨_, h1.app _, .app h2 (h.subs hp)⟩
  | lam h1 h2 => exact ⟨_, .refl, .lam (h1.subs hp) (h2.subs (Par.up hp))⟩
  | dlam h => exact ⟨_, .refl, .dlam (h.subs (Par.up hp))⟩
  | annot h => exact ⟨_, .refl, .annot (h.subs (Par.up hp))⟩
  | pi h1 h2 => exact ⟨_, .refl, .pi (h1.subs hp) (h2.subs (Par.up hp))⟩

theorem Par.split {t u : Tm} (h : Par R t u) : Split R t u := by
  induction h with
  | refl t => exact ⟨t, .refl, .refl t⟩
  | app _ h ih _ =>
    obtain ⟨t, h1, h2⟩ := ih
    exact ⟨_, h1.app _, .app h2 h⟩
  | lam h1 h2 => exact ⟨_, .refl, .lam h1 h2⟩
  | dlam h => exact ⟨_, .refl, .dlam h⟩
  | annot h => exact ⟨_, .refl, .annot h⟩
  | pi h1 h2 => exact ⟨_, .refl, .pi h1 h2⟩
  | @beta f b b' a a' hf h1 h2 ih1 ih2 =>
    obtain ⟨b1, hb1, hb2⟩ := ih1
    obtain ⟨t, ht1, ht2⟩ := hb2.split_sub hd (σ := Tm.one a) (τ := Tm.one a') (fun n => by
      cases n with
      | zero => exact h2
      | succ n => exact .refl _) (fun n => by
      cases n with
      | zero => exact ih2
      | succ n => exact ⟨_, .refl, .refl _⟩)
    exact ⟨t, .head (.beta hf) ((hb1.sub hd (Tm.one a)).trans ht1), ht2⟩
  | @rule s rs r σ ts bs h1 h2 h3 h4 _ _ =>
    have h0 := hd.args s rs r h1 h2
    rw [h0] at h4
    cases h4
    have hdef : Defines R s r.rhs.den := ⟨rs, r, h1, h2, h3, rfl⟩
    rw [(hd.free hdef).sub_closed σ]
    exact ⟨_, .single (.delta hdef), .refl _⟩

/-- a step that leaves the head alone can be done after a head step -/
theorem IPar.postpone {t u v : Tm} (h : IPar R t u) (hs : HStep R u v) : ∃ t', HStep R t t' ∧ Par R t' v := by
  induction h generalizing v with
  | kind => cases hs
  | type => cases hs
  | const s => exact ⟨v, hs, .refl v⟩
  | var n => cases hs
  | app hf ha ih =>
    cases hs with
    | beta hb =>
      cases hb with
      | lam A' b' =>
        cases hf with
        | lam h1 h2 => exact ⟨_, .beta (.lam _ _), h2.inst ha⟩
      | dlam b' =>
        cases hf with
        | dlam h => exact ⟨_, .beta (.dlam _), h.inst ha⟩
        | annot h => exact ⟨_, .beta (.lam _ _), h.inst ha⟩
    | app hs =>
      obtain ⟨t', h1, h2⟩ := ih hs
      exact ⟨_, .app h1, .app h2 ha⟩
  | lam => cases hs
  | dlam => cases hs
  | annot => cases hs
  | pi => cases hs

theorem IPar.stays {t u v : Tm} (h : IPar R t u) (hu : ∀ v, ¬ HStep R u v) : ¬ HStep R t v := by
  intro hs
  induction h generalizing v with
  | kind => cases hs
  | type => cases hs
  | const s => exact hu v hs
  | var n => cases hs
  | app hf ha ih =>
    cases hs with
    | beta hb =>
      obtain ⟨b', hb', -⟩ := hf.par.abs hb
      exact hu _ (.beta hb')
    | app hs => exact ih (fun v hv => hu _ (.app hv)) hs
  | lam => cases hs
  | dlam => cases hs
  | annot => cases hs
  | pi => cases hs

/-- a head step is still there after a parallel step, unless it was part of it -/
theorem Par.advance {t u t' : Tm} (h : Par R t u) (hs : HStep R t t') : Par R t' u ∨ ∃ u', HStep R u u' ∧ Par R t' u' := by
  induction h generalizing t' with
  | refl t => exact .inr ⟨t', hs, .refl _⟩
  | @app f f' a a' hf ha ih _ =>
    cases hs with
    | beta hb =>
      refine .inr ?_
      obtain ⟨b', hb', hp⟩ := hf.abs hb
      exact ⟨_, .beta hb', hp.inst ha⟩
    | app hs =>
      rcases ih hs with h | ⟨u', h1, h2⟩
      · exact .inl (.app h ha)
      · exact .inr ⟨_, .app h1, .app h2 ha⟩
  | lam => cases hs
  | dlam => cases hs
  | annot => cases hs
  | pi => cases hs
  | beta hf h1 h2 =>
    cases hs with
    | beta hf' => rw [← hf.unique hf']; exact .inl (h1.inst h2)
    | app h => exact (HStep.noAbs hf h).elim
  | @rule s rs r σ ts bs h1 h2 h3 h4 =>
    have h0 := hd.args s rs r h1 h2
    rw [h0] at h4
    cases h4
    have hdef : Defines R s r.rhs.den := ⟨rs, r, h1, h2, h3, rfl⟩
    rw [(hd.free hdef).sub_closed σ]
    cases hs with
    | delta h => rw [hd.uniq hdef h]; exact .inl (.refl _)

/-- The head reduction stops after at most so many steps. -/
inductive HN (R : RuleMap) : Nat → Tm → Prop
  | stop {t : Tm} (n : Nat) : (∀ u, ¬ HStep R t u) → HN R n t
  | step {t u : Tm} {n : Nat} : HStep R t u → HN R n u → HN R (n + 1) t

theorem HN.after {t t' : Tm} {n : Nat} (h : HN R n t) (hs : HStep R t t') : ∃ m, n = m + 1 ∧ HN R m t' := by
  cases h with
  | stop _ h => exact absurd hs (h t')
  | step h h' => exact ⟨_, rfl, hs.unique hd h ▸ h'⟩

omit hd in
theorem HN.weaken {t : Tm} {n : Nat} (h : HN R n t) : HN R (n + 1) t := by
  induction h with
  | stop n h => exact .stop _ h
  | step h _ ih => exact .step h ih

omit hd in
theorem HN.before {t t' : Tm} (h : HSteps R t t') {n : Nat} (hn : HN R n t') : ∃ m, HN R m t := by
  induction h using _root_.Relation.ReflTransGen.head_induction_on with
  | refl => exact ⟨n, hn⟩
  | head h _ ih =>
    obtain ⟨m, hm⟩ := ih
    exact ⟨m + 1, .step h hm⟩

/-- if a reduct has a finite head reduction, so has the term -/
theorem HN.expand {t u : Tm} {n : Nat} (hp : Par R t u) (h : HN R n u) : ∃ m, HN R m t := by
  induction h generalizing t with
  | stop n h =>
    obtain ⟨t1, h1, h2⟩ := hp.split hd
    refine HN.before h1 (n := 0) (.stop 0 fun v hv => ?_)
    rcases h2.par.advance hd hv with h' | ⟨u', h', _⟩
    · exact absurd hv (h2.stays hd h)
    · exact h u' h'
  | step hs _ ih =>
    obtain ⟨t1, h1, h2⟩ := hp.split hd
    obtain ⟨t2, h3, h4⟩ := h2.postpone hd hs
    obtain ⟨m, hm⟩ := ih h4
    exact HN.before h1 (.step h3 hm)

/-- reduction does not make the head reduction longer -/
theorem HN.reduce {t u : Tm} {n : Nat} (hp : Par R t u) (h : HN R n t) : HN R n u := by
  induction h generalizing u with
  | stop n h =>
    refine .stop n fun v hv => ?_
    obtain ⟨t1, h1, h2⟩ := hp.split hd
    rcases _root_.Relation.ReflTransGen.cases_head h1 with rfl | ⟨c, hc, _⟩
    · obtain ⟨t', h', _⟩ := h2.postpone hd hv
      exact h t' h'
    · exact h c hc
  | step hs _ ih =>
    rcases hp.advance hd hs with h' | ⟨u', h', h''⟩
    · exact (ih h').weaken
    · exact .step h' (ih h'')

/-! ### Reduction and weak-head normal forms -/

theorem Step.par_of_definitional {eta : Bool} {t u : Tm} (h : Step R eta t u) : Par R t u := by
  induction h with
  | appL _ ih => exact .app ih (.refl _)
  | appR _ ih => exact .app (.refl _) ih
  | lamL _ ih => exact .lam ih (.refl _)
  | lamR _ ih => exact .lam (.refl _) ih
  | dlam _ ih => exact .dlam ih
  | piL _ ih => exact .pi ih (.refl _)
  | piR _ ih => exact .pi (.refl _) ih
  | beta A b a => exact .beta (.lam A b) (.refl b) (.refl a)
  | dbeta b a => exact .beta (.dlam b) (.refl b) (.refl a)
  | @rule s rs r σ ts bs h1 h2 h3 h4 _ _ =>
    refine .rule h1 h2 h3 h4 fun b hb => ?_
    rw [hd.args s rs r h1 h2] at h4
    cases h4
    cases hb

theorem HN.reduces {eta : Bool} {t u : Tm} {n : Nat} (h : Red R eta t u) (hn : HN R n t) : HN R n u := by
  have hs := Red.steps h
  clear h
  induction hs with
  | refl => exact hn
  | tail _ h ih => exact ih.reduce hd (h.par_of_definitional hd)

theorem HN.expands {eta : Bool} {t u : Tm} {n : Nat} (h : Red R eta t u) (hn : HN R n u) : ∃ m, HN R m t := by
  have hs := Red.steps h
  clear h
  induction hs using _root_.Relation.ReflTransGen.head_induction_on with
  | refl => exact ⟨n, hn⟩
  | head h _ ih =>
    obtain ⟨m, hm⟩ := ih
    exact hm.expand hd (h.par_of_definitional hd)

omit hd in
theorem HStep.apps_inv {f u : Tm} {ts : List Tm} (hf : ∀ b, ¬ f.IsAbs b) (h : HStep R (f.apps ts) u) : ∃ f', HStep R f f' := by
  induction ts generalizing f with
  | nil => exact ⟨u, h⟩
  | cons a ts ih =>
    obtain ⟨f', h'⟩ := ih (f := .app f a) (fun b hb => nomatch hb) h
    cases h' with
    | beta hb => exact absurd hb (hf _)
    | app h => exact ⟨_, h⟩

theorem Whnf.no_hstep {eta : Bool} {t u : Tm} (h : Whnf R eta t) : ¬ HStep R t u := by
  intro hs
  cases h with
  | kind ts => obtain ⟨_, h⟩ := hs.apps_inv (f := .kind) (fun _ h => nomatch h); cases h
  | type ts => obtain ⟨_, h⟩ := hs.apps_inv (f := .type) (fun _ h => nomatch h); cases h
  | var n ts => obtain ⟨_, h⟩ := hs.apps_inv (f := .var n) (fun _ h => nomatch h); cases h
  | pi A B ts => obtain ⟨_, h⟩ := hs.apps_inv (f := .pi A B) (fun _ h => nomatch h); cases h
  | abs hb => exact HStep.noAbs hb hs
  | @const s ts hr =>
    obtain ⟨_, h⟩ := hs.apps_inv (f := .const s) (fun _ h => nomatch h)
    cases h with
    | delta h =>
      obtain ⟨rs, r, h1, h2, h3, -⟩ := h
      have h0 := hd.args s rs r h1 h2
      cases hr rs r h1 h2 with
      | short h => simp [h0] at h
      | unscoped h => exact h h3
      | clash h => rw [h0] at h; cases h
      | apart h h' =>
        rw [h0] at h
        cases h
        cases h'

theorem Whnf.hn {eta : Bool} {t : Tm} (h : Whnf R eta t) (n : Nat) : HN R n t := .stop n fun _ => h.no_hstep hd

end

end Kontroli
