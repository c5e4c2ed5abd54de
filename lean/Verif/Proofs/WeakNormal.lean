import Verif.Proofs.HeadMachine

/-!
# Conversion stops on terms that have normal forms

For rules that only unfold definitions: the terms compared are parts of weak-head normal forms of the given terms, so they have
normal forms, too, and these are smaller.
-/

namespace Kontroli

open _root_.Relation

section
variable {R : RuleMap}

/-! ### Parallel reduction for definitions -/

variable (hd : Definitional R)
include hd

theorem Par.app_inv {f a u : Tm} (h : Par R (.app f a) u) : (∃ f' a', u = .app f' a' ∧ Par R f f' ∧ Par R a a') ∨
    ∃ b b' a', f.IsAbs b ∧ Par R b b' ∧ Par R a a' ∧ u = b'.inst a' := by
  generalize hx : Tm.app f a = x at h
  cases h with
  | refl => subst hx; exact .inl ⟨f, a, rfl, .refl f, .refl a⟩
  | app h1 h2 => cases hx; exact .inl ⟨_, _, rfl, h1, h2⟩
  | beta hf h1 h2 => cases hx; exact .inr ⟨_, _, _, hf, h1, h2, rfl⟩
  | @rule s rs r σ ts bs h1 h2 h3 h4 =>
    rw [hd.args s rs r h1 h2] at h4
    cases h4
    cases hx
  | _ => cases hx

theorem Par.lam_inv {A b u : Tm} (h : Par R (.lam A b) u) : ∃ b', Par R b b' ∧ ((∃ A', u = .lam A' b') ∨ u = .dlam b') := by
  generalize hx : Tm.lam A b = x at h
  cases h with
  | refl => subst hx; exact ⟨b, .refl b, .inl ⟨A, rfl⟩⟩
  | lam h1 h2 => cases hx; exact ⟨_, h2, .inl ⟨_, rfl⟩⟩
  | annot h => cases hx; exact ⟨_, h, .inr rfl⟩
  | @rule s rs r σ ts bs h1 h2 h3 h4 =>
    rw [hd.args s rs r h1 h2] at h4
    cases h4
    cases hx
  | _ => cases hx

theorem Par.dlam_inv {b u : Tm} (h : Par R (.dlam b) u) : ∃ b', Par R b b' ∧ u = .dlam b' := by
  generalize hx : Tm.dlam b = x at h
  cases h with
  | refl => subst hx; exact ⟨b, .refl b, rfl⟩
  | dlam h => cases hx; exact ⟨_, h, rfl⟩
  | @rule s rs r σ ts bs h1 h2 h3 h4 =>
    rw [hd.args s rs r h1 h2] at h4
    cases h4
    cases hx
  | _ => cases hx

theorem Par.pi_inv {A B u : Tm} (h : Par R (.pi A B) u) : ∃ A' B', Par R A A' ∧ Par R B B' ∧ u = .pi A' B' := by
  generalize hx : Tm.pi A B = x at h
  cases h with
  | refl => subst hx; exact ⟨A, B, .refl A, .refl B, rfl⟩
  | pi h1 h2 => cases hx; exact ⟨_, _, h1, h2, rfl⟩
  | @rule s rs r σ ts bs h1 h2 h3 h4 =>
    rw [hd.args s rs r h1 h2] at h4
    cases h4
    cases hx
  | _ => cases hx

theorem Par.const_inv {s : Sym} {u : Tm} (h : Par R (.const s) u) : u = .const s ∨ Defines R s u := by
  generalize hx : Tm.const s = x at h
  cases h with
  | refl => exact .inl rfl
  | @rule s' rs r σ ts bs h1 h2 h3 h4 =>
    rw [hd.args s' rs r h1 h2] at h4
    cases h4
    cases hx
    have hdef : Defines R s r.rhs.den := ⟨rs, r, h1, h2, h3, rfl⟩
    rw [(hd.free hdef).sub_closed σ]
    exact .inr hdef
  | _ => cases hx

theorem Par.leaf_inv {t u : Tm} (ht : t = .kind ∨ t = .type ∨ ∃ n, t = .var n) (h : Par R t u) : u = t := by
  cases h with
  | refl => rfl
  | @rule s' rs r σ ts bs h1 h2 h3 h4 =>
    rw [hd.args s' rs r h1 h2] at h4
    cases h4
    rcases ht with ht | ht | ⟨n, ht⟩ <;> cases ht
  | _ => rcases ht with ht | ht | ⟨n, ht⟩ <;> cases ht

omit hd in
theorem Defines.par {s : Sym} {d : Tm} (hd : Definitional R) (h : Defines R s d) : Par R (.const s) d := by
  obtain ⟨rs, r, h1, h2, h3, rfl⟩ := h
  have := Par.rule (R := R) (σ := .var) (ts := []) (bs := []) h1 h2 h3 (by rw [hd.args s rs r h1 h2]; exact .nil) nofun
  rwa [Tm.sub_var] at this

/-- every term has a parallel reduct that all its parallel reducts have -/
theorem Definitional.star (t : Tm) : ∃ v, ∀ u, Par R t u → Par R u v := by
  match t with
  | .kind => exact ⟨.kind, fun u h => by rw [h.leaf_inv hd (.inl rfl)]; exact .refl _⟩
  | .type => exact ⟨.type, fun u h => by rw [h.leaf_inv hd (.inr (.inl rfl))]; exact .refl _⟩
  | .var n => exact ⟨.var n, fun u h => by rw [h.leaf_inv hd (.inr (.inr ⟨n, rfl⟩))]; exact .refl _⟩
  | .const s =>
    by_cases h : ∃ d, Defines R s d
    · obtain ⟨d, h⟩ := h
      refine ⟨d, fun u hu => ?_⟩
      rcases hu.const_inv hd with rfl | hu
      · exact h.par hd
      · rw [hd.uniq hu h]; exact .refl _
    · refine ⟨.const s, fun u hu => ?_⟩
      rcases hu.const_inv hd with rfl | hu
      · exact .refl _
      · exact absurd ⟨u, hu⟩ h
  | .pi A B =>
    obtain ⟨A', hA⟩ := Definitional.star A
    obtain ⟨B', hB⟩ := Definitional.star B
    refine ⟨.pi A' B', fun u h => ?_⟩
    obtain ⟨A1, B1, h1, h2, rfl⟩ := h.pi_inv hd
    exact .pi (hA _ h1) (hB _ h2)
  | .dlam b =>
    obtain ⟨b', hb⟩ := Definitional.star b
    refine ⟨.dlam b', fun u h => ?_⟩
    obtain ⟨b1, h1, rfl⟩ := h.dlam_inv hd
    exact .dlam (hb _ h1)
  | .lam A b =>
    obtain ⟨b', hb⟩ := Definitional.star b
    refine ⟨.dlam b', fun u h => ?_⟩
    obtain ⟨b1, h1, ⟨A', rfl⟩ | rfl⟩ := h.lam_inv hd
    · exact .annot (hb _ h1)
    · exact .dlam (hb _ h1)
  | .app f a =>
    obtain ⟨a', ha⟩ := Definitional.star a
    have abs : ∀ {b b0 : Tm}, f.IsAbs b → (∀ u, Par R b u → Par R u b0) → ∀ u, Par R (.app f a) u → Par R u (b0.inst a') := by
      intro b b0 hb h0 u hu
      rcases hu.app_inv hd with ⟨f1, a1, rfl, h1, h2⟩ | ⟨b1, b1', a1, h1, h2, h3, rfl⟩
      · obtain ⟨b', hb', h3⟩ := h1.abs hb
        exact .beta hb' (h0 _ h3) (ha _ h2)
      · rw [← hb.unique h1] at h2
        exact (h0 _ h2).inst (ha _ h3)
    have other : (∀ b, ¬ f.IsAbs b) → ∀ {f0 : Tm}, (∀ u, Par R f u → Par R u f0) → ∀ u, Par R (.app f a) u → Par R u (.app f0 a') := by
      intro hn f0 h0 u hu
      rcases hu.app_inv hd with ⟨f1, a1, rfl, h1, h2⟩ | ⟨b1, b1', a1, h1, h2, h3, rfl⟩
      · exact .app (h0 _ h1) (ha _ h2)
      · exact absurd h1 (hn _)
    match f with
    | .lam A b =>
      obtain ⟨b', hb⟩ := Definitional.star b
      exact ⟨_, abs (.lam A b) hb⟩
    | .dlam b =>
      obtain ⟨b', hb⟩ := Definitional.star b
      exact ⟨_, abs (.dlam b) hb⟩
    | .kind => obtain ⟨f', hf⟩ := Definitional.star .kind; exact ⟨_, other (fun _ h => nomatch h) hf⟩
    | .type => obtain ⟨f', hf⟩ := Definitional.star .type; exact ⟨_, other (fun _ h => nomatch h) hf⟩
    | .var n => obtain ⟨f', hf⟩ := Definitional.star (.var n); exact ⟨_, other (fun _ h => nomatch h) hf⟩
    | .const s => obtain ⟨f', hf⟩ := Definitional.star (.const s); exact ⟨_, other (fun _ h => nomatch h) hf⟩
    | .pi A B => obtain ⟨f', hf⟩ := Definitional.star (.pi A B); exact ⟨_, other (fun _ h => nomatch h) hf⟩
    | .app g c => obtain ⟨f', hf⟩ := Definitional.star (.app g c); exact ⟨_, other (fun _ h => nomatch h) hf⟩
termination_by sizeOf t

theorem Definitional.pars_join {t u v : Tm} (h : Pars R t u) (h' : Pars R t v) : ∃ w, Pars R u w ∧ Pars R v w := by
  obtain ⟨z, hz1, hz2⟩ := Relation.church_rosser (r := Par R) (fun a b c hab hac => by
    obtain ⟨a', h⟩ := hd.star a
    exact ⟨a', .single (h b hab), .single (h c hac)⟩) h h'
  exact ⟨z, hz1, hz2⟩

theorem Definitional.plain_join {t u : Tm} (h : Conv R false t u) : Relation.Join (Pars R) t u := by
  induction h with
  | refl => exact ⟨_, .refl, .refl⟩
  | symm _ ih => obtain ⟨v, h1, h2⟩ := ih; exact ⟨v, h2, h1⟩
  | trans _ _ ih1 ih2 =>
    obtain ⟨x, hx1, hx2⟩ := ih1
    obtain ⟨y, hy1, hy2⟩ := ih2
    obtain ⟨z, hz1, hz2⟩ := hd.pars_join hx2 hy1
    exact ⟨z, hx1.trans hz1, hy2.trans hz2⟩
  | app _ _ ih1 ih2 =>
    obtain ⟨v, h1, h2⟩ := ih1
    obtain ⟨w, h3, h4⟩ := ih2
    exact ⟨.app v w, Pars.map2 (fun c h => .app h (.refl c)) (fun c h => .app (.refl c) h) h1 h3,
      Pars.map2 (fun c h => .app h (.refl c)) (fun c h => .app (.refl c) h) h2 h4⟩
  | dlam _ ih =>
    obtain ⟨v, h1, h2⟩ := ih
    exact ⟨.dlam v, Pars.lift _ .dlam h1, Pars.lift _ .dlam h2⟩
  | annot A b => exact ⟨.dlam b, .single (.annot (.refl b)), .refl⟩
  | pi _ _ ih1 ih2 =>
    obtain ⟨v, h1, h2⟩ := ih1
    obtain ⟨w, h3, h4⟩ := ih2
    exact ⟨.pi v w, Pars.map2 (fun c h => .pi h (.refl c)) (fun c h => .pi (.refl c) h) h1 h3,
      Pars.map2 (fun c h => .pi h (.refl c)) (fun c h => .pi (.refl c) h) h2 h4⟩
  | beta b a => exact ⟨_, .single (.beta (.dlam b) (.refl b) (.refl a)), .refl⟩
  | eta h => cases h
  | rule h1 h2 h3 h4 =>
    obtain ⟨bs, h5, h6⟩ := h4.bind
    exact ⟨_, .single (.rule h1 h2 h3 h5 fun b hb => by rw [h6 b hb]; exact .refl _), .refl⟩

theorem Par.plain_red {t u : Tm} (h : Par R t u) : RedA R t u := by
  induction h with
  | refl => exact .refl _
  | app _ _ ih1 ih2 => exact .app ih1 ih2
  | lam _ _ ih1 ih2 => exact .lam ih1 ih2
  | dlam _ ih => exact .dlam ih
  | annot _ ih => exact (RedA.annot _ _).trans (.dlam ih)
  | pi _ _ ih1 ih2 => exact .pi ih1 ih2
  | beta hf _ _ ih1 ih2 =>
    cases hf with
    | lam A b => exact (RedA.app (.annot _ _) (.refl _)).trans (RedA.inst_congr (.dlam ih1) ih2)
    | dlam b => exact RedA.inst_congr (.dlam ih1) ih2
  | @rule s rs r σ ts bs h1 h2 h3 h4 _ ih =>
    have h0 := hd.args s rs r h1 h2
    have h4' := h4
    rw [h0] at h4'
    cases h4'
    have hdef : Defines R s r.rhs.den := ⟨rs, r, h1, h2, h3, rfl⟩
    rw [(hd.free hdef).sub_closed σ]
    have := RedA.rule (σ := .var) h1 h2 h3 h4 ⟨nofun, nofun⟩ fun m _ => ⟨m, rfl⟩
    rwa [Tm.sub_var] at this

/-- rules that only unfold definitions are confluent without eta, too -/
theorem Definitional.plain_confluent : Confluent R := by
  have key : ∀ {t u : Tm}, Pars R t u → RedA R t u := by
    intro t u h
    induction h with
    | refl => exact .refl _
    | tail _ h ih => exact ih.trans (h.plain_red hd)
  intro t u h
  obtain ⟨v, h1, h2⟩ := hd.plain_join h
  exact ⟨v, key h1, key h2⟩

/-! ### Normal forms -/

omit hd in
/-- parallel steps of a normal form only drop annotations -/
inductive Drop : Tm → Tm → Prop
  | refl (t : Tm) : Drop t t
  | app {f f' a a' : Tm} : Drop f f' → Drop a a' → Drop (.app f a) (.app f' a')
  | lam {A A' b b' : Tm} : Drop A A' → Drop b b' → Drop (.lam A b) (.lam A' b')
  | dlam {b b' : Tm} : Drop b b' → Drop (.dlam b) (.dlam b')
  | annot {A b b' : Tm} : Drop b b' → Drop (.lam A b) (.dlam b')
  | pi {A A' B B' : Tm} : Drop A A' → Drop B B' → Drop (.pi A B) (.pi A' B')

/-- One step, for definitions. -/
inductive DStep (R : RuleMap) : Tm → Tm → Prop
  | appL {f f' a : Tm} : DStep R f f' → DStep R (.app f a) (.app f' a)
  | appR {f a a' : Tm} : DStep R a a' → DStep R (.app f a) (.app f a')
  | lamL {A A' b : Tm} : DStep R A A' → DStep R (.lam A b) (.lam A' b)
  | lamR {A b b' : Tm} : DStep R b b' → DStep R (.lam A b) (.lam A b')
  | dlam {b b' : Tm} : DStep R b b' → DStep R (.dlam b) (.dlam b')
  | piL {A A' B : Tm} : DStep R A A' → DStep R (.pi A B) (.pi A' B)
  | piR {A B B' : Tm} : DStep R B B' → DStep R (.pi A B) (.pi A B')
  | beta {f b : Tm} (a : Tm) : f.IsAbs b → DStep R (.app f a) (b.inst a)
  | delta {s : Sym} {d : Tm} : Defines R s d → DStep R (.const s) d

theorem Step.dstep {eta : Bool} {t u : Tm} (h : Step R eta t u) : DStep R t u := by
  induction h with
  | appL _ ih => exact .appL ih
  | appR _ ih => exact .appR ih
  | lamL _ ih => exact .lamL ih
  | lamR _ ih => exact .lamR ih
  | dlam _ ih => exact .dlam ih
  | piL _ ih => exact .piL ih
  | piR _ ih => exact .piR ih
  | beta A b a => exact .beta a (.lam A b)
  | dbeta b a => exact .beta a (.dlam b)
  | @rule s rs r σ ts bs h1 h2 h3 h4 _ _ =>
    rw [hd.args s rs r h1 h2] at h4
    cases h4
    have hdef : Defines R s r.rhs.den := ⟨rs, r, h1, h2, h3, rfl⟩
    rw [(hd.free hdef).sub_closed σ]
    exact .delta hdef

theorem DStep.step {t u : Tm} (h : DStep R t u) (eta : Bool) : Step R eta t u := by
  induction h with
  | appL _ ih => exact .appL ih
  | appR _ ih => exact .appR ih
  | lamL _ ih => exact .lamL ih
  | lamR _ ih => exact .lamR ih
  | dlam _ ih => exact .dlam ih
  | piL _ ih => exact .piL ih
  | piR _ ih => exact .piR ih
  | beta a hf =>
    cases hf with
    | lam => exact .beta _ _ a
    | dlam => exact .dbeta _ a
  | @delta s d h =>
    obtain ⟨rs, r, h1, h2, h3, rfl⟩ := h
    have := Step.rule (R := R) (eta := eta) (σ := .var) (ts := []) (bs := []) h1 h2 h3 (by rw [hd.args s rs r h1 h2]; exact .nil)
      ⟨nofun, nofun⟩ fun m _ => ⟨m, rfl⟩
    rwa [Tm.sub_var] at this

omit hd in
theorem HStep.dstep {t u : Tm} (h : HStep R t u) : DStep R t u := by
  induction h with
  | beta h => exact .beta _ h
  | delta h => exact .delta h
  | app _ ih => exact .appL ih

/-- no step is possible -/
def DNormal (R : RuleMap) (t : Tm) : Prop := ∀ u, ¬ DStep R t u

theorem Par.drop {t u : Tm} (h : Par R t u) (hn : DNormal R t) : Drop t u := by
  induction h with
  | refl => exact .refl _
  | app _ _ ih1 ih2 => exact .app (ih1 fun _ h => hn _ (.appL h)) (ih2 fun _ h => hn _ (.appR h))
  | lam _ _ ih1 ih2 => exact .lam (ih1 fun _ h => hn _ (.lamL h)) (ih2 fun _ h => hn _ (.lamR h))
  | dlam _ ih => exact .dlam (ih fun _ h => hn _ (.dlam h))
  | annot _ ih => exact .annot (ih fun _ h => hn _ (.lamR h))
  | pi _ _ ih1 ih2 => exact .pi (ih1 fun _ h => hn _ (.piL h)) (ih2 fun _ h => hn _ (.piR h))
  | beta hf => exact absurd (.beta _ hf) (hn _)
  | @rule s rs r σ ts bs h1 h2 h3 h4 _ _ =>
    rw [hd.args s rs r h1 h2] at h4
    cases h4
    exact absurd (.delta ⟨rs, r, h1, h2, h3, rfl⟩) (hn _)

omit hd in
theorem Drop.abs {f f' b' : Tm} (h : Drop f f') (hb : f'.IsAbs b') : ∃ b, f.IsAbs b := by
  cases h with
  | refl => exact ⟨_, hb⟩
  | lam => exact ⟨_, .lam _ _⟩
  | dlam => exact ⟨_, .dlam _⟩
  | annot => exact ⟨_, .lam _ _⟩
  | app => cases hb
  | pi => cases hb

omit hd in
theorem Drop.normal {t u : Tm} (h : Drop t u) (hn : DNormal R t) : DNormal R u := by
  induction h with
  | refl => exact hn
  | app h1 _ ih1 ih2 =>
    intro v hv
    cases hv with
    | appL h => exact ih1 (fun _ h => hn _ (.appL h)) _ h
    | appR h => exact ih2 (fun _ h => hn _ (.appR h)) _ h
    | beta _ hb =>
      obtain ⟨b, hb⟩ := h1.abs hb
      exact hn _ (.beta _ hb)
  | lam _ _ ih1 ih2 =>
    intro v hv
    cases hv with
    | lamL h => exact ih1 (fun _ h => hn _ (.lamL h)) _ h
    | lamR h => exact ih2 (fun _ h => hn _ (.lamR h)) _ h
  | dlam _ ih =>
    intro v hv
    cases hv with
    | dlam h => exact ih (fun _ h => hn _ (.dlam h)) _ h
  | annot _ ih =>
    intro v hv
    cases hv with
    | dlam h => exact ih (fun _ h => hn _ (.lamR h)) _ h
  | pi _ _ ih1 ih2 =>
    intro v hv
    cases hv with
    | piL h => exact ih1 (fun _ h => hn _ (.piL h)) _ h
    | piR h => exact ih2 (fun _ h => hn _ (.piR h)) _ h

omit hd in
/-- the size of a term without annotations, where abstractions count more than applications to a variable -/
def Tm.weight : Tm → Nat
  | .app f a => f.weight + a.weight + 1
  | .lam _ b => b.weight + 3
  | .dlam b => b.weight + 3
  | .pi A B => A.weight + B.weight + 1
  | _ => 1

omit hd in
theorem Drop.weight {t u : Tm} (h : Drop t u) : u.weight = t.weight := by
  induction h <;> simp_all [Tm.weight]

omit hd in
theorem Tm.weight_ren (t : Tm) (ρ : Nat → Nat) : (t.ren ρ).weight = t.weight := by
  induction t generalizing ρ <;> simp_all [Tm.ren, Tm.weight]

/-- The term has a normal form of this weight. -/
def NFits (R : RuleMap) (k : Nat) (t : Tm) : Prop := ∃ v, Pars R t v ∧ DNormal R v ∧ v.weight = k

theorem NFits.pars {k : Nat} {t u : Tm} (h : NFits R k t) (hp : Pars R t u) : NFits R k u := by
  obtain ⟨v, h1, h2, h3⟩ := h
  obtain ⟨w, h4, h5⟩ := hd.pars_join hp h1
  have key : DNormal R w ∧ w.weight = v.weight := by
    clear h4 h1 h3
    induction h5 with
    | refl => exact ⟨h2, rfl⟩
    | tail _ h ih =>
      have := h.drop hd ih.1
      exact ⟨this.normal ih.1, this.weight.trans ih.2⟩
  exact ⟨w, h4, key.1, key.2.trans h3⟩

theorem Red.pars_of_definitional {eta : Bool} {t u : Tm} (h : Red R eta t u) : Pars R t u := by
  have hs := Red.steps h
  clear h
  induction hs with
  | refl => exact .refl
  | tail _ h ih => exact ih.tail (h.par_of_definitional hd)

theorem Pars.hn {t u : Tm} (h : Pars R t u) {n : Nat} (hn : HN R n u) : ∃ m, HN R m t := by
  induction h using _root_.Relation.ReflTransGen.head_induction_on with
  | refl => exact ⟨n, hn⟩
  | head h _ ih =>
    obtain ⟨m, hm⟩ := ih
    exact hm.expand hd h

theorem NFits.hn {k : Nat} {t : Tm} (h : NFits R k t) : ∃ n, HN R n t := by
  obtain ⟨v, h1, h2, -⟩ := h
  exact Pars.hn hd h1 (n := 0) (.stop 0 fun _ h => h2 _ h.dstep)

/-! ### The terms that are compared -/

omit hd in
/-- the parts of a weak-head normal form that are compared -/
inductive Cmp : Tm → Tm → Prop
  | body {t b : Tm} : t.IsAbs b → Cmp b t
  | dom (A B : Tm) : Cmp A (.pi A B)
  | cod (A B : Tm) : Cmp B (.pi A B)
  | head {f : Tm} {ts : List Tm} : ts ≠ [] → Cmp f (f.apps ts)
  | arg {f a : Tm} {ts : List Tm} : a ∈ ts → Cmp a (f.apps ts)

omit hd in
theorem weight_apps (f : Tm) (ts : List Tm) : f.weight + ts.length ≤ (f.apps ts).weight ∧ ∀ a ∈ ts, a.weight < (f.apps ts).weight := by
  induction ts generalizing f with
  | nil => exact ⟨by simp [Tm.apps], nofun⟩
  | cons a ts ih =>
    obtain ⟨h1, h2⟩ := ih (.app f a)
    simp only [Tm.apps, Tm.weight, List.length_cons] at h1 h2 ⊢
    refine ⟨by omega, fun c hc => ?_⟩
    rcases List.mem_cons.1 hc with rfl | hc
    · omega
    · exact h2 c hc

omit hd in
theorem DNormal.apps {f : Tm} {ts : List Tm} (h : DNormal R (f.apps ts)) : DNormal R f ∧ ∀ a ∈ ts, DNormal R a := by
  induction ts generalizing f with
  | nil => exact ⟨h, nofun⟩
  | cons a ts ih =>
    obtain ⟨h1, h2⟩ := ih (f := .app f a) h
    refine ⟨fun _ h => h1 _ (.appL h), fun c hc => ?_⟩
    rcases List.mem_cons.1 hc with rfl | hc
    · exact fun _ h => h1 _ (.appR h)
    · exact h2 c hc

omit hd in
theorem IPar.apps_inv {f u : Tm} {ts : List Tm} (h : IPar R (f.apps ts) u) :
    ∃ f' ts', u = f'.apps ts' ∧ IPar R f f' ∧ List.Forall₂ (Par R) ts ts' := by
  induction ts generalizing f with
  | nil => exact ⟨u, [], rfl, h, .nil⟩
  | cons a ts ih =>
    obtain ⟨g, ts', rfl, h1, h2⟩ := ih (f := .app f a) h
    cases h1 with
    | app h3 h4 => exact ⟨_, _ :: ts', rfl, h3, .cons h4 h2⟩

omit hd in
theorem IPar.cmp {p t u : Tm} (h : IPar R t u) (hc : Cmp p t) : ∃ p', Cmp p' u ∧ Par R p p' := by
  cases hc with
  | body hb =>
    obtain ⟨b', h1, h2⟩ := h.par.abs hb
    exact ⟨b', .body h1, h2⟩
  | dom A B =>
    cases h with
    | pi h1 h2 => exact ⟨_, .dom _ _, h1⟩
  | cod A B =>
    cases h with
    | pi h1 h2 => exact ⟨_, .cod _ _, h2⟩
  | head hne =>
    obtain ⟨f', ts', rfl, h1, h2⟩ := h.apps_inv
    refine ⟨f', .head fun e => ?_, h1.par⟩
    subst e
    cases h2
    exact hne rfl
  | @arg f _ ts ha =>
    obtain ⟨f', ts', rfl, h1, h2⟩ := h.apps_inv
    obtain ⟨i, hi, rfl⟩ := List.mem_iff_getElem.1 ha
    obtain ⟨hl, h3⟩ := List.forall₂_iff_get.1 h2
    exact ⟨_, .arg (List.getElem_mem (hl ▸ hi)), h3 i hi (hl ▸ hi)⟩

omit hd in
theorem Cmp.normal {p t : Tm} (h : Cmp p t) (hn : DNormal R t) : DNormal R p ∧ p.weight < t.weight := by
  cases h with
  | body hb =>
    cases hb with
    | lam => exact ⟨fun _ h => hn _ (.lamR h), by simp [Tm.weight]⟩
    | dlam => exact ⟨fun _ h => hn _ (.dlam h), by simp [Tm.weight]⟩
  | dom A B => exact ⟨fun _ h => hn _ (.piL h), by simp only [Tm.weight]; omega⟩
  | cod A B => exact ⟨fun _ h => hn _ (.piR h), by simp only [Tm.weight]; omega⟩
  | @head _ ts hne =>
    refine ⟨hn.apps.1, ?_⟩
    have := (weight_apps p ts).1
    have := List.length_pos_of_ne_nil hne
    omega
  | arg ha => exact ⟨hn.apps.2 _ ha, (weight_apps _ _).2 _ ha⟩

/-- the parts of a weak-head normal form have smaller normal forms -/
theorem NFits.cmp {k : Nat} {p t : Tm} (h : NFits R k t) (hs : ∀ u, ¬ HStep R t u) (hc : Cmp p t) : ∃ k' < k, NFits R k' p := by
  obtain ⟨v, h1, h2, rfl⟩ := h
  induction h1 using _root_.Relation.ReflTransGen.head_induction_on generalizing p with
  | refl =>
    obtain ⟨h3, h4⟩ := hc.normal h2
    exact ⟨_, h4, p, .refl, h3, rfl⟩
  | head h _ ih =>
    obtain ⟨t', h3, h4⟩ := h.split hd
    rcases _root_.Relation.ReflTransGen.cases_head h3 with rfl | ⟨c, hc', _⟩
    · obtain ⟨p', h5, h6⟩ := h4.cmp hc
      obtain ⟨k', h7, w, h8, h9⟩ := ih (fun u hu => by
        obtain ⟨t', h', _⟩ := h4.postpone hd hu
        exact hs t' h') h5
      exact ⟨k', h7, w, h8.head h6, h9⟩
    · exact absurd hc' (hs c)

omit hd in
/-- the body of an abstraction has a normal form that is smaller by 3 -/
theorem NFits.body {k : Nat} {t b : Tm} (h : NFits R k t) (hb : t.IsAbs b) : ∃ k', k' + 3 = k ∧ NFits R k' b := by
  obtain ⟨v, h1, h2, rfl⟩ := h
  induction h1 using _root_.Relation.ReflTransGen.head_induction_on generalizing b with
  | refl =>
    refine ⟨b.weight, ?_, b, .refl, ((Cmp.body hb).normal h2).1, rfl⟩
    cases hb <;> rfl
  | head h _ ih =>
    obtain ⟨b', h3, h4⟩ := h.abs hb
    obtain ⟨k', h7, w, h8, h9⟩ := ih h3
    exact ⟨k', h7, w, h8.head h4, h9⟩

theorem DNormal.ren {t : Tm} (h : DNormal R t) (ρ : Nat → Nat) : DNormal R (t.ren ρ) := by
  intro u hu
  obtain ⟨u', -, h'⟩ := Step.unren hd (hu.step hd false)
  exact h u' (h'.dstep hd)

omit hd in
theorem Pars.ren {t u : Tm} (h : Pars R t u) (ρ : Nat → Nat) : Pars R (t.ren ρ) (u.ren ρ) := by
  induction h with
  | refl => exact .refl
  | tail _ h ih =>
    refine ih.tail ?_
    rw [Tm.ren_eq_sub, Tm.ren_eq_sub]
    exact h.sub _

/-- applying to a new variable -/
theorem NFits.eta {k : Nat} {t : Tm} (h : NFits R k t) : ∃ k' ≤ k + 2, NFits R k' (.app (t.shift 1) (.var 0)) := by
  obtain ⟨v, h1, h2, rfl⟩ := h
  have h3 : Pars R (.app (t.shift 1) (.var 0)) (.app (v.shift 1) (.var 0)) :=
    Pars.lift (fun t => .app t (.var 0)) (fun h => .app h (.refl _)) (h1.ren (· + 1))
  have h4 : DNormal R (v.shift 1) := h2.ren hd (· + 1)
  by_cases hb : ∃ b, (v.shift 1).IsAbs b
  · obtain ⟨b, hb⟩ := hb
    obtain ⟨b0, hv, rfl⟩ : ∃ b0 : Tm, v.IsAbs b0 ∧ b = b0.ren (Tm.upr (· + 1)) := by
      cases v <;> simp only [Tm.shift, Tm.ren] at hb <;> cases hb
      · exact ⟨_, .lam _ _, rfl⟩
      · exact ⟨_, .dlam _, rfl⟩
    have hn : DNormal R b0 := (Cmp.body hv).normal h2 |>.1
    have hw : b0.weight < v.weight := (Cmp.body hv).normal h2 |>.2
    refine ⟨b0.weight, by omega, _, h3.tail (.beta hb (.refl _) (.refl _)), ?_, ?_⟩
    · rw [Tm.inst_var_ren]; exact hn.ren hd _
    · rw [Tm.inst_var_ren, Tm.weight_ren]
  · refine ⟨v.weight + 2, Nat.le_refl _, _, h3, ?_, ?_⟩
    · intro u hu
      cases hu with
      | appL h => exact h4 _ h
      | appR h => cases h
      | beta _ hb' => exact hb ⟨_, hb'⟩
    · simp only [Tm.weight, Tm.shift, Tm.weight_ren]

end

/-! ### The test -/

/-- the new constraints of a step are about parts of the terms -/
def Smaller' (t1 t2 : Tm) (cns : List (STerm × STerm)) : Option (List (STerm × STerm)) → Prop
  | none => True
  | some cns' => ∃ ps, cns' = ps ++ cns ∧ ∀ p ∈ ps, Cmp p.1.den t1 ∧ Cmp p.2.den t2

theorem step2_cmp (cns : List (STerm × STerm)) (c1 c2 : SComb) (f1 : HForm (.scomb c1)) (f2 : HForm (.scomb c2)) :
    ∃ r, step2 false cns c1 c2 = M.pure r ∧ Smaller' (SComb.den c1) (SComb.den c2) cns r := by
  unfold Kontroli.step2
  split
  · next t1 _ _ t2 =>
    exact ⟨_, rfl, [(t1, t2)], rfl, by
      intro p hp
      simp only [List.mem_singleton] at hp
      subst hp
      exact ⟨.body (denAbs_isAbs _ _), .body (denAbs_isAbs _ _)⟩⟩
  · next ty1 tm1 _ ty2 tm2 =>
    refine ⟨_, rfl, [(tm1, tm2), (ty1, ty2)], rfl, ?_⟩
    intro p hp
    simp only [List.mem_cons, List.not_mem_nil, or_false] at hp
    rcases hp with rfl | rfl
    · exact ⟨.cod _ _, .cod _ _⟩
    · exact ⟨.dom _ _, .dom _ _⟩
  · next g1 args1 g2 args2 =>
    have a1 : args1 ≠ [] := by
      cases f1 with
      | atom h => exact h.elim
      | abs h => exact h.elim
      | app _ h => exact h
    have a2 : args2 ≠ [] := by
      cases f2 with
      | atom h => exact h.elim
      | abs h => exact h.elim
      | app _ h => exact h
    split
    · refine ⟨_, rfl, (args1.zip args2).reverse ++ [(g1, g2)], by simp, ?_⟩
      simp only [SComb.den, STerm.denList_eq]
      intro p hp
      rcases List.mem_append.1 hp with hp | hp
      · have hp := List.mem_reverse.1 hp
        obtain ⟨h1, h2⟩ := List.of_mem_zip (a := p.1) (b := p.2) hp
        exact ⟨.arg (List.mem_map.2 ⟨_, h1, rfl⟩), .arg (List.mem_map.2 ⟨_, h2, rfl⟩)⟩
      · simp only [List.mem_singleton] at hp
        subst hp
        exact ⟨.head (by simpa using a1), .head (by simpa using a2)⟩
    · exact ⟨_, rfl, trivial⟩
  · exact ⟨_, rfl, trivial⟩
  · exact ⟨_, rfl, trivial⟩
  · exact ⟨_, rfl, trivial⟩

theorem step_cmp (cns : List (STerm × STerm)) (t1 t2 : STerm) (f1 : HForm t1) (f2 : HForm t2) :
    ∃ r, step false cns t1 t2 = M.pure r ∧ Smaller' t1.den t2.den cns r := by
  unfold Kontroli.step
  split
  · exact ⟨_, rfl, [], rfl, by simp⟩
  · exact ⟨_, rfl, [], rfl, by simp⟩
  · split
    · exact ⟨_, rfl, [], rfl, by simp⟩
    · exact ⟨_, rfl, trivial⟩
  · split
    · exact ⟨_, rfl, [], rfl, by simp⟩
    · exact ⟨_, rfl, trivial⟩
  · next c1 c2 => simpa [STerm.den] using step2_cmp cns (SComb.ofL c1) (SComb.ofL c2) f1.ofL f2.ofL
  · next c1 c2 => simpa [STerm.den] using step2_cmp cns (SComb.ofL c1) c2 f1.ofL f2
  · next c1 c2 => simpa [STerm.den] using step2_cmp cns c1 (SComb.ofL c2) f1 f2.ofL
  · next c1 c2 => exact step2_cmp cns c1 c2 f1 f2
  all_goals exact ⟨_, rfl, trivial⟩

section
variable {gc : GCtx} {G : Ghost} {q : ℚ}

/-- Comparison of terms that have normal forms stops. -/
theorem NFits.cvStops (hd : Definitional gc.rules) (n : Nat) : ∀ (k1 k2 : Nat), k1 + k2 = n → ∀ (a b : STerm), NFits gc.rules k1 a.den →
    NFits gc.rules k2 b.den → CvStops gc a b := by
  induction n using Nat.strong_induction_on with
  | _ n ih =>
  intro k1 k2 hn a b ha hb G q rest hrest
  obtain ⟨na, wa⟩ := ha.hn hd
  obtain ⟨nb, wb⟩ := hb.hn hd
  refine TH.succ ?_
  change TH gc.rules gc.eta G q (fun m => cvBody gc (ops gc m) ((a, b) :: rest))
  unfold Kontroli.cvBody
  refine .ite (fun _ => hrest G (.refl G)) fun _ => ?_
  refine TH.bind (TH.whnfTerm (wa.whStops hd)) (fun m => Tri.whnfTerm (opsOk gc m) a) ?_
  rintro G1 w1 e1 ⟨h1, i1, f1⟩
  refine TH.bind (TH.whnfTerm (wb.whStops hd)) (fun m => Tri.whnfTerm (opsOk gc m) b) ?_
  rintro G2 w2 e2 ⟨h2, i2, f2⟩
  have ha' := ha.pars hd (Red.pars_of_definitional hd h1)
  have hb' := hb.pars hd (Red.pars_of_definitional hd h2)
  have small : ∀ {k : Nat} {p w : STerm}, NFits gc.rules k w.den → Whnf gc.rules gc.eta w.den → Cmp p.den w.den →
      ∃ k' < k, NFits gc.rules k' p.den := fun h1 h2 h3 => h1.cmp hd (fun _ => h2.no_hstep hd) h3
  have plain : ∀ r, Smaller' w1.den w2.den rest r → TH gc.rules gc.eta G2 q (fun m => M.bind (M.pure r) fun
      | none => M.pure false
      | some cns => (ops gc m).cv cns) := by
    intro r hs
    cases r with
    | none => exact .pure false
    | some cns' =>
      obtain ⟨ps, rfl, hps⟩ := hs
      change TH gc.rules gc.eta G2 q (fun m => (ops gc m).cv (ps ++ rest))
      refine cvStops_list (fun p hp => ?_) fun G' e => hrest G' ((e1.trans e2).trans e)
      obtain ⟨hp1, hp2⟩ := hps p hp
      obtain ⟨k1', l1, m1⟩ := small ha' i1 hp1
      obtain ⟨k2', l2, m2⟩ := small hb' i2 hp2
      exact ih (k1' + k2') (by omega) k1' k2' rfl p.1 p.2 m1 m2
  obtain ⟨r, hr, hsm⟩ := step_cmp rest w1 w2 f1 f2
  cases he : gc.eta with
  | false =>
    rw [he] at plain
    rw [hr]
    exact plain r hsm
  | true =>
    rw [he] at plain
    rcases step_eta rest w1 w2 with hs | hs | ⟨c, d, hcd, hs⟩
    · rw [hs, hr]
      exact plain r hsm
    · rw [hs]
      exact .pure false
    · rw [hs]
      rw [← he]
      refine TH.bind (F := fun _ => M.bind (Kontroli.shiftApp d) fun a => M.pure (some ((c, a) :: rest)))
        (Φ := fun _ res => ∃ d' : STerm, res = some ((c, d') :: rest) ∧ d'.den = .app (d.den.shift 1) (.var 0))
        (.of_nt (.bind (.shiftApp d) fun _ => .pure _)) (fun _ => Tri.bind (Tri.shiftApp d) fun _ d' _ h => Tri.pure ⟨d', rfl, h⟩) ?_
      rintro G3 _ e3 ⟨d', rfl, hd'⟩
      change TH gc.rules gc.eta G3 q (fun m => (ops gc m).cv ([(c, d')] ++ rest))
      refine cvStops_list (fun p hp => ?_) fun G' e => hrest G' (((e1.trans e2).trans e3).trans e)
      rw [List.mem_singleton] at hp
      subst hp
      have key : ∀ {k k' : Nat} {w : STerm}, NFits gc.rules k w.den → w.den.IsAbs c.den → NFits gc.rules k' d.den → k + k' = n →
          CvStops gc c d' := by
        intro k k' w hw hc hdd hk
        obtain ⟨v, p1, p2, p3⟩ := hw
        obtain ⟨j, j1, j2⟩ := hdd.eta hd
        rw [← hd'] at j2
        obtain ⟨i, i1, i2⟩ := NFits.body ⟨v, p1, p2, p3⟩ hc
        exact ih (i + j) (by omega) i j rfl c d' i2 j2
      rcases hcd with ⟨hc, hdd⟩ | ⟨hc, hdd⟩
      · exact key ha' hc (hdd ▸ hb') hn
      · exact key hb' hc (hdd ▸ ha') (by omega)

end

end Kontroli
