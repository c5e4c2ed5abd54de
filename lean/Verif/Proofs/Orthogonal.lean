import Mathlib.Logic.Relation
import Verif.Proofs.Stable
import Verif.Proofs.ConvLemmas

/-!
# Orthogonal rules are confluent

Parallel reduction `Par` has the property that every term `t` has a parallel reduct that is a parallel reduct of all parallel
reducts of `t`.
-/

namespace Kontroli

/-- Parallel reduction. -/
inductive Par (R : RuleMap) : Tm → Tm → Prop
  | refl (t : Tm) : Par R t t
  | app {f f' a a' : Tm} : Par R f f' → Par R a a' → Par R (.app f a) (.app f' a')
  | lam {A A' b b' : Tm} : Par R A A' → Par R b b' → Par R (.lam A b) (.lam A' b')
  | dlam {b b' : Tm} : Par R b b' → Par R (.dlam b) (.dlam b')
  | annot {A b b' : Tm} : Par R b b' → Par R (.lam A b) (.dlam b')
  | pi {A A' B B' : Tm} : Par R A A' → Par R B B' → Par R (.pi A B) (.pi A' B')
  | beta {f b b' a a' : Tm} : f.IsAbs b → Par R b b' → Par R a a' → Par R (.app f a) (b'.inst a')
  | rule {s : Sym} {rs : List Rule} {r : Rule} {σ : Nat → Tm} {ts : List Tm} {bs : List (Nat × Tm)} :
      R s = some rs → r ∈ rs → r.Scoped → PBinds r.lhs.args ts bs → (∀ b ∈ bs, Par R b.2 (σ b.1)) →
      Par R (Tm.apps (.const s) ts) (r.rhs.den.sub σ)

theorem Tm.FreeBelow.sub_congr {t : Tm} {k : Nat} (h : t.FreeBelow k) {σ τ : Nat → Tm} (he : ∀ n, n < k → σ n = τ n) :
    t.sub σ = t.sub τ := by
  have up : ∀ {k : Nat} {σ τ : Nat → Tm}, (∀ n, n < k → σ n = τ n) → ∀ n, n < k + 1 → Tm.up σ n = Tm.up τ n := by
    intro k σ τ he n hn
    cases n with
    | zero => rfl
    | succ n => simp only [Tm.up]; rw [he n (by omega)]
  induction t generalizing k σ τ with
  | kind => rfl
  | type => rfl
  | const => rfl
  | var n => exact he n h
  | app f a ih1 ih2 => simp only [Tm.sub]; rw [ih1 h.1 he, ih2 h.2 he]
  | lam A b ih1 ih2 => simp only [Tm.sub]; rw [ih1 h.1 he, ih2 h.2 (up he)]
  | dlam b ih => simp only [Tm.sub]; rw [ih h (up he)]
  | pi A B ih1 ih2 => simp only [Tm.sub]; rw [ih1 h.1 he, ih2 h.2 (up he)]

theorem Tm.IsAbs.unique {t b b' : Tm} (h : t.IsAbs b) (h' : t.IsAbs b') : b = b' := by
  cases h <;> cases h' <;> rfl

theorem Tm.IsAbs.sub {f b : Tm} (h : f.IsAbs b) (σ : Nat → Tm) : (f.sub σ).IsAbs (b.sub (Tm.up σ)) := by
  cases h <;> constructor

section
variable {R : RuleMap}

theorem Par.sub {t u : Tm} (h : Par R t u) (σ : Nat → Tm) : Par R (t.sub σ) (u.sub σ) := by
  induction h generalizing σ with
  | refl => exact .refl _
  | app _ _ ih1 ih2 => exact .app (ih1 σ) (ih2 σ)
  | lam _ _ ih1 ih2 => exact .lam (ih1 σ) (ih2 _)
  | dlam _ ih => exact .dlam (ih _)
  | annot _ ih => exact .annot (ih _)
  | pi _ _ ih1 ih2 => exact .pi (ih1 σ) (ih2 _)
  | beta hf _ _ ih1 ih2 =>
    rw [Tm.inst_sub]
    exact .beta (hf.sub σ) (ih1 _) (ih2 σ)
  | rule h1 h2 h3 h4 _ ih =>
    rw [Tm.apps_sub, Tm.sub_sub]
    refine .rule h1 h2 h3 (h4.sub σ) ?_
    intro b hb
    obtain ⟨b', hb', rfl⟩ := List.mem_map.1 hb
    exact ih b' hb' σ

theorem Par.up {σ τ : Nat → Tm} (h : ∀ n, Par R (σ n) (τ n)) (n : Nat) : Par R (Tm.up σ n) (Tm.up τ n) := by
  cases n with
  | zero => exact .refl _
  | succ n =>
    show Par R ((σ n).ren Nat.succ) ((τ n).ren Nat.succ)
    rw [Tm.ren_eq_sub, Tm.ren_eq_sub]
    exact (h n).sub _

theorem Par.sub_refl (t : Tm) {σ τ : Nat → Tm} (h : ∀ n, Par R (σ n) (τ n)) : Par R (t.sub σ) (t.sub τ) := by
  induction t generalizing σ τ with
  | kind => exact .refl _
  | type => exact .refl _
  | const => exact .refl _
  | var n => exact h n
  | app f a ih1 ih2 => exact .app (ih1 h) (ih2 h)
  | lam A b ih1 ih2 => exact .lam (ih1 h) (ih2 (Par.up h))
  | dlam b ih => exact .dlam (ih (Par.up h))
  | pi A B ih1 ih2 => exact .pi (ih1 h) (ih2 (Par.up h))

theorem Par.subs {t u : Tm} (h : Par R t u) {σ τ : Nat → Tm} (hs : ∀ n, Par R (σ n) (τ n)) :
    Par R (t.sub σ) (u.sub τ) := by
  induction h generalizing σ τ with
  | refl t => exact Par.sub_refl t hs
  | app _ _ ih1 ih2 => exact .app (ih1 hs) (ih2 hs)
  | lam _ _ ih1 ih2 => exact .lam (ih1 hs) (ih2 (Par.up hs))
  | dlam _ ih => exact .dlam (ih (Par.up hs))
  | annot _ ih => exact .annot (ih (Par.up hs))
  | pi _ _ ih1 ih2 => exact .pi (ih1 hs) (ih2 (Par.up hs))
  | beta hf _ _ ih1 ih2 =>
    rw [Tm.inst_sub]
    exact .beta (hf.sub σ) (ih1 (Par.up hs)) (ih2 hs)
  | rule h1 h2 h3 h4 _ ih =>
    rw [Tm.apps_sub, Tm.sub_sub]
    refine .rule h1 h2 h3 (h4.sub σ) ?_
    intro b hb
    obtain ⟨b', hb', rfl⟩ := List.mem_map.1 hb
    exact ih b' hb' hs

theorem Par.inst {b b' a a' : Tm} (hb : Par R b b') (ha : Par R a a') : Par R (b.inst a) (b'.inst a') := by
  refine hb.subs ?_
  intro n
  cases n with
  | zero => exact ha
  | succ n => exact .refl _

theorem Par.apps {f f' : Tm} {as as' : List Tm} (hf : Par R f f') (has : List.Forall₂ (Par R) as as') :
    Par R (f.apps as) (f'.apps as') := by
  induction has generalizing f f' with
  | nil => exact hf
  | cons h _ ih => exact ih (.app hf h)

theorem pars_refl (ts : List Tm) : List.Forall₂ (Par R) ts ts := by
  induction ts with
  | nil => exact .nil
  | cons t ts ih => exact .cons (.refl t) ih

/-- the substitution read off the bindings -/
def bsSub (bs : List (Nat × Tm)) (m : Nat) : Tm := (bs.lookup m).getD (.var 0)

theorem lookup_of_mem {bs : List (Nat × Tm)} (hn : (bs.map Prod.fst).Nodup) {b : Nat × Tm} (hb : b ∈ bs) :
    bs.lookup b.1 = some b.2 := by
  induction bs with
  | nil => simp at hb
  | cons c bs ih =>
    rw [List.map_cons, List.nodup_cons] at hn
    rcases List.mem_cons.1 hb with rfl | hb
    · show List.lookup b.1 ((b.1, b.2) :: bs) = _
      rw [List.lookup_cons, beq_self_eq_true]
    · have : b.1 ≠ c.1 := by
        intro e
        exact hn.1 (e ▸ List.mem_map.2 ⟨b, hb, rfl⟩)
      rw [List.lookup_cons]
      have h' : (b.1 == c.1) = false := by simpa using this
      rw [h']
      exact ih hn.2 hb

theorem lookup_none {bs : List (Nat × Tm)} {m : Nat} (h : m ∉ bs.map Prod.fst) : bs.lookup m = none := by
  cases hl : bs.lookup m with
  | none => rfl
  | some t => exact absurd (List.mem_map.2 ⟨(m, t), mem_of_lookup hl, rfl⟩) h

/-- reduction of the substitution in a closed right-hand side -/
theorem RedA.sub_congr (t : Tm) {σ τ : Nat → Tm} (h : ∀ n, RedA R (σ n) (τ n)) : RedA R (t.sub σ) (t.sub τ) := by
  have ren : ∀ {t u : Tm}, RedA R t u → ∀ ρ, RedA R (t.ren ρ) (u.ren ρ) := by
    intro t u h
    induction h with
    | refl => exact fun _ => .refl _
    | trans _ _ ih1 ih2 => exact fun ρ => (ih1 ρ).trans (ih2 ρ)
    | app _ _ ih1 ih2 => exact fun ρ => .app (ih1 ρ) (ih2 ρ)
    | lam _ _ ih1 ih2 => exact fun ρ => .lam (ih1 ρ) (ih2 _)
    | dlam _ ih => exact fun ρ => .dlam (ih _)
    | annot => exact fun _ => .annot _ _
    | pi _ _ ih1 ih2 => exact fun ρ => .pi (ih1 ρ) (ih2 _)
    | beta b a => intro ρ; rw [Tm.inst_ren]; exact .beta _ _
    | @rule s rs r σ ts bs h1 h2 h3 h4 h5 h6 =>
      intro ρ
      rw [Tm.apps_ren, Tm.sub_ren]
      have e : (fun t : Tm => t.ren ρ) = fun t => t.sub (fun n => .var (ρ n)) := by
        funext t; exact Tm.ren_eq_sub t ρ
      have e' : (fun n => (σ n).ren ρ) = fun n => (σ n).sub (fun n => .var (ρ n)) := by
        funext n; exact Tm.ren_eq_sub _ ρ
      rw [e, e']
      refine .rule h1 h2 h3 (h4.sub _) (h5.sub _) ?_
      intro m hm
      obtain ⟨n, hn⟩ := h6 m hm
      exact ⟨ρ n, by rw [hn]; rfl⟩
  have up : ∀ {σ τ : Nat → Tm}, (∀ n, RedA R (σ n) (τ n)) → ∀ n, RedA R (Tm.up σ n) (Tm.up τ n) := by
    intro σ τ h n
    cases n with
    | zero => exact .refl _
    | succ n => exact ren (h n) _
  induction t generalizing σ τ with
  | kind => exact .refl _
  | type => exact .refl _
  | const => exact .refl _
  | var n => exact h n
  | app f a ih1 ih2 => exact .app (ih1 h) (ih2 h)
  | lam A b ih1 ih2 => exact .lam (ih1 h) (ih2 (up h))
  | dlam b ih => exact .dlam (ih (up h))
  | pi A B ih1 ih2 => exact .pi (ih1 h) (ih2 (up h))

theorem RedA.inst_congr {b b' a a' : Tm} (hb : RedA R (.dlam b) (.dlam b')) (ha : RedA R a a') :
    RedA R (.app (.dlam b) a) (b'.inst a') := (RedA.app hb ha).trans (.beta _ _)

theorem Par.red (ho : Orthogonal R) {t u : Tm} (h : Par R t u) : RedA R t u := by
  induction h with
  | refl => exact .refl _
  | app _ _ ih1 ih2 => exact .app ih1 ih2
  | lam _ _ ih1 ih2 => exact .lam ih1 ih2
  | dlam _ ih => exact .dlam ih
  | annot _ ih => exact (RedA.annot _ _).trans (.dlam ih)
  | pi _ _ ih1 ih2 => exact .pi ih1 ih2
  | beta hf _ _ ih1 ih2 =>
    cases hf with
    | lam A b => exact (RedA.app (.annot _ _) (.refl _)).trans (RedA.inst_congr (.dlam ih1) ih2)
    | dlam b => exact RedA.inst_congr (.dlam ih1) ih2
  | @rule s rs r σ ts bs h1 h2 h3 h4 _ ih =>
    have hn : (bs.map Prod.fst).Nodup := h4.vars ▸ ho.linear s rs r h1 h2
    refine (RedA.rule (σ := bsSub bs) h1 h2 h3 h4 ⟨?_, ?_⟩ ?_).trans ?_
    · intro m t hm
      unfold bsSub
      rw [hm]; rfl
    · intro b hb
      unfold bsSub
      rw [lookup_of_mem hn hb]
      exact .refl _
    · intro m hm
      refine ⟨0, ?_⟩
      unfold bsSub
      rw [lookup_none]
      · rfl
      · rw [h4.vars, h3 m]
        omega
    · have hcl := ho.closed s rs r h1 h2
      rw [hcl.sub_congr (σ := σ) (τ := fun m => if m < r.ctx.length then σ m else bsSub bs m) (fun n hn => by simp [hn])]
      refine RedA.sub_congr _ fun m => ?_
      split
      · next hm =>
        rw [← h3 m, ← h4.vars] at hm
        obtain ⟨b, hb, rfl⟩ := List.mem_map.1 hm
        have := ih b hb
        unfold bsSub
        rw [lookup_of_mem hn hb]
        exact this
      · exact .refl _

/-- Parallel reduction inside a head. -/
inductive ParHead (R : RuleMap) : Tm → Tm → Prop
  | refl (h : Tm) : ParHead R h h
  | pi {A A' B B' : Tm} : Par R A A' → Par R B B' → ParHead R (.pi A B) (.pi A' B')
  | abs {f f' b b' : Tm} : f.IsAbs b → f'.IsAbs b' → Par R b b' → Par R f f' → ParHead R f f'

theorem ParHead.par {h h' : Tm} (hp : ParHead R h h') : Par R h h' := by
  cases hp with
  | refl => exact .refl _
  | pi h1 h2 => exact .pi h1 h2
  | abs _ _ _ h => exact h

/-- The ways in which an application is reduced. -/
inductive ParApps (R : RuleMap) (h : Tm) (ts : List Tm) : Tm → Prop
  | cong {h' : Tm} {ts' : List Tm} : ParHead R h h' → List.Forall₂ (Par R) ts ts' → ParApps R h ts (h'.apps ts')
  | rule {s : Sym} {rs : List Rule} {r : Rule} {σ : Nat → Tm} {ts1 ts2 ts2' : List Tm} {bs : List (Nat × Tm)} :
      h = .const s → R s = some rs → r ∈ rs → r.Scoped → ts = ts1 ++ ts2 → PBinds r.lhs.args ts1 bs →
      (∀ b ∈ bs, Par R b.2 (σ b.1)) → List.Forall₂ (Par R) ts2 ts2' → ParApps R h ts ((r.rhs.den.sub σ).apps ts2')
  | beta {b b' a a' : Tm} {rest rest' : List Tm} : h.IsAbs b → ts = a :: rest → Par R b b' → Par R a a' →
      List.Forall₂ (Par R) rest rest' → ParApps R h ts ((b'.inst a').apps rest')

theorem Par.apps_inv {h u : Tm} {ts : List Tm} (hh : h.NotApp) (hp : Par R (h.apps ts) u) : ParApps R h ts u := by
  induction ts using List.reverseRecOn generalizing u with
  | nil =>
    have hp : Par R h u := hp
    cases hp with
    | refl => exact .cong (ts' := []) (.refl h) .nil
    | app => exact absurd rfl (hh _ _)
    | lam h1 h2 => exact .cong (ts' := []) (.abs (.lam _ _) (.lam _ _) h2 (.lam h1 h2)) .nil
    | dlam h => exact .cong (ts' := []) (.abs (.dlam _) (.dlam _) h (.dlam h)) .nil
    | annot h => exact .cong (ts' := []) (.abs (.lam _ _) (.dlam _) h (.annot h)) .nil
    | pi h1 h2 => exact .cong (ts' := []) (.pi h1 h2) .nil
    | beta => exact absurd rfl (hh _ _)
    | @rule s rs r σ us bs h1 h2 h3 h4 h5 =>
      obtain ⟨e1, e2⟩ := Tm.apps_inj (ts := us) (ts' := []) (Tm.Atom.const s).notApp hh rfl
      subst e2
      exact .rule (ts2' := []) rfl h1 h2 h3 rfl h4 h5 .nil
  | append_singleton init a ih =>
    generalize ht : h.apps (init ++ [a]) = t at hp
    have ht' := ht
    rw [Tm.apps_snoc] at ht'
    cases hp with
    | refl => rw [← ht]; exact .cong (.refl h) (pars_refl _)
    | app hf ha =>
      injection ht' with e1 e2
      subst e1 e2
      cases ih hf with
      | cong h1 h2 =>
        rw [← Tm.apps_snoc]
        exact .cong h1 (List.rel_append h2 (.cons ha .nil))
      | rule h1 h2 h3 h4 h5 h6 h7 h8 =>
        rw [← Tm.apps_snoc]
        refine .rule h1 h2 h3 h4 (by rw [h5, List.append_assoc]) h6 h7 (List.rel_append h8 (.cons ha .nil))
      | beta h1 h2 h3 h4 h5 =>
        rw [← Tm.apps_snoc]
        refine .beta h1 (by rw [h2, List.cons_append]) h3 h4 (List.rel_append h5 (.cons ha .nil))
    | lam => cases ht'
    | dlam => cases ht'
    | annot => cases ht'
    | pi => cases ht'
    | @beta f b b' x a' hf hb hx =>
      injection ht' with e1 e2
      subst e2
      obtain ⟨rfl, rfl⟩ := Tm.apps_inj (ts' := []) hh hf.notApp e1
      exact .beta (rest' := []) hf rfl hb hx .nil
    | @rule s rs r σ us bs h1 h2 h3 h4 h5 =>
      obtain ⟨rfl, rfl⟩ := Tm.apps_inj hh (Tm.Atom.const s).notApp ht
      exact .rule (ts2' := []) rfl h1 h2 h3 (by simp) h4 h5 .nil

/-- no rule applies at a constant of the pattern -/
def Safe (R : RuleMap) (p : Pattern) : Prop :=
  ∀ s' ps rs' r' us bs, Pattern.In (.symb s' ps) p → R s' = some rs' → r' ∈ rs' → PBinds ps us bs → ¬ r'.Matches us

/-- no rule applies at a constant of the patterns -/
def SafeList (R : RuleMap) (l : List Pattern) : Prop :=
  ∀ s' ps rs' r' us bs, Pattern.InList (.symb s' ps) l → R s' = some rs' → r' ∈ rs' → PBinds ps us bs → ¬ r'.Matches us

/-- parallel reduction of bindings -/
def BsPar (R : RuleMap) : List (Nat × Tm) → List (Nat × Tm) → Prop :=
  List.Forall₂ fun b b' => b.1 = b'.1 ∧ Par R b.2 b'.2

theorem PBinds.take_prefix {ps : List Pattern} {ts ts' : List Tm} {bs : List (Nat × Tm)} (h : PBinds ps ts bs) :
    PBinds ps ((ts ++ ts').take ps.length) bs := by
  rw [h.length, List.take_left]
  exact h

mutual
  theorem PBind.par {p : Pattern} {t t' : Tm} {bs : List (Nat × Tm)} (h : PBind p t bs) (hs : Safe R p)
      (hp : Par R t t') : ∃ bs', PBind p t' bs' ∧ BsPar R bs bs' :=
    match h with
    | .mvar m t => ⟨[(m, t')], .mvar m t', .cons ⟨rfl, hp⟩ .nil⟩
    | .joker t => ⟨[], .joker t', .nil⟩
    | .symb (s := s) (ps := ps) (ts := ts) hb => by
      generalize hx : Tm.const s = h at hp
      have hn : h.NotApp := hx ▸ (Tm.Atom.const s).notApp
      cases Par.apps_inv hn hp with
      | cong h1 h2 =>
        subst hx
        obtain ⟨bs', h3, h4⟩ := PBinds.par hb (fun s' ps' rs' r' us bs hin => hs s' ps' rs' r' us bs (.arg hin)) h2
        cases h1 with
        | refl => exact ⟨bs', .symb h3, h4⟩
        | abs ha => cases ha
      | rule h1 h2 h3 h4 h5 h6 h7 h8 =>
        subst hx
        cases h1
        subst h5
        exact absurd ⟨_, h6.take_prefix⟩ (hs s ps _ _ _ _ .self h2 h3 hb)
      | beta h1 =>
        subst hx
        cases h1
  theorem PBinds.par {ps : List Pattern} {ts ts' : List Tm} {bs : List (Nat × Tm)} (h : PBinds ps ts bs)
      (hs : SafeList R ps) (hp : List.Forall₂ (Par R) ts ts') : ∃ bs', PBinds ps ts' bs' ∧ BsPar R bs bs' :=
    match h, hp with
    | .nil, .nil => ⟨[], .nil, .nil⟩
    | .cons h1 h2, .cons hp1 hp2 => by
      obtain ⟨b1, q1, r1⟩ := PBind.par h1 (fun s' ps' rs' r' us bs hin => hs s' ps' rs' r' us bs (.here hin)) hp1
      obtain ⟨b2, q2, r2⟩ := PBinds.par h2 (fun s' ps' rs' r' us bs hin => hs s' ps' rs' r' us bs (.there hin)) hp2
      exact ⟨b1 ++ b2, .cons q1 q2, List.rel_append r1 r2⟩
end

mutual
  theorem PBind.unique {p : Pattern} {t : Tm} {bs bs' : List (Nat × Tm)} (h : PBind p t bs) (h' : PBind p t bs') :
      bs = bs' :=
    match h with
    | .mvar m t => by cases h'; rfl
    | .joker t => by cases h'; rfl
    | .symb (s := s) (ts := ts) hb => by
      generalize ht : Tm.apps (.const s) ts = t at h'
      cases h' with
      | symb hb' =>
        obtain ⟨-, rfl⟩ := Tm.apps_inj (Tm.Atom.const s).notApp (Tm.Atom.const s).notApp ht
        exact PBinds.unique hb hb'
  theorem PBinds.unique {ps : List Pattern} {ts : List Tm} {bs bs' : List (Nat × Tm)} (h : PBinds ps ts bs)
      (h' : PBinds ps ts bs') : bs = bs' :=
    match h with
    | .nil => by cases h'; rfl
    | .cons h1 h2 => by
      cases h' with
      | cons h1' h2' => rw [PBind.unique h1 h1', PBinds.unique h2 h2']
end

theorem sizeOf_apps (f : Tm) (ts : List Tm) : sizeOf f ≤ sizeOf (f.apps ts) ∧ ∀ t ∈ ts, sizeOf t < sizeOf (f.apps ts) := by
  induction ts using List.reverseRecOn with
  | nil => exact ⟨Nat.le_refl _, by simp⟩
  | append_singleton init a ih =>
    rw [Tm.apps_snoc]
    simp only [Tm.app.sizeOf_spec]
    refine ⟨by omega, ?_⟩
    intro t ht
    rcases List.mem_append.1 ht with ht | ht
    · have := ih.2 t ht; omega
    · rw [List.mem_singleton] at ht
      subst ht
      omega

theorem sizeOf_head (f : Tm) {ts : List Tm} (hne : ts ≠ []) : sizeOf f < sizeOf (f.apps ts) := by
  cases ts using List.reverseRecOn with
  | nil => exact absurd rfl hne
  | append_singleton init a =>
    rw [Tm.apps_snoc]
    have := (sizeOf_apps f init).1
    simp only [Tm.app.sizeOf_spec]
    omega

mutual
  theorem PBind.sizeOf {p : Pattern} {t : Tm} {bs : List (Nat × Tm)} (h : PBind p t bs) :
      ∀ b ∈ bs, SizeOf.sizeOf b.2 ≤ SizeOf.sizeOf t :=
    match h with
    | .mvar m t => by intro b hb; simp at hb; subst hb; exact Nat.le_refl _
    | .joker t => by simp
    | .symb (s := s) (ts := ts) hb => by
      intro b hb'
      obtain ⟨t, ht, hle⟩ := PBinds.sizeOf hb b hb'
      have := (sizeOf_apps (.const s) ts).2 t ht
      omega
  theorem PBinds.sizeOf {ps : List Pattern} {ts : List Tm} {bs : List (Nat × Tm)} (h : PBinds ps ts bs) :
      ∀ b ∈ bs, ∃ t ∈ ts, SizeOf.sizeOf b.2 ≤ SizeOf.sizeOf t :=
    match h with
    | .nil => by simp
    | .cons (t := t) h1 h2 => by
      intro b hb
      rcases List.mem_append.1 hb with hb | hb
      · exact ⟨t, List.mem_cons_self, PBind.sizeOf h1 b hb⟩
      · obtain ⟨t', ht', hle⟩ := PBinds.sizeOf h2 b hb
        exact ⟨t', List.mem_cons_of_mem _ ht', hle⟩
end

/-- a parallel reduct of all parallel reducts -/
def Star (R : RuleMap) (t t' : Tm) : Prop := Par R t t' ∧ ∀ u, Par R t u → Par R u t'

theorem stars {ts : List Tm} (h : ∀ t ∈ ts, ∃ t', Star R t t') :
    ∃ ts', List.Forall₂ (Par R) ts ts' ∧ ∀ us, List.Forall₂ (Par R) ts us → List.Forall₂ (Par R) us ts' := by
  induction ts with
  | nil => exact ⟨[], .nil, by intro us h; cases h; exact .nil⟩
  | cons t ts ih =>
    obtain ⟨t', h1, h2⟩ := h t List.mem_cons_self
    obtain ⟨ts', h3, h4⟩ := ih fun t ht => h t (List.mem_cons_of_mem _ ht)
    refine ⟨t' :: ts', .cons h1 h3, ?_⟩
    intro us hus
    cases hus with
    | cons h5 h6 => exact .cons (h2 _ h5) (h4 _ h6)

theorem star_sub {bs : List (Nat × Tm)} (hn : (bs.map Prod.fst).Nodup) (h : ∀ b ∈ bs, ∃ t', Star R b.2 t') :
    ∃ σ : Nat → Tm, ∀ b ∈ bs, Star R b.2 (σ b.1) := by
  induction bs with
  | nil => exact ⟨fun _ => .kind, by simp⟩
  | cons c bs ih =>
    rw [List.map_cons, List.nodup_cons] at hn
    obtain ⟨σ, hσ⟩ := ih hn.2 fun b hb => h b (List.mem_cons_of_mem _ hb)
    obtain ⟨t', ht'⟩ := h c List.mem_cons_self
    refine ⟨fun m => if m = c.1 then t' else σ m, ?_⟩
    intro b hb
    rcases List.mem_cons.1 hb with rfl | hb
    · simpa using ht'
    · have : b.1 ≠ c.1 := fun e => hn.1 (e ▸ List.mem_map.2 ⟨b, hb, rfl⟩)
      simp only [this, if_false]
      exact hσ b hb

theorem BsPar.sub {bs bs' : List (Nat × Tm)} (h : BsPar R bs bs') {σ : Nat → Tm}
    (hσ : ∀ b ∈ bs, Star R b.2 (σ b.1)) : ∀ b ∈ bs', Par R b.2 (σ b.1) := by
  unfold BsPar at h
  induction h with
  | nil => simp
  | cons h1 _ ih =>
    intro b hb
    rcases List.mem_cons.1 hb with rfl | hb
    · rw [← h1.1]
      exact (hσ _ List.mem_cons_self).2 _ h1.2
    · exact ih (fun b hb => hσ b (List.mem_cons_of_mem _ hb)) b hb

theorem Tm.spine (t : Tm) : ∃ h ts, h.NotApp ∧ t = Tm.apps h ts := by
  induction t with
  | app f a ih1 _ =>
    obtain ⟨h, ts, h1, h2⟩ := ih1
    exact ⟨h, ts ++ [a], h1, by rw [Tm.apps_snoc, h2]⟩
  | _ => exact ⟨_, [], (by intro f a h; cases h), rfl⟩

theorem forall2_split {α β : Type} {P : α → β → Prop} {as1 as2 : List α} {bs : List β}
    (h : List.Forall₂ P (as1 ++ as2) bs) : ∃ bs1 bs2, bs = bs1 ++ bs2 ∧ List.Forall₂ P as1 bs1 ∧ List.Forall₂ P as2 bs2 := by
  induction as1 generalizing bs with
  | nil => exact ⟨[], bs, rfl, .nil, h⟩
  | cons a as1 ih =>
    cases h with
    | cons h1 h2 =>
      obtain ⟨b1, b2, rfl, h3, h4⟩ := ih h2
      exact ⟨_ :: b1, b2, rfl, .cons h1 h3, h4⟩

mutual
  theorem PInst.bind {σ : Nat → Tm} {p : Pattern} {t : Tm} (h : PInst σ p t) :
      ∃ bs, PBind p t bs ∧ ∀ b ∈ bs, b.2 = σ b.1 :=
    match h with
    | .mvar m => ⟨_, .mvar m _, by simp⟩
    | .joker t => ⟨_, .joker t, by simp⟩
    | .symb h => by
      obtain ⟨bs, h1, h2⟩ := PInsts.bind h
      exact ⟨bs, .symb h1, h2⟩
  theorem PInsts.bind {σ : Nat → Tm} {ps : List Pattern} {ts : List Tm} (h : PInsts σ ps ts) :
      ∃ bs, PBinds ps ts bs ∧ ∀ b ∈ bs, b.2 = σ b.1 :=
    match h with
    | .nil => ⟨_, .nil, by simp⟩
    | .cons h h' => by
      obtain ⟨bs, h1, h2⟩ := PInst.bind h
      obtain ⟨bs', h3, h4⟩ := PInsts.bind h'
      refine ⟨bs ++ bs', .cons h1 h3, ?_⟩
      intro b hb
      rcases List.mem_append.1 hb with hb | hb
      · exact h2 b hb
      · exact h4 b hb
end

mutual
  theorem PBind.pinst {p : Pattern} {t : Tm} {bs : List (Nat × Tm)} (h : PBind p t bs) {σ : Nat → Tm} (hb : ∀ b ∈ bs, b.2 = σ b.1) : PInst σ p t :=
    match h with
    | .mvar m t => by
      have := hb (m, t) (by simp)
      simp only at this
      rw [this]
      exact .mvar m
    | .joker t => .joker t
    | .symb h => .symb (h.pinsts hb)
  theorem PBinds.pinsts {ps : List Pattern} {ts : List Tm} {bs : List (Nat × Tm)} (h : PBinds ps ts bs) {σ : Nat → Tm}
      (hb : ∀ b ∈ bs, b.2 = σ b.1) : PInsts σ ps ts :=
    match h with
    | .nil => .nil
    | .cons h h' => .cons (h.pinst fun b k => hb b (List.mem_append_left _ k)) (h'.pinsts fun b k => hb b (List.mem_append_right _ k))
end

mutual
  /-- the parallel reduct where the variables of the pattern are reduced as given -/
  theorem PBind.reduce {p : Pattern} {t : Tm} {bs : List (Nat × Tm)} (h : PBind p t bs) {σ : Nat → Tm} (hb : ∀ b ∈ bs, Par R b.2 (σ b.1)) :
      ∃ t', Par R t t' ∧ PInst σ p t' :=
    match h with
    | .mvar m t => ⟨σ m, hb (m, t) (by simp), .mvar m⟩
    | .joker t => ⟨t, .refl t, .joker t⟩
    | .symb h => by
      obtain ⟨ts', h1, h2⟩ := h.reduce hb
      exact ⟨_, Par.apps (.refl _) h1, .symb h2⟩
  theorem PBinds.reduce {ps : List Pattern} {ts : List Tm} {bs : List (Nat × Tm)} (h : PBinds ps ts bs) {σ : Nat → Tm}
      (hb : ∀ b ∈ bs, Par R b.2 (σ b.1)) : ∃ ts', List.Forall₂ (Par R) ts ts' ∧ PInsts σ ps ts' :=
    match h with
    | .nil => ⟨[], .nil, .nil⟩
    | .cons h h' => by
      obtain ⟨t', h1, h2⟩ := h.reduce fun b k => hb b (List.mem_append_left _ k)
      obtain ⟨ts', h3, h4⟩ := h'.reduce fun b k => hb b (List.mem_append_right _ k)
      exact ⟨t' :: ts', .cons h1 h3, .cons h2 h4⟩
end

theorem bsSub_mem {bs : List (Nat × Tm)} (hn : (bs.map Prod.fst).Nodup) {b : Nat × Tm} (hb : b ∈ bs) : b.2 = bsSub bs b.1 := by
  rw [bsSub, lookup_of_mem hn hb]
  rfl

/-- rules without common instances agree -/
theorem Rule.agrees_of {r r' : Rule} (h : ∀ ts, r.Matches ts → r'.Matches ts → r = r') : r = r' ∨ r.Agrees r' := by
  by_cases e : r = r'
  · exact .inl e
  · refine .inr fun σ σ' ts h1 h2 => ?_
    obtain ⟨bs, h1, -⟩ := h1.bind
    obtain ⟨bs', h2, -⟩ := h2.bind
    exact absurd (h ts ⟨bs, h1⟩ ⟨bs', h2⟩) e

/-- Every term has a parallel reduct that all its parallel reducts reach in one step. -/
theorem Orthogonal.star (ho : Orthogonal R) (t : Tm) : ∃ t', Star R t t' := by
  induction hsz : sizeOf t using Nat.strong_induction_on generalizing t with
  | _ n ih =>
    subst hsz
    have ih : ∀ u, sizeOf u < sizeOf t → ∃ u', Star R u u' := fun u hu => ih _ hu u rfl
    obtain ⟨h, ts, hh, rfl⟩ := Tm.spine t
    have ihts : ∀ t ∈ ts, ∃ t', Star R t t' := fun t ht => ih t ((sizeOf_apps h ts).2 t ht)
    obtain ⟨ts', hts1, hts2⟩ := stars ihts
    -- abstractions
    by_cases habs : ∃ b, h.IsAbs b
    · obtain ⟨b, hb⟩ := habs
      have hsb : sizeOf b < sizeOf h := by cases hb <;> simp
      have hsh := (sizeOf_apps h ts).1
      obtain ⟨b', hb1, hb2⟩ := ih b (by omega)
      have hcong : ∀ {f' b1 : Tm}, f'.IsAbs b1 → Par R b b1 → Par R f' (.dlam b') := by
        intro f' b1 hf' hbb
        cases hf' with
        | lam A b1 => exact .annot (hb2 _ hbb)
        | dlam b1 => exact .dlam (hb2 _ hbb)
      have hhead : ∀ {h'}, ParHead R h h' → ∃ b1, h'.IsAbs b1 ∧ Par R b b1 := by
        intro h' hp
        cases hp with
        | refl => exact ⟨b, hb, .refl b⟩
        | pi => cases hb
        | abs h1 h2 h3 _ =>
          have := Tm.IsAbs.unique h1 hb
          subst this
          exact ⟨_, h2, h3⟩
      cases ts with
      | nil =>
        refine ⟨.dlam b', hcong hb (.refl b), ?_⟩
        intro u hu
        cases Par.apps_inv hh hu with
        | cong h1 h2 =>
          cases h2
          obtain ⟨b1, h3, h4⟩ := hhead h1
          exact hcong h3 h4
        | rule h1 => rw [h1] at hb; cases hb
        | beta _ h2 => cases h2
      | cons a rest =>
        cases hts1 with
        | @cons _ a' _ rest' ha hrest =>
          refine ⟨(b'.inst a').apps rest', Par.apps (f := .app h a) (.beta hb hb1 ha) hrest, ?_⟩
          intro u hu
          cases Par.apps_inv hh hu with
          | cong h1 h2 =>
            obtain ⟨b1, h3, h4⟩ := hhead h1
            have h5 := hts2 _ h2
            cases h2 with
            | cons h2a h2b =>
              cases h5 with
              | cons h5a h5b => exact Par.apps (f := .app _ _) (.beta h3 (hb2 _ h4) h5a) h5b
          | rule h1 => rw [h1] at hb; cases hb
          | beta h1 h2 h3 h4 h5 =>
            cases h2
            have := Tm.IsAbs.unique h1 hb
            subst this
            cases hts2 _ (.cons h4 h5) with
            | cons h6 h7 => exact Par.apps ((hb2 _ h3).inst h6) h7
    · by_cases hrule : ∃ s rs r ts1 ts2 bs, h = .const s ∧ R s = some rs ∧ r ∈ rs ∧ r.Scoped ∧ ts = ts1 ++ ts2 ∧
          PBinds r.lhs.args ts1 bs
      · obtain ⟨s, rs, r, ts1, ts2, bs, rfl, h1, h2, h3, rfl, h4⟩ := hrule
        have hn : (bs.map Prod.fst).Nodup := h4.vars ▸ ho.linear s rs r h1 h2
        obtain ⟨σ, hσ⟩ := star_sub hn fun b hb => by
          obtain ⟨t, ht, hle⟩ := PBinds.sizeOf h4 b hb
          have := (sizeOf_apps (.const s) (ts1 ++ ts2)).2 t (List.mem_append_left _ ht)
          exact ih b.2 (by omega)
        obtain ⟨ts2', hr1, hr2⟩ := stars fun t ht => ihts t (List.mem_append_right ts1 ht)
        refine ⟨(r.rhs.den.sub σ).apps ts2', ?_, ?_⟩
        · rw [Tm.apps_append]
          exact Par.apps (.rule h1 h2 h3 h4 fun b hb => (hσ b hb).1) hr1
        · intro u hu
          cases Par.apps_inv hh hu with
          | cong k1 k2 =>
            cases k1 with
            | abs ha => cases ha
            | refl =>
              obtain ⟨us1, us2, rfl, k3, k4⟩ := forall2_split k2
              obtain ⟨bs', k5, k6⟩ := PBinds.par h4
                (fun s' ps rs' r' us bs hin k l => ho.inner s rs r s' ps rs' r' us bs h1 h2 hin k l) k3
              rw [Tm.apps_append]
              exact Par.apps (.rule h1 h2 h3 k5 (k6.sub hσ)) (hr2 _ k4)
          | @rule s' rs' r' σ' us1 us2 us2' bs' k1 k2 k3 k4 k5 k6 k7 k8 =>
            cases k1
            rw [h1] at k2
            cases k2
            rcases ho.root s rs r r' h1 h2 k3 with hag | hag
            rotate_left
            · -- the two rules agree after the reduction of the variables
              obtain ⟨vs1, l1, l2⟩ := k6.reduce k7
              have l3 : List.Forall₂ (Par R) (ts1 ++ ts2) (vs1 ++ us2') := by
                rw [k5]
                exact List.rel_append l1 k8
              obtain ⟨ws1, ws2, l4, l5, l6⟩ := forall2_split l3
              obtain ⟨bs'', m1, m2⟩ := PBinds.par h4
                (fun s' ps rs' r' us bs hin k l => ho.inner s rs r s' ps rs' r' us bs h1 h2 hin k l) l5
              have hn'' : (bs''.map Prod.fst).Nodup := m1.vars ▸ ho.linear s rs r h1 h2
              have m3 := hag (bsSub bs'') σ' (vs1 ++ us2') (by
                rw [l4, m1.length, List.take_left]
                exact m1.pinsts fun b hb => bsSub_mem hn'' hb) (by
                rw [l2.length, List.take_left]
                exact l2)
              rw [l2.length, List.drop_left, l4, m1.length, List.drop_left] at m3
              rw [← m3]
              refine Par.apps ?_ (hr2 _ l6)
              have hcl := ho.closed s rs r h1 h2
              rw [hcl.sub_congr (σ := bsSub bs'') (τ := fun m => if m < r.ctx.length then bsSub bs'' m else σ m) (fun n hn => by simp [hn])]
              refine Par.sub_refl _ fun m => ?_
              split
              · next hm =>
                rw [← h3 m, ← m1.vars] at hm
                obtain ⟨b, hb, rfl⟩ := List.mem_map.1 hm
                rw [← bsSub_mem hn'' hb]
                exact m2.sub hσ b hb
              · exact .refl _
            subst hag
            obtain ⟨rfl, rfl⟩ := List.append_inj k5 (h4.length.symm.trans k6.length)
            have := h4.unique k6
            subst this
            refine Par.apps ?_ (hr2 _ k8)
            have hcl := ho.closed s rs r h1 h2
            rw [hcl.sub_congr (σ := σ') (τ := fun m => if m < r.ctx.length then σ' m else σ m) (fun n hn => by simp [hn])]
            refine Par.sub_refl _ fun m => ?_
            split
            · next hm =>
              rw [← h3 m, ← h4.vars] at hm
              obtain ⟨b, hb, rfl⟩ := List.mem_map.1 hm
              exact (hσ b hb).2 _ (k7 b hb)
            · exact .refl _
          | beta hb => cases hb
      · -- nothing happens at the head
        have hhd : ∃ h', ParHead R h h' ∧ ∀ k, ParHead R h k → Par R k h' := by
          by_cases hpi : ∃ A B, h = .pi A B
          · obtain ⟨A, B, rfl⟩ := hpi
            have hsh := (sizeOf_apps (.pi A B) ts).1
            simp only [Tm.pi.sizeOf_spec] at hsh
            obtain ⟨A', hA1, hA2⟩ := ih A (by omega)
            obtain ⟨B', hB1, hB2⟩ := ih B (by omega)
            refine ⟨.pi A' B', .pi hA1 hB1, ?_⟩
            intro k hk
            cases hk with
            | refl => exact .pi hA1 hB1
            | pi h1 h2 => exact .pi (hA2 _ h1) (hB2 _ h2)
            | abs ha => cases ha
          · refine ⟨h, .refl h, ?_⟩
            intro k hk
            cases hk with
            | refl => exact .refl _
            | pi => exact absurd ⟨_, _, rfl⟩ hpi
            | abs ha => exact absurd ⟨_, ha⟩ habs
        obtain ⟨h', hh1, hh2⟩ := hhd
        refine ⟨h'.apps ts', Par.apps hh1.par hts1, ?_⟩
        intro u hu
        cases Par.apps_inv hh hu with
        | cong k1 k2 => exact Par.apps (hh2 _ k1) (hts2 _ k2)
        | rule k1 k2 k3 k4 k5 k6 => exact absurd ⟨_, _, _, _, _, _, k1, k2, k3, k4, k5, k6⟩ hrule
        | beta hb => exact absurd ⟨_, hb⟩ habs

/-- many parallel steps -/
abbrev Pars (R : RuleMap) := Relation.ReflTransGen (Par R)

theorem Orthogonal.join_trans (ho : Orthogonal R) {t u v : Tm} (h : Relation.Join (Pars R) t u) (h' : Relation.Join (Pars R) u v) :
    Relation.Join (Pars R) t v := by
  obtain ⟨x, hx1, hx2⟩ := h
  obtain ⟨y, hy1, hy2⟩ := h'
  obtain ⟨z, hz1, hz2⟩ := Relation.church_rosser (r := Par R) (fun a b c hab hac => by
    obtain ⟨a', -, h⟩ := ho.star a
    exact ⟨a', .single (h _ hab), .single (h _ hac)⟩) hx2 hy1
  exact ⟨z, hx1.trans hz1, hy2.trans hz2⟩

theorem Pars.lift (f : Tm → Tm) (hf : ∀ {a b}, Par R a b → Par R (f a) (f b)) {t u : Tm} (h : Pars R t u) :
    Pars R (f t) (f u) := Relation.ReflTransGen.lift f (@hf) _ _ h

theorem Pars.map2 {f : Tm → Tm → Tm} (h1 : ∀ {a b} c, Par R a b → Par R (f a c) (f b c))
    (h2 : ∀ {a b} c, Par R a b → Par R (f c a) (f c b)) {t t' u u' : Tm} (h : Pars R t t') (h' : Pars R u u') :
    Pars R (f t u) (f t' u') :=
  (Pars.lift (fun x => f x u) (h1 u) h).trans (Pars.lift (fun x => f t' x) (h2 t') h')

theorem Orthogonal.join (ho : Orthogonal R) {t u : Tm} (h : Conv R false t u) : Relation.Join (Pars R) t u := by
  induction h with
  | refl => exact ⟨_, .refl, .refl⟩
  | symm _ ih => obtain ⟨v, h1, h2⟩ := ih; exact ⟨v, h2, h1⟩
  | trans _ _ ih1 ih2 => exact ho.join_trans ih1 ih2
  | app _ _ ih1 ih2 =>
    obtain ⟨v, h1, h2⟩ := ih1
    obtain ⟨w, h3, h4⟩ := ih2
    exact ⟨.app v w, Pars.map2 (fun c h => .app h (.refl c)) (fun c h => .app (.refl c) h) h1 h3,
      Pars.map2 (fun c h => .app h (.refl c)) (fun c h => .app (.refl c) h) h2 h4⟩
  | dlam _ ih =>
    obtain ⟨v, h1, h2⟩ := ih
    exact ⟨.dlam v, Pars.lift _ .dlam h1, Pars.lift _ .dlam h2⟩
  | annot A b => exact ⟨.dlam b, .single (.annot (.refl b)), .refl⟩
  | pi _ _ ih1 ih2 =>
    obtain ⟨v, h1, h2⟩ := ih1
    obtain ⟨w, h3, h4⟩ := ih2
    exact ⟨.pi v w, Pars.map2 (fun c h => .pi h (.refl c)) (fun c h => .pi (.refl c) h) h1 h3,
      Pars.map2 (fun c h => .pi h (.refl c)) (fun c h => .pi (.refl c) h) h2 h4⟩
  | beta b a => exact ⟨_, .single (.beta (.dlam b) (.refl b) (.refl a)), .refl⟩
  | eta h => cases h
  | rule h1 h2 h3 h4 =>
    obtain ⟨bs, h5, h6⟩ := h4.bind
    exact ⟨_, .single (.rule h1 h2 h3 h5 fun b hb => by rw [h6 b hb]; exact .refl _), .refl⟩

theorem Orthogonal.confluent (ho : Orthogonal R) : Confluent R := by
  have key : ∀ {t u : Tm}, Pars R t u → RedA R t u := by
    intro t u h
    induction h with
    | refl => exact .refl _
    | tail _ h ih => exact ih.trans (Par.red ho h)
  intro t u h
  obtain ⟨v, h1, h2⟩ := ho.join h
  exact ⟨v, key h1, key h2⟩

end

end Kontroli
