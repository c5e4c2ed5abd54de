import Verif.Proofs.SimEval

/-!
# Simulation of the conversion test

One iteration of the loop on evaluated terms depends only on the plain terms, up to exchanging sides.  A constraint between
terms that denote the same plain term never changes the verdict.
-/

namespace Kontroli

/-! ## Forms of evaluated terms -/

/-- the form of evaluated terms: applications are flat and have arguments -/
inductive Sh : STerm → Prop
  | head {t : STerm} : t.NonAppl → Sh t
  | app {f : STerm} {args : List STerm} : f.NonAppl → args ≠ [] → Sh (.scomb (.appl f args))

theorem applySubst_nonAppl {S : Nat → Nat → M STerm} {t : STerm} {k : Nat} {s s' : St} {r : STerm × Bool} (ht : t.NonAppl)
    (hv : ∀ n, t ≠ .var n) (h : applySubst S t k s = .ok (r, s')) : r.1.NonAppl := by
  cases t with
  | kind => obtain ⟨rfl, rfl⟩ := pure_ok h; exact ht
  | type => obtain ⟨rfl, rfl⟩ := pure_ok h; exact ht
  | const c => obtain ⟨rfl, rfl⟩ := pure_ok h; exact ht
  | var n => exact absurd rfl (hv n)
  | lcomb c =>
    obtain ⟨c', s1, h1, h⟩ := bind_ok' h
    obtain ⟨rfl, rfl⟩ := pure_ok h
    cases c with
    | appl f args => exact absurd rfl (ht _ _)
    | prod id ty tm =>
      obtain ⟨f', s1, h1, h⟩ := bind_ok' h1
      obtain ⟨as', s2, h2, h⟩ := bind_ok' h
      obtain ⟨rfl, rfl⟩ := pure_ok h
      intro f as e; cases e
    | abst id ty tm =>
      obtain ⟨f', s1, h1, h⟩ := bind_ok' h1
      obtain ⟨as', s2, h2, h⟩ := bind_ok' h
      obtain ⟨rfl, rfl⟩ := pure_ok h
      intro f as e; cases e
  | scomb c =>
    unfold applySubst at h
    obtain ⟨b, s0, h0, h⟩ := bind_ok' h
    obtain ⟨c', s1, h1, h⟩ := bind_ok' h
    have hc : ∀ f as, c'.1 ≠ .appl f as := by
      cases c with
      | appl f args => exact absurd rfl (ht _ _)
      | prod id ty tm =>
        obtain ⟨f', s1, h1, h⟩ := bind_ok' h1
        obtain ⟨as', s2, h2, h⟩ := bind_ok' h
        obtain ⟨rfl, rfl⟩ := pure_ok h
        intro f as e; cases e
      | abst id ty tm =>
        obtain ⟨f', s1, h1, h⟩ := bind_ok' h1
        obtain ⟨as', s2, h2, h⟩ := bind_ok' h
        obtain ⟨rfl, rfl⟩ := pure_ok h
        intro f as e; cases e
    split at h
    · obtain ⟨rfl, rfl⟩ := pure_ok h
      intro f as e
      exact hc f as (by simpa [STerm.getComb] using e)
    · split at h
      · obtain ⟨rfl, rfl⟩ := pure_ok h
        intro f as e
        exact hc f as (by simpa [STerm.getComb] using e)
      · obtain ⟨rfl, rfl⟩ := pure_ok h
        exact ht

theorem readBody_sh {rd : State → M STerm} {st : State} (hn : st.Nf) {s s' : St} {t : STerm}
    (h : readBody rd st s = .ok (t, s')) : Sh t := by
  unfold readBody at h
  obtain ⟨u, s1, h1, h⟩ := bind_ok' h
  have hu : u.NonAppl := by
    unfold psubstTerm at h1
    split at h1
    · obtain ⟨rfl, rfl⟩ := pure_ok h1; exact hn.head
    · next hc =>
      obtain ⟨r, s2, h2, h1⟩ := bind_ok' h1
      obtain ⟨rfl, rfl⟩ := pure_ok h1
      refine applySubst_nonAppl hn.head (fun n e => hc ?_) h2
      rw [hn.var n e]; rfl
  split at h
  · obtain ⟨rfl, rfl⟩ := pure_ok h; exact .head hu
  · next hs =>
    obtain ⟨args, s2, h2, h⟩ := bind_ok' h
    have hne : args ≠ [] := by
      rintro rfl
      cases hst : st.stack with
      | nil => rw [hst] at hs; exact hs rfl
      | cons r rs =>
        rw [hst] at h2
        unfold readArgs at h2
        obtain ⟨a, s3, -, h2⟩ := bind_ok' h2
        obtain ⟨as, s4, -, h2⟩ := bind_ok' h2
        cases (pure_ok h2).1
    unfold applyArgs at h
    split at h
    · exact absurd rfl (hu _ _)
    · obtain ⟨rfl, rfl⟩ := pure_ok h
      exact .app hu hne

theorem rd_sh {gc : GCtx} {n : Nat} {st : State} (hn : st.Nf) {s s' : St} {t : STerm}
    (h : (ops gc n).rd st s = .ok (t, s')) : Sh t := by
  cases n with
  | zero => cases h
  | succ n => exact readBody_sh hn h

theorem HExt.old {w' : Pairs} {h1 h2 h1' h2' : Heap} (h : HExt .empty w' h1 h2 h1' h2') : Old h1 h1' ∧ Old h2 h2' :=
  ⟨h.k1.weaken (fun _ ⟨_, h⟩ => h) fun _ ⟨_, h⟩ => h, h.k2.weaken (fun _ ⟨_, h⟩ => h) fun _ ⟨_, h⟩ => h⟩

/-- evaluation of terms that denote the same, in any two heaps -/
theorem whnfTerm_sim {gc : GCtx} {n m : Nat} (ho : SimOps gc (ops gc n) (ops gc m)) {P : Prop} (hP : P → gc.ProperRules)
    {t u t' u' : STerm} {s1 s2 s1' s2' : St} (h : TEq P t u) (h1 : whnfTerm (ops gc n) t s1 = .ok (t', s1'))
    (h2 : whnfTerm (ops gc m) u s2 = .ok (u', s2')) :
    Old s1.heap s1'.heap ∧ Old s2.heap s2'.heap ∧ TEq P t' u' ∧ Sh t' ∧ Sh u' := by
  obtain ⟨a, x1, h1, h3⟩ := bind_ok' h1
  obtain ⟨b, x2, h2, h4⟩ := bind_ok' h2
  obtain ⟨w, e, r, hab, na, nb⟩ := ho.wh P hP .empty _ _ ⟨.nil, h, .nil⟩ _ _ _ _ _ _ (.empty _ _ _) h1 h2
  obtain ⟨w', e', -, htu⟩ := ho.rd P w _ _ hab _ _ _ _ _ _ r h3 h4
  have := (e.trans e').old
  exact ⟨this.1, this.2, htu, rd_sh na h3, rd_sh nb h4⟩

/-! ## One iteration on plain terms -/

/-- head of an application -/
def Tm.hd : Tm → Tm
  | .app f _ => f.hd
  | t => t

/-- arguments of an application -/
def Tm.args : Tm → List Tm
  | .app f a => f.args ++ [a]
  | _ => []

/-- body of an abstraction -/
def Tm.body? : Tm → Option Tm
  | .lam _ b => some b
  | .dlam b => some b
  | _ => none

theorem Tm.hd_apps {h : Tm} (hh : h.NotApp) (ts : List Tm) : (h.apps ts).hd = h ∧ (h.apps ts).args = ts := by
  induction ts using List.reverseRecOn with
  | nil => cases h <;> first | exact ⟨rfl, rfl⟩ | exact absurd rfl (hh _ _)
  | append_singleton ts t ih => rw [Tm.apps_snoc]; exact ⟨ih.1, by rw [Tm.args, ih.2]⟩

/-- the other side of an abstraction -/
def Tm.etaApp (t : Tm) : Tm := .app (t.shift 1) (.var 0)

/-- one iteration on terms that are not abstractions -/
def stepRigid : Tm → Tm → Option (List (Tm × Tm))
  | .kind, .kind => some []
  | .type, .type => some []
  | .const s, .const s' => if s = s' then some [] else none
  | .var n, .var n' => if n = n' then some [] else none
  | .pi A B, .pi A' B' => some [(B, B'), (A, A')]
  | .app f a, .app f' a' =>
    if (Tm.app f a).args.length = (Tm.app f' a').args.length then
      some (((Tm.app f a).args.zip (Tm.app f' a').args).reverse ++ [((Tm.app f a).hd, (Tm.app f' a').hd)])
    else none
  | _, _ => none

/-- one iteration -/
def stepT (eta : Bool) (t u : Tm) : Option (List (Tm × Tm)) :=
  match t.body?, u.body? with
  | some b, some b' => some [(b, b')]
  | some b, none => if eta then some [(b, u.etaApp)] else none
  | none, some b => if eta then some [(b, t.etaApp)] else none
  | none, none => stepRigid t u

/-- denotation of a constraint -/
def denP (p : STerm × STerm) : Tm × Tm := (p.1.den, p.2.den)

/-- what is known of the result of an iteration -/
def StepSpec (cns : List (STerm × STerm)) (o : Option (List (Tm × Tm))) (s : St) (r : Option (List (STerm × STerm)))
    (s' : St) : Prop :=
  s'.heap = s.heap ∧ match r with
  | none => o = none
  | some l => ∃ P, l = P ++ cns ∧ o = some (P.map denP)

theorem StepSpec.ofSome {cns : List (STerm × STerm)} {o : Option (List (Tm × Tm))} {s s' : St} {l}
    {r : Option (List (STerm × STerm))} (P : List (STerm × STerm)) (h : M.pure (some l) s = .ok (r, s')) (hl : l = P ++ cns)
    (ho : o = some (P.map denP)) : StepSpec cns o s r s' := by
  obtain ⟨rfl, rfl⟩ := pure_ok h
  exact ⟨rfl, P, hl, ho⟩

theorem StepSpec.ofNone {cns : List (STerm × STerm)} {o : Option (List (Tm × Tm))} {s s' : St}
    {r : Option (List (STerm × STerm))} (h : M.pure none s = .ok (r, s'))
    (ho : o = none) : StepSpec cns o s r s' := by
  obtain ⟨rfl, rfl⟩ := pure_ok h
  exact ⟨rfl, ho⟩

theorem STerm.body?_den {t b : STerm} {a : Option STerm} {i : Str} (h : t.getComb = some (.abst i a b)) :
    t.den.body? = some b.den := by
  rcases STerm.den_abst h with e | ⟨A, e⟩ <;> rw [e] <;> rfl

theorem shiftApp_heap {t t' : STerm} {s s' : St} (h : shiftApp t s = .ok (t', s')) :
    s'.heap = s.heap ∧ t'.den = t.den.etaApp := by
  unfold shiftApp at h
  obtain ⟨u, s1, h1, h⟩ := bind_ok' h
  obtain ⟨e1, e2, -⟩ := shiftMut_heap h1
  obtain ⟨e3, e4, -⟩ := applyArgs_heap h
  refine ⟨e3.trans e1, ?_⟩
  rw [e4, e2]
  rfl

theorem StepSpec.eta {cns : List (STerm × STerm)} {eta : Bool} {b t : STerm} {s s' : St}
    {r : Option (List (STerm × STerm))} {o : Option (List (Tm × Tm))}
    (h : (if eta then M.bind (shiftApp t) fun a => M.pure (some ((b, a) :: cns)) else M.pure none) s = .ok (r, s'))
    (ho : o = if eta then some [(b.den, t.den.etaApp)] else none) :
    StepSpec cns o s r s' := by
  split at h
  · next he =>
    obtain ⟨u, s1, h1, h⟩ := bind_ok' h
    obtain ⟨e1, e2⟩ := shiftApp_heap h1
    obtain ⟨rfl, rfl⟩ := pure_ok h
    exact ⟨e1, [(b, u)], rfl, by rw [ho, if_pos he]; simp [denP, e2]⟩
  · next he => exact .ofNone h (by rw [ho, if_neg he])

/-- the cases of evaluated terms -/
inductive ShForm : STerm → Prop
  | kind : ShForm .kind
  | type : ShForm .type
  | const (s : Sym) : ShForm (.const s)
  | var (n : Nat) : ShForm (.var n)
  | prod {t a b : STerm} {i : Str} : t.getComb = some (.prod i a b) → ShForm t
  | abst {t b : STerm} {a : Option STerm} {i : Str} : t.getComb = some (.abst i a b) → ShForm t
  | app {f : STerm} {args : List STerm} : f.NonAppl → args ≠ [] → ShForm (.scomb (.appl f args))

theorem Sh.form {t : STerm} (h : Sh t) : ShForm t := by
  cases h with
  | head h =>
    cases h.form with
    | kind => exact .kind
    | type => exact .type
    | const s => exact .const s
    | var n => exact .var n
    | prod h => exact .prod h
    | abst h => exact .abst h
  | app h1 h2 => exact .app h1 h2

theorem STerm.den_appl (f : STerm) (args : List STerm) :
    (STerm.scomb (.appl f args)).den = f.den.apps (args.map STerm.den) := by
  simp [STerm.den, SComb.den, STerm.denList_eq]

theorem den_appl_app (f : STerm) {args : List STerm} (h : args ≠ []) :
    ∃ g a, (STerm.scomb (.appl f args)).den = .app g a := by
  rw [STerm.den_appl]
  cases args using List.reverseRecOn with
  | nil => exact absurd rfl h
  | append_singleton as a => rw [List.map_append, List.map_singleton, Tm.apps_snoc]; exact ⟨_, _, rfl⟩

theorem body?_appl (f : STerm) {args : List STerm} (h : args ≠ []) : (STerm.scomb (.appl f args)).den.body? = none := by
  obtain ⟨g, a, e⟩ := den_appl_app f h
  rw [e]; rfl

theorem body?_prod {t a b : STerm} {i : Str} (h : t.getComb = some (.prod i a b)) : t.den.body? = none := by
  rw [STerm.den_prod h]; rfl

theorem step_combs (eta : Bool) (cns : List (STerm × STerm)) {t u : STerm} {c d : SComb} (ht : t.getComb = some c)
    (hu : u.getComb = some d) : step eta cns t u = step2 eta cns c d := by
  cases t <;> simp only [STerm.getComb, Option.some.injEq, reduceCtorEq] at ht <;>
    cases u <;> simp only [STerm.getComb, Option.some.injEq, reduceCtorEq] at hu <;> subst ht <;> subst hu <;> rfl

theorem step_comb_l (eta : Bool) (cns : List (STerm × STerm)) {t u : STerm} {c : SComb} (ht : t.getComb = some c)
    (hu : u.getComb = none) : step eta cns t u = if eta then step1 cns c u else M.pure none := by
  cases t <;> simp only [STerm.getComb, Option.some.injEq, reduceCtorEq] at ht <;>
    cases u <;> simp only [STerm.getComb, Option.some.injEq, reduceCtorEq] at hu <;> subst ht <;> rfl

theorem step_comb_r (eta : Bool) (cns : List (STerm × STerm)) {t u : STerm} {c : SComb} (ht : u.getComb = some c)
    (hu : t.getComb = none) : step eta cns t u = if eta then step1 cns c t else M.pure none := by
  cases u <;> simp only [STerm.getComb, Option.some.injEq, reduceCtorEq] at ht <;>
    cases t <;> simp only [STerm.getComb, Option.some.injEq, reduceCtorEq] at hu <;> subst ht <;> rfl

theorem STerm.den_scomb {t : STerm} {c : SComb} (h : t.getComb = some c) : (STerm.scomb c).den = t.den := by
  rw [STerm.den_getComb h]; rfl

theorem ite_pure_none (eta : Bool) : (if eta then M.pure none else M.pure none : M (Option (List (STerm × STerm)))) = M.pure none := by
  cases eta <;> rfl

theorem map_denP_zip (as bs : List STerm) : (as.zip bs).map denP = (as.map STerm.den).zip (bs.map STerm.den) := by
  rw [List.zip_map]; rfl

theorem step_spec {eta : Bool} {cns : List (STerm × STerm)} {t u : STerm} (ht : Sh t) (hu : Sh u) {s s' : St}
    {r : Option (List (STerm × STerm))} (h : step eta cns t u s = .ok (r, s')) :
    StepSpec cns (stepT eta t.den u.den) s r s' := by
  cases ht.form with
  | abst e =>
    cases hu.form with
    | abst e' =>
      rw [step_combs eta cns e e'] at h
      exact .ofSome [(_, _)] h rfl (by simp only [stepT, STerm.body?_den e, STerm.body?_den e']; rfl)
    | prod e' =>
      rw [step_combs eta cns e e'] at h
      exact .eta h (by simp only [stepT, STerm.body?_den e, body?_prod e', STerm.den_scomb e'])
    | app h1 h2 =>
      rw [step_combs eta cns e rfl] at h
      exact .eta h (by simp only [stepT, STerm.body?_den e, body?_appl _ h2])
    | _ =>
      rw [step_comb_l eta cns e rfl] at h
      exact .eta h (by simp only [stepT, STerm.body?_den e]; rfl)
  | prod e =>
    cases hu.form with
    | abst e' =>
      rw [step_combs eta cns e e'] at h
      exact .eta h (by simp only [stepT, STerm.body?_den e', body?_prod e, STerm.den_scomb e])
    | prod e' =>
      rw [step_combs eta cns e e'] at h
      exact .ofSome [(_, _), (_, _)] h rfl (by simp only [stepT, STerm.den_prod e, STerm.den_prod e', Tm.body?]; rfl)
    | @app f args h1 h2 =>
      rw [step_combs eta cns e rfl] at h
      obtain ⟨g, a, e'⟩ := den_appl_app f h2
      exact .ofNone h (by simp only [stepT, STerm.den_prod e, e', Tm.body?]; rfl)
    | _ =>
      rw [step_comb_l eta cns e rfl] at h
      simp only [step1, ite_pure_none] at h
      exact .ofNone h (by simp only [stepT, STerm.den_prod e]; rfl)
  | @app f args h1 h2 =>
    cases hu.form with
    | abst e' =>
      rw [step_combs eta cns rfl e'] at h
      exact .eta h (by simp only [stepT, STerm.body?_den e', body?_appl _ h2])
    | prod e' =>
      rw [step_combs eta cns rfl e'] at h
      obtain ⟨g, a, e⟩ := den_appl_app f h2
      exact .ofNone h (by simp only [stepT, STerm.den_prod e', e, Tm.body?]; rfl)
    | @app f' args' h1' h2' =>
      rw [step_combs eta cns rfl rfl] at h
      have key : stepT eta (STerm.scomb (.appl f args)).den (STerm.scomb (.appl f' args')).den =
          if args.length = args'.length then
            some (((args.map STerm.den).zip (args'.map STerm.den)).reverse ++ [(f.den, f'.den)]) else none := by
        obtain ⟨g, a, e⟩ := den_appl_app f h2
        obtain ⟨g', a', e'⟩ := den_appl_app f' h2'
        have k1 := Tm.hd_apps h1.notApp (args.map STerm.den)
        have k2 := Tm.hd_apps h1'.notApp (args'.map STerm.den)
        rw [← STerm.den_appl, e] at k1
        rw [← STerm.den_appl, e'] at k2
        rw [e, e']
        simp only [stepT, Tm.body?, stepRigid, k1.1, k1.2, k2.1, k2.2, List.length_map]
      rw [key]
      simp only [step2] at h
      split at h
      · next hl =>
        refine .ofSome ((args.zip args').reverse ++ [(f, f')]) h (by simp) ?_
        rw [if_pos hl, List.map_append, List.map_reverse, map_denP_zip]; rfl
      · next hl => exact .ofNone h (by rw [if_neg hl])
    | _ =>
      rw [step_comb_l eta cns rfl rfl] at h
      simp only [step1, ite_pure_none] at h
      obtain ⟨g, a, e⟩ := den_appl_app f h2
      exact .ofNone h (by simp only [stepT, e]; rfl)
  | kind =>
    cases hu.form with
    | abst e' =>
      rw [step_comb_r eta cns e' rfl] at h
      exact .eta h (by simp only [stepT, STerm.body?_den e']; rfl)
    | prod e' =>
      rw [step_comb_r eta cns e' rfl] at h
      simp only [step1, ite_pure_none] at h
      exact .ofNone h (by simp only [stepT, STerm.den_prod e']; rfl)
    | @app f args h1 h2 =>
      rw [step_comb_r eta cns rfl rfl] at h
      simp only [step1, ite_pure_none] at h
      obtain ⟨g, a, e⟩ := den_appl_app f h2
      exact .ofNone h (by simp only [stepT, e]; rfl)
    | kind => exact .ofSome [] h rfl rfl
    | _ => exact .ofNone h rfl
  | type =>
    cases hu.form with
    | abst e' =>
      rw [step_comb_r eta cns e' rfl] at h
      exact .eta h (by simp only [stepT, STerm.body?_den e']; rfl)
    | prod e' =>
      rw [step_comb_r eta cns e' rfl] at h
      simp only [step1, ite_pure_none] at h
      exact .ofNone h (by simp only [stepT, STerm.den_prod e']; rfl)
    | @app f args h1 h2 =>
      rw [step_comb_r eta cns rfl rfl] at h
      simp only [step1, ite_pure_none] at h
      obtain ⟨g, a, e⟩ := den_appl_app f h2
      exact .ofNone h (by simp only [stepT, e]; rfl)
    | type => exact .ofSome [] h rfl rfl
    | _ => exact .ofNone h rfl
  | const c =>
    cases hu.form with
    | abst e' =>
      rw [step_comb_r eta cns e' rfl] at h
      exact .eta h (by simp only [stepT, STerm.body?_den e']; rfl)
    | prod e' =>
      rw [step_comb_r eta cns e' rfl] at h
      simp only [step1, ite_pure_none] at h
      exact .ofNone h (by simp only [stepT, STerm.den_prod e']; rfl)
    | @app f args h1 h2 =>
      rw [step_comb_r eta cns rfl rfl] at h
      simp only [step1, ite_pure_none] at h
      obtain ⟨g, a, e⟩ := den_appl_app f h2
      exact .ofNone h (by simp only [stepT, e]; rfl)
    | const c' =>
      simp only [step] at h
      split at h
      · next hc => exact .ofSome [] h rfl (by simp [stepT, STerm.den, Tm.body?, stepRigid, hc])
      · next hc => exact .ofNone h (by simp [stepT, STerm.den, Tm.body?, stepRigid, hc])
    | _ => exact .ofNone h rfl
  | var c =>
    cases hu.form with
    | abst e' =>
      rw [step_comb_r eta cns e' rfl] at h
      exact .eta h (by simp only [stepT, STerm.body?_den e']; rfl)
    | prod e' =>
      rw [step_comb_r eta cns e' rfl] at h
      simp only [step1, ite_pure_none] at h
      exact .ofNone h (by simp only [stepT, STerm.den_prod e']; rfl)
    | @app f args h1 h2 =>
      rw [step_comb_r eta cns rfl rfl] at h
      simp only [step1, ite_pure_none] at h
      obtain ⟨g, a, e⟩ := den_appl_app f h2
      exact .ofNone h (by simp only [stepT, e]; rfl)
    | var c' =>
      simp only [step] at h
      split at h
      · next hc => exact .ofSome [] h rfl (by simp [stepT, STerm.den, Tm.body?, stepRigid, hc])
      · next hc => exact .ofNone h (by simp [stepT, STerm.den, Tm.body?, stepRigid, hc])
    | _ => exact .ofNone h rfl

/-- equal up to exchanging the sides -/
def PT (p q : Tm × Tm) : Prop := p = q ∨ (p.1 = q.2 ∧ p.2 = q.1)

theorem forall₂_PT_refl (l : List (Tm × Tm)) : List.Forall₂ PT l l := by
  induction l with
  | nil => exact .nil
  | cons p l ih => exact .cons (.inl rfl) ih

theorem forall₂_PT_zip (as bs : List Tm) : List.Forall₂ PT (as.zip bs) (bs.zip as) := by
  induction as generalizing bs with
  | nil => cases bs <;> exact .nil
  | cons a as ih =>
    cases bs with
    | nil => exact .nil
    | cons b bs => exact .cons (.inr ⟨rfl, rfl⟩) (ih bs)

theorem stepT_swap (eta : Bool) (t u : Tm) : Option.Rel (List.Forall₂ PT) (stepT eta t u) (stepT eta u t) := by
  unfold stepT
  cases t.body? with
  | some b =>
    cases u.body? with
    | some b' => exact .some (.cons (.inr ⟨rfl, rfl⟩) .nil)
    | none => dsimp only; split; exacts [.some (forall₂_PT_refl _), .none]
  | none =>
    cases u.body? with
    | some b' => dsimp only; split; exacts [.some (forall₂_PT_refl _), .none]
    | none =>
      dsimp only
      cases t <;> cases u <;> simp only [stepRigid] <;> try exact .none
      · exact .some .nil
      · exact .some .nil
      · next c c' =>
        by_cases h : c = c'
        · subst h; simp only [if_true]; exact .some .nil
        · rw [if_neg h, if_neg (fun e => h e.symm)]; exact .none
      · next c c' =>
        by_cases h : c = c'
        · subst h; simp only [if_true]; exact .some .nil
        · rw [if_neg h, if_neg (fun e => h e.symm)]; exact .none
      · next f a f' a' =>
        by_cases h : (Tm.app f a).args.length = (Tm.app f' a').args.length
        · rw [if_pos h, if_pos h.symm]
          refine .some (List.rel_append ?_ (.cons (.inr ⟨rfl, rfl⟩) .nil))
          exact List.rel_reverse (forall₂_PT_zip _ _)
        · rw [if_neg h, if_neg (fun e => h e.symm)]; exact .none
      · exact .some (.cons (.inr ⟨rfl, rfl⟩) (.cons (.inr ⟨rfl, rfl⟩) .nil))

theorem zip_self_eq (as : List Tm) : ∀ p ∈ as.zip as, p.1 = p.2 := by
  intro p hp
  obtain ⟨a, b⟩ := p
  rw [List.mem_iff_getElem] at hp
  obtain ⟨i, hi, e⟩ := hp
  simp only [List.getElem_zip, Prod.mk.injEq] at e
  exact e.1.symm.trans e.2

theorem stepT_refl (eta : Bool) (t : Tm) : ∃ l, stepT eta t t = some l ∧ ∀ p ∈ l, p.1 = p.2 := by
  unfold stepT
  cases h : t.body? with
  | some b => exact ⟨_, rfl, by simp⟩
  | none =>
    dsimp only
    cases t with
    | kind => exact ⟨_, rfl, by simp⟩
    | type => exact ⟨_, rfl, by simp⟩
    | const c => exact ⟨[], by simp [stepRigid], by simp⟩
    | var c => exact ⟨[], by simp [stepRigid], by simp⟩
    | pi A B => exact ⟨_, rfl, by simp⟩
    | app f a =>
      refine ⟨_, if_pos rfl, fun p hp => ?_⟩
      rcases List.mem_append.1 hp with hp | hp
      · exact zip_self_eq _ p (List.mem_reverse.1 hp)
      · simp only [List.mem_singleton] at hp; subst hp; rfl
    | lam A b => cases h
    | dlam b => cases h

/-! ## The loop -/

section
variable {gc : GCtx} {N : Nat} (ih : ∀ n m, n ≤ N → m ≤ N → SimOps gc (ops gc n) (ops gc m))
include ih

/-- constraints between terms that denote the same are discharged -/
theorem cv_consume {m : Nat} (hm : m ≤ N + 1) {Ps l : List (STerm × STerm)} (hp : ∀ p ∈ Ps, p.1.den = p.2.den) {s s' : St}
    {b : Bool} (h : (ops gc m).cv (Ps ++ l) s = .ok (b, s')) :
    ∃ m' s1, m' + Ps.length ≤ m ∧ Old s.heap s1.heap ∧ (ops gc m').cv l s1 = .ok (b, s') := by
  induction m generalizing Ps s with
  | zero => cases h
  | succ m ih' =>
    cases Ps with
    | nil => exact ⟨m + 1, s, Nat.le_refl _, .of_eq rfl, h⟩
    | cons p Ps =>
      obtain ⟨t, u⟩ := p
      have htu : t.den = u.den := hp (t, u) (by simp)
      have hps : ∀ p ∈ Ps, p.1.den = p.2.den := fun p h => hp p (List.mem_cons_of_mem _ h)
      simp only [List.cons_append, ops, cvBody] at h
      split at h
      · obtain ⟨m', s1, h1, h2, h3⟩ := ih' (by omega) hps h
        exact ⟨m', s1, by simp only [List.length_cons]; omega, h2, h3⟩
      · obtain ⟨v, s2, e1, h⟩ := bind_ok' h
        obtain ⟨v', s3, e2, h⟩ := bind_ok' h
        obtain ⟨r, s4, e3, h⟩ := bind_ok' h
        obtain ⟨o1, o2, hv, sh, sh'⟩ := whnfTerm_sim (ih m m (by omega) (by omega)) (P := False) False.elim ⟨htu, False.elim⟩ e1 e2
        have hs := step_spec sh sh' e3
        rw [hv.1] at hs
        obtain ⟨L, eL, hL⟩ := stepT_refl gc.eta v'.den
        rw [eL] at hs
        obtain ⟨hh, hs⟩ := hs
        cases r with
        | none => cases hs
        | some l' =>
          obtain ⟨P, rfl, eP⟩ := hs
          cases eP
          dsimp only at h
          rw [← List.append_assoc] at h
          have hps' : ∀ p ∈ P ++ Ps, p.1.den = p.2.den := by
            intro p hp
            rcases List.mem_append.1 hp with hp | hp
            · exact hL (denP p) (List.mem_map_of_mem hp)
            · exact hps p hp
          obtain ⟨m', s1, h1, h2, h3⟩ := ih' (by omega) hps' h
          refine ⟨m', s1, ?_, ((o1.trans o2).trans (.of_eq hh)).trans h2, h3⟩
          simp only [List.length_cons, List.length_append] at h1 ⊢
          omega

omit ih in
theorem forall₂_PRel {P P' : List (STerm × STerm)} (h : List.Forall₂ PT (P.map denP) (P'.map denP)) :
    List.Forall₂ PRel P P' := by
  rw [List.forall₂_map_left_iff, List.forall₂_map_right_iff] at h
  refine h.imp fun p q h => ?_
  rcases h with h | h
  · exact .inl ⟨congrArg Prod.fst h, congrArg Prod.snd h⟩
  · exact .inr h

/-- the verdict depends only on the plain terms, up to exchanging the sides -/
theorem cv_sim {n m : Nat} (hn : n ≤ N + 1) (hm : m ≤ N + 1) {l l' : List (STerm × STerm)} (hl : List.Forall₂ PRel l l')
    {s1 s2 s1' s2' : St} {b b' : Bool} (h1 : (ops gc n).cv l s1 = .ok (b, s1')) (h2 : (ops gc m).cv l' s2 = .ok (b', s2')) :
    Old s1.heap s1'.heap ∧ Old s2.heap s2'.heap ∧ b = b' := by
  induction n using Nat.strongRecOn generalizing m l l' s1 s2 with
  | ind n ih' =>
    cases n with
    | zero => cases h1
    | succ n =>
    cases m with
    | zero => cases h2
    | succ m =>
    cases hl with
    | nil =>
      obtain ⟨rfl, rfl⟩ := pure_ok h1
      obtain ⟨rfl, rfl⟩ := pure_ok h2
      exact ⟨.of_eq rfl, .of_eq rfl, rfl⟩
    | @cons p q l l' hpq hl =>
      obtain ⟨t, u⟩ := p
      obtain ⟨t', u'⟩ := q
      by_cases hb : STerm.beq t u = true
      · have e := STerm.beq_eq _ _ hb
        subst e
        have e' : t'.den = u'.den := by
          rcases hpq with ⟨a, b⟩ | ⟨a, b⟩
          · exact a.symm.trans b
          · exact b.symm.trans a
        simp only [ops, cvBody, if_pos hb] at h1
        obtain ⟨m', s3, hm', o, h2⟩ := cv_consume ih hm (Ps := [(t', u')]) (by simpa using e') h2
        simp only [List.length_singleton] at hm'
        obtain ⟨o1, o2, e⟩ := ih' n (by omega) (by omega) (by omega) hl h1 h2
        exact ⟨o1, o.trans o2, e⟩
      · by_cases hb' : STerm.beq t' u' = true
        · have e := STerm.beq_eq _ _ hb'
          subst e
          have e' : t.den = u.den := by
            rcases hpq with ⟨a, b⟩ | ⟨a, b⟩
            · exact a.trans b.symm
            · exact a.trans b.symm
          simp only [ops, cvBody, if_pos hb'] at h2
          obtain ⟨n', s3, hn', o, h1⟩ := cv_consume ih hn (Ps := [(t, u)]) (by simpa using e') h1
          simp only [List.length_singleton] at hn'
          obtain ⟨o1, o2, e⟩ := ih' n' (by omega) (by omega) (by omega) hl h1 h2
          exact ⟨o.trans o1, o2, e⟩
        · simp only [ops, cvBody, if_neg hb] at h1
          simp only [ops, cvBody, if_neg hb'] at h2
          obtain ⟨v, x1, e1, h1⟩ := bind_ok' h1
          obtain ⟨w, x2, e2, h1⟩ := bind_ok' h1
          obtain ⟨r, x3, e3, h1⟩ := bind_ok' h1
          obtain ⟨v', y1, f1, h2⟩ := bind_ok' h2
          obtain ⟨w', y2, f2, h2⟩ := bind_ok' h2
          obtain ⟨r', y3, f3, h2⟩ := bind_ok' h2
          have hnm := ih n m (by omega) (by omega)
          have key : Old s1.heap x2.heap ∧ Old s2.heap y2.heap ∧ Sh v ∧ Sh w ∧ Sh v' ∧ Sh w' ∧
              Option.Rel (List.Forall₂ PT) (stepT gc.eta v.den w.den) (stepT gc.eta v'.den w'.den) := by
            rcases hpq with ⟨a, b⟩ | ⟨a, b⟩
            · obtain ⟨o1, o2, hv, sv, sv'⟩ := whnfTerm_sim hnm (P := False) False.elim ⟨a, False.elim⟩ e1 f1
              obtain ⟨o3, o4, hw, sw, sw'⟩ := whnfTerm_sim hnm (P := False) False.elim ⟨b, False.elim⟩ e2 f2
              refine ⟨o1.trans o3, o2.trans o4, sv, sw, sv', sw', ?_⟩
              rw [hv.1, hw.1]
              cases stepT gc.eta v'.den w'.den with
              | none => exact .none
              | some l => exact .some (forall₂_PT_refl l)
            · obtain ⟨o1, o4, hv, sv, sv'⟩ := whnfTerm_sim hnm (P := False) False.elim ⟨a, False.elim⟩ e1 f2
              obtain ⟨o3, o2, hw, sw, sw'⟩ := whnfTerm_sim hnm (P := False) False.elim ⟨b, False.elim⟩ e2 f1
              refine ⟨o1.trans o3, o2.trans o4, sv, sw, sw', sv', ?_⟩
              rw [hv.1, hw.1]
              exact stepT_swap _ _ _
          obtain ⟨o1, o2, sv, sw, sv', sw', key⟩ := key
          obtain ⟨k1, hs⟩ := step_spec sv sw e3
          obtain ⟨k2, hs'⟩ := step_spec sv' sw' f3
          have o1 := o1.trans (.of_eq k1)
          have o2 := o2.trans (.of_eq k2)
          cases r with
          | none =>
            cases r' with
            | none =>
              obtain ⟨rfl, rfl⟩ := pure_ok h1
              obtain ⟨rfl, rfl⟩ := pure_ok h2
              exact ⟨o1, o2, rfl⟩
            | some l2 =>
              obtain ⟨P, -, e⟩ := hs'
              dsimp only at hs
              rw [hs, e] at key
              cases key
          | some l1 =>
            obtain ⟨P, rfl, e⟩ := hs
            cases r' with
            | none =>
              dsimp only at hs'
              rw [hs', e] at key
              cases key
            | some l2 =>
              obtain ⟨P', rfl, e'⟩ := hs'
              rw [e, e'] at key
              cases key with
              | some key =>
                obtain ⟨o3, o4, e⟩ := ih' n (by omega) (by omega) (by omega) (List.rel_append (forall₂_PRel key) hl) h1 h2
                exact ⟨o1.trans o3, o2.trans o4, e⟩

end

/-- The evaluator run twice on terms and heaps that denote the same, with any two oracles and depths, gives results that denote
the same. -/
theorem simOps (gc : GCtx) (n m : Nat) : SimOps gc (ops gc n) (ops gc m) := by
  suffices ∀ N n m, n ≤ N → m ≤ N → SimOps gc (ops gc n) (ops gc m) from
    this (max n m) n m (Nat.le_max_left _ _) (Nat.le_max_right _ _)
  intro N
  induction N with
  | zero =>
    intro n m hn hm
    obtain rfl : n = 0 := by omega
    exact ⟨fun P hP w a b h => .timeout_l, fun P w a b h => .timeout_l, fun l l' h s1 s2 b s1' b' s2' h1 => by cases h1⟩
  | succ N ih =>
    intro n m hn hm
    refine ⟨fun P hP w a b h => Sim.wh ih hn hm hP h, fun P w a b h => ?_,
      fun l l' h s1 s2 b s1' b' s2' h1 h2 => cv_sim ih hn hm h h1 h2⟩
    cases n with
    | zero => exact .timeout_l
    | succ n =>
      cases m with
      | zero => exact .timeout_r
      | succ m => exact Sim.readBody (fun w a b h => (ih n m (by omega) (by omega)).rd P w a b h) h

end Kontroli
