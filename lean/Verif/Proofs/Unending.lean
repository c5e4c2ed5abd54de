import Verif.Spec.Unending
import Verif.Spec.Candidate
import Verif.Proofs.Arith
import Verif.Proofs.ArithEnds
import Verif.Proofs.Adequacy
import Verif.Proofs.Panic
import Verif.Proofs.Normal
import Verif.Proofs.Drops
import Verif.Proofs.Complete

/-! # Terms without weak-head normal form are not evaluated -/

namespace Kontroli

theorem Tri.cvBody_first {gc : GCtx} {G : Ghost} {q : ℚ} {o : Ops} (ho : OpsOk gc.rules gc.eta o) (t u : STerm) (hb : STerm.beq t u = false) (cns : List (STerm × STerm)) :
    TriG gc G q (Kontroli.cvBody gc o ((t, u) :: cns)) (fun _ => HasWhnf gc.rules gc.eta t.den ∧ HasWhnf gc.rules gc.eta u.den) := by
  unfold Kontroli.cvBody
  simp only [hb, Bool.false_eq_true, if_false]
  refine Tri.bind (Tri.whnfTerm ho t) ?_
  rintro G1 w1 - ⟨h1, h2, f1⟩
  refine Tri.bind (Tri.whnfTerm ho u) ?_
  rintro G2 w2 - ⟨h3, h4, f2⟩
  refine Tri.bind (Tri.step cns w1 w2 f1 f2) ?_
  intro G3 res _ _
  cases res with
  | none => exact Tri.pure ⟨⟨_, h1, h2⟩, _, h3, h4⟩
  | some cns' => exact (ho.cv G3 q cns').mono fun _ _ _ _ => ⟨⟨_, h1, h2⟩, _, h3, h4⟩

/-- A term without weak-head normal form is not evaluated with any fuel. -/
theorem whnf_timeout {gc : GCtx} {t : STerm} (h : ¬ HasWhnf gc.rules gc.eta t.den) (n : Nat) (rc : Nat → Bool) : whnf n gc t (St.init rc) = .timeout := by
  cases e : whnf n gc t (St.init rc) with
  | ok p => exact absurd ⟨p.1.den, TriG.ok (Tri.whnf gc n t) e⟩ h
  | err k => exact absurd e (NoErr.whnfTerm (opsNE gc n) t _ k)
  | panic => exact absurd e (TriG.noPanic (Tri.whnf gc n t))
  | timeout => rfl

/-- A term without weak-head normal form is not compared to another term with any fuel. -/
theorem convertible_timeout {gc : GCtx} {t u : STerm} (hb : t.den ≠ u.den) (h : ¬ (HasWhnf gc.rules gc.eta t.den ∧ HasWhnf gc.rules gc.eta u.den)) (n : Nat)
    (rc : Nat → Bool) : convertible n gc t u (St.init rc) = .timeout := by
  have hb' : STerm.beq t u = false := by
    cases e : STerm.beq t u with
    | false => rfl
    | true => exact absurd (congrArg STerm.den (STerm.beq_eq _ _ e)) hb
  cases n with
  | zero => rfl
  | succ n =>
    cases e : convertible (n + 1) gc t u (St.init rc) with
    | ok p => exact absurd (TriG.ok (Tri.cvBody_first (opsOk gc n) t u hb' []) e) h
    | err k => exact absurd e ((opsNE gc (n + 1)).cv _ _ k)
    | panic => exact absurd e (TriG.noPanic (Tri.convertible gc (n + 1) t u))
    | timeout => rfl

/-- the terms that `inf` reduces to -/
inductive InfTm : Tm → Prop
  | zero : InfTm (.const 19)
  | succ {t : Tm} : InfTm t → InfTm (.app (.const 1) t)

/-- the rules of nat.dk and inf.dk -/
abbrev infR : RuleMap := rulesOfCmds (natCmds ++ infCmds)

theorem infR_19 : infR 19 = some [infRule] := rfl
theorem infR_20 : infR 20 = some [toZeroRule] := rfl
theorem infR_1 : infR 1 = none := rfl

theorem InfTm.step {eta : Bool} {t u : Tm} (h : InfTm t) (hs : Step infR eta t u) : InfTm u := by
  induction h generalizing u with
  | zero =>
    generalize e : Tm.const 19 = t at hs
    cases hs with
    | rule h1 h2 h3 h4 h5 h6 =>
      obtain ⟨rfl, rfl⟩ := Tm.apps_const_inj (as := []) e
      rw [infR_19] at h1
      cases h1
      obtain rfl := List.mem_singleton.1 h2
      exact .succ .zero
    | _ => cases e
  | @succ t ht ih =>
    generalize e : Tm.app (.const 1) t = w at hs
    cases hs with
    | appL h =>
      cases e
      generalize e : Tm.const 1 = w at h
      cases h with
      | rule h1 =>
        obtain ⟨rfl, rfl⟩ := Tm.apps_const_inj (as := []) e
        cases h1
      | _ => cases e
    | appR h => cases e; exact .succ (ih h)
    | rule h1 =>
      obtain ⟨rfl, rfl⟩ := Tm.apps_const_inj (as := [t]) e
      cases h1
    | _ => cases e

theorem InfTm.toZero_step {eta : Bool} {t u : Tm} (h : InfTm t) (hs : Step infR eta (.app (.const 20) t) u) : ∃ t', InfTm t' ∧ u = .app (.const 20) t' := by
  generalize e : Tm.app (.const 20) t = w at hs
  cases hs with
  | appL h =>
    cases e
    generalize e : Tm.const 20 = w at h
    cases h with
    | rule h1 h2 _ h4 =>
      obtain ⟨rfl, rfl⟩ := Tm.apps_const_inj (as := []) e
      rw [infR_20] at h1
      cases h1
      obtain rfl := List.mem_singleton.1 h2
      cases h4.length
    | _ => cases e
  | appR h1 => cases e; exact ⟨_, h.step h1, rfl⟩
  | @rule s rs r σ ts bs h1 h2 h3 h4 h5 h6 =>
    obtain ⟨rfl, rfl⟩ := Tm.apps_const_inj (as := [t]) e
    rw [infR_20] at h1
    cases h1
    obtain rfl := List.mem_singleton.1 h2
    cases h4 with
    | cons k1 k2 =>
      cases k2
      cases k1 with
      | symb k1 =>
        cases k1 with
        | cons k1 k2 =>
          cases k2
          cases k1
          rename_i j
          have e0 : σ 0 = j := h5.1 0 j rfl
          refine ⟨j, ?_, ?_⟩
          · cases h with
            | succ h => exact h
          · show Tm.app (.const 20) (σ 0) = _
            rw [e0]
  | _ => cases e

theorem InfTm.toZero_red {eta : Bool} {t u : Tm} (h : InfTm t) (hr : Red infR eta (.app (.const 20) t) u) : ∃ t', InfTm t' ∧ u = .app (.const 20) t' := by
  have := hr.steps
  clear hr
  induction this with
  | refl => exact ⟨t, h, rfl⟩
  | tail _ h1 ih =>
    obtain ⟨t', h2, rfl⟩ := ih
    exact h2.toZero_step h1

theorem inf_not_whnf {eta : Bool} : ¬ Whnf infR eta (.const 19) := by
  intro h
  have h1 := Whnf.inv_const (ts := []) h _ _ infR_19 List.mem_cons_self
  cases h1 with
  | short h => cases h
  | unscoped h => exact h (by intro m; simp [infRule, Pattern.varsList])
  | clash h => cases h
  | apart hb hs => cases hb; cases hs

theorem InfTm.whnf {eta : Bool} {t : Tm} (h : InfTm t) (hw : Whnf infR eta t) : ∃ u, t = .app (.const 1) u := by
  cases h with
  | zero => exact absurd hw inf_not_whnf
  | succ h => exact ⟨_, rfl⟩

theorem InfTm.not_whnf {eta : Bool} {t : Tm} (h : InfTm t) : ¬ Whnf infR eta (.app (.const 20) t) := by
  intro hw
  have h1 := Whnf.inv_const (ts := [t]) hw _ _ infR_20 List.mem_cons_self
  cases h1 with
  | short h => exact absurd h (Nat.lt_irrefl 1)
  | unscoped h => exact h (by intro m; simp [toZeroRule, Pattern.varsList, Pattern.vars])
  | clash h1 =>
    cases h1 with
    | there h1 => cases h1
    | here h1 =>
      generalize e : t = t' at h1
      cases h1 with
      | head h2 h3 =>
        subst e
        obtain ⟨u, rfl⟩ := h.whnf h2
        exact h3 [u] rfl rfl
      | arg h2 h3 h4 =>
        cases h4 with
        | here h5 => cases h5
        | there h5 => cases h5
  | apart hb hs =>
    have h2 := hs.length_le
    generalize e : [t].take toZeroRule.lhs.args.length = ts at hb
    have e' : [t] = ts := e
    subst e'
    cases hb with
    | cons k1 k2 =>
      cases k2
      generalize e : t = t' at k1
      cases k1 with
      | symb k3 k4 =>
        cases k4 with
        | cons k5 k6 =>
          cases k6
          cases k5
          exact absurd h2 (by simp)

theorem InfTm.no_whnf {eta : Bool} {t : Tm} (h : InfTm t) : ¬ HasWhnf infR eta (.app (.const 20) t) := by
  rintro ⟨w, h1, h2⟩
  obtain ⟨t', h3, rfl⟩ := h.toZero_red h1
  exact h3.not_whnf h2

/-! ## The check of the last command -/

theorem Tri.exact {R : RuleMap} {eta : Bool} {G : Ghost} {q : ℚ} {α : Type} {m : M α} {Φ : Ghost → α → Prop} {P : α → Prop} (h : Tri R eta G q m Φ)
    (hp : ∀ s a s', m s = .ok (a, s') → P a) : Tri R eta G q m (fun G a => Φ G a ∧ P a) := by
  intro s hW
  have h1 := h s hW
  unfold wp at h1 ⊢
  cases e : m s with
  | ok r =>
    obtain ⟨a, s'⟩ := r
    rw [e] at h1
    obtain ⟨G', k1, k2, k3, k4⟩ := h1
    exact ⟨G', k1, k2, k3, k4, hp s a s' e⟩
  | err _ => trivial
  | panic => rw [e] at h1; exact h1
  | timeout => trivial

/-- a constant without rules, with its argument, is not changed by evaluation -/
theorem whnf_idle {gc : GCtx} {c : Sym} (hc : gc.rules c = none) {n : Nat} {x w : STerm} {s s' : St}
    (h : whnfTerm (ops gc n) (.scomb (.appl (.const c) [x])) s = .ok (w, s')) : w = .scomb (.appl (.const c) [x]) := by
  match n with
  | 0 => cases h
  | 1 => cases h
  | n + 2 =>
    simp [whnfTerm, ops, whnfBody, Comb.isWhnf, stepComb, newStates, M.bind, M.pure, newState, GCtx.getRules, hc, finish, readBody, psubstTerm, readArgs,
      readR, borrowState, applyArgs] at h
    exact h.1.symm

theorem whnf_idleL {gc : GCtx} {c : Sym} (hc : gc.rules c = none) {n : Nat} {x : LTerm} {w : STerm} {s s' : St}
    (h : whnfTerm (ops gc n) (STerm.ofL (.appl (.const c) [x])) s = .ok (w, s')) : w = .scomb (.appl (.const c) [STerm.ofL x]) := by
  match n with
  | 0 => cases h
  | 1 => cases h
  | n + 2 =>
    simp [LTerm.appl, STerm.ofL, SComb.ofL, whnfTerm, ops, whnfBody, Comb.isWhnf, stepComb, newStates, M.bind, M.pure, newState, GCtx.getRules, hc, finish, readBody, psubstTerm, readArgs,
      readR, borrowState, applyArgs] at h
    exact h.1.symm

theorem beq_false_of {t u : STerm} (h : t.den ≠ u.den) : STerm.beq t u = false := by
  cases e : STerm.beq t u with
  | false => rfl
  | true => exact absurd (congrArg STerm.den (STerm.beq_eq _ _ e)) h

/-- Applications of a constant without rules are not found to be convertible if an argument has no weak-head normal form. -/
theorem Tri.cv_idle {gc : GCtx} {G : Ghost} {q : ℚ} {c : Sym} (hc : gc.rules c = none) {x : STerm} {a : LTerm} (hd : x.den ≠ a.den)
    (hw : ¬ HasWhnf gc.rules gc.eta x.den) (n : Nat) :
    TriG gc G q ((ops gc n).cv [(.scomb (.appl (.const c) [x]), STerm.ofL (.appl (.const c) [a]))]) (fun _ => False) := by
  have hb : STerm.beq (.scomb (.appl (.const c) [x])) (STerm.ofL (.appl (.const c) [a])) = false := by
    refine beq_false_of fun h => hd ?_
    rw [STerm.den_ofL] at h
    have h : Tm.app (.const c) x.den = .app (.const c) a.den := h
    injection h
  match n with
  | 0 => exact Tri.timeout
  | 1 =>
    rw [show (ops gc 1).cv = Kontroli.cvBody gc (ops gc 0) from rfl]
    unfold Kontroli.cvBody
    simp only [hb, Bool.false_eq_true, if_false]
    exact Tri.bind (Tri.whnfTerm (opsOk gc 0) _) (fun _ _ _ _ => Tri.bind (Tri.timeout (Φ := fun _ _ => False)) fun _ _ _ h => h.elim)
  | n + 2 =>
    rw [show (ops gc (n + 2)).cv = Kontroli.cvBody gc (ops gc (n + 1)) from rfl]
    unfold Kontroli.cvBody
    simp only [hb, Bool.false_eq_true, if_false]
    refine Tri.bind (Tri.exact (Tri.whnfTerm (opsOk gc _) _) fun _ _ _ h => whnf_idle hc h) ?_
    rintro G1 w1 - ⟨⟨-, -, f1⟩, rfl⟩
    refine Tri.bind (Tri.exact (Tri.whnfTerm (opsOk gc _) _) fun _ _ _ h => whnf_idleL hc h) ?_
    rintro G2 w2 - ⟨⟨-, -, f2⟩, rfl⟩
    refine Tri.bind (Φ := fun _ r => r = some [(x, STerm.ofL a), (.const c, .const c)]) (Tri.pure rfl) ?_
    rintro G3 r - rfl
    refine (Tri.cvBody_first (opsOk gc n) x (STerm.ofL a) (beq_false_of (by rwa [STerm.den_ofL])) _).mono ?_
    rintro _ _ - ⟨h, -⟩
    exact hw h

/-- the type of `dep` is not changed by evaluation -/
theorem whnf_prod {gc : GCtx} {n : Nat} {x : Str} {A B : LTerm} {w : STerm} {s s' : St}
    (h : whnfTerm (ops gc n) (.lcomb (.prod x A B)) s = .ok (w, s')) : w = .lcomb (.prod x A B) := by
  match n with
  | 0 => cases h
  | n + 1 =>
    simp [whnfTerm, ops, whnfBody, Comb.isWhnf, M.bind, M.pure, finish, readBody, psubstTerm] at h
    exact h.1.symm

theorem subst_dep {c : Sym} {x w : STerm} {s s' : St} (h : subst (STerm.ofL (.appl (.const c) [.var 0])) x s = .ok (w, s')) :
    w = .scomb (.appl (.const c) [x]) := by
  simp [LTerm.appl, STerm.ofL, subst, applySubst, applySubstLC, applySubstL, applySubstLList, psubstSingle, shift, M.bind, M.pure] at h
  exact h.1.symm

/-- The check of `dep b : Dep a` does not answer if `b` has no weak-head normal form. -/
theorem Tri.check_dep {gc : GCtx} {G : Ghost} {q : ℚ} {c d e : Sym} {x : Str} (hc : gc.rules c = none)
    (ht : gc.types d = some (.comb (.prod x (.const e) (.appl (.const c) [.var 0])))) {a b : LTerm} (hd : b.den ≠ a.den)
    (hw : ¬ HasWhnf gc.rules gc.eta b.den) (n : Nat) :
    TriG gc G q (Kontroli.check n gc [] (STerm.ofL (.appl (.const d) [b])) (STerm.ofL (.appl (.const c) [a]))) (fun _ => False) := by
  unfold Kontroli.check
  match n with
  | 0 => exact Tri.timeout
  | 1 => exact fun s _ => (trivial : True)
  | 2 => exact fun s _ => (trivial : True)
  | n + 3 =>
    have hi : TriG gc G q ((iops gc (n + 2)).inf [] (STerm.ofL (.appl (.const d) [b]))) (fun r => r.1 = .scomb (.appl (.const c) [STerm.ofL b])) := by
      rw [show (iops gc (n + 2)).inf [] (STerm.ofL (.appl (.const d) [b])) =
        M.bind ((iops gc (n + 1)).inf [] (.const d)) fun r => Kontroli.inferArgs (ops gc (n + 1)) (iops gc (n + 1)) [STerm.ofL b] r.1 r.2 from rfl]
      rw [show (iops gc (n + 1)).inf [] (.const d) = M.bind (M.okOr .typeNotFound (gc.getType d)) fun t => M.pure (STerm.ofL t, []) from rfl]
      rw [show gc.getType d = _ from ht]
      refine Tri.bind (Φ := fun _ r => r = (.lcomb (.prod x (.const e) (.appl (.const c) [.var 0])), [])) (Tri.pure rfl) ?_
      rintro G1 r - rfl
      unfold Kontroli.inferArgs
      refine Tri.bind (Tri.exact (Tri.whnfTerm (opsOk gc _) _) fun _ _ _ h => whnf_prod h) ?_
      rintro G2 w - ⟨-, rfl⟩
      refine Tri.bind (Φ := fun _ p => p = (x, STerm.ofL (.const e), STerm.ofL (.appl (.const c) [.var 0]))) (Tri.pure rfl) ?_
      rintro G3 p - rfl
      refine Tri.bind ((iopsOk gc (n + 1)).chk G3 q _ _ _) ?_
      intro G4 r _ _
      refine Tri.ite (fun _ => ?_) fun _ => Tri.throw
      refine Tri.bind (Tri.exact (Tri.subst _ _) fun _ _ _ h => subst_dep h) ?_
      rintro G5 ty - ⟨-, rfl⟩
      exact Tri.pure rfl
    rw [show (iops gc (n + 3)).chk [] (STerm.ofL (.appl (.const d) [b])) (STerm.ofL (.appl (.const c) [a])) =
      M.bind ((iops gc (n + 2)).inf [] (STerm.ofL (.appl (.const d) [b]))) fun r =>
      M.bind ((ops gc (n + 2)).cv [(r.1, STerm.ofL (.appl (.const c) [a]))]) fun b => M.pure (b, r.2) from rfl]
    refine Tri.bind hi ?_
    intro G1 r _ hr
    rw [hr]
    exact Tri.bind (Tri.cv_idle hc (by rwa [STerm.den_ofL]) (by rwa [STerm.den_ofL]) _) fun _ _ _ h => h.elim

theorem infCmds_confluent {pre post : List Cmd} (h : natCmds ++ infCmds = pre ++ post) : Confluent (rulesOfCmds pre) := by
  have hp : pre = (natCmds ++ infCmds).take pre.length := by rw [h, List.take_left]
  have hl : pre.length ≤ 28 := by
    have := congrArg List.length h
    rw [List.length_append (as := pre), show (natCmds ++ infCmds).length = 28 from rfl] at this
    omega
  by_cases hk : pre.length ≤ 24
  · have h2 : natCmds = pre ++ natCmds.drop pre.length := by
      rw [List.take_append_of_le_length (show pre.length ≤ natCmds.length from hk)] at hp
      conv_lhs => rw [← List.take_append_drop pre.length natCmds, ← hp]
    exact natCmds_confluent h2
  generalize pre.length = k at hp hl hk
  subst hp
  have hf : ∀ r ∈ allRules (natCmds ++ infCmds), keepNat r = true ∨ r = facOne := by
    have e : allRules (natCmds ++ infCmds) = (allRules natCmds).take 16 ++ facOne :: (allRules (natCmds ++ infCmds)).drop 17 := rfl
    have h1 : ((allRules natCmds).take 16).all keepNat = true := by decide +kernel
    have h2 : ((allRules (natCmds ++ infCmds)).drop 17).all keepNat = true := by decide +kernel
    rw [List.all_eq_true] at h1 h2
    intro r hr
    rw [e, List.mem_append, List.mem_cons] at hr
    rcases hr with hr | hr | hr
    · exact .inl (h1 r hr)
    · exact .inr hr
    · exact .inl (h2 r hr)
  have hf : ∀ r ∈ allRules ((natCmds ++ infCmds).take k), keepNat r = true ∨ r = facOne := by
    intro r hr
    refine hf r ?_
    rw [← List.take_append_drop k (natCmds ++ infCmds)]
    simp only [allRules, List.flatMap_append, List.mem_append] at hr ⊢
    exact .inl hr
  have ho : ∀ k ∈ List.range 29, orthogonal (((natCmds ++ infCmds).take k).map stripNat) = true := by decide +kernel
  refine strip_confluent (ho k (List.mem_range.2 (by omega))) ?_ hf
  have hk : k = 25 ∨ k = 26 ∨ k = 27 ∨ k = 28 := by omega
  rcases hk with rfl | rfl | rfl | rfl <;>
    exact ⟨⟨_, rfl, .head _⟩, ⟨_, rfl, .head _⟩, ⟨_, rfl, .tail _ (.head _)⟩, ⟨_, rfl, .head _⟩, ⟨_, rfl, .tail _ (.head _)⟩,
      ⟨_, rfl, .head _⟩, ⟨_, rfl, .tail _ (.head _)⟩⟩

theorem infCmds_levelled : ∀ c ∈ natCmds ++ infCmds, c.Levelled := by
  have : ∀ c ∈ natCmds ++ infCmds, c.levelled = true := List.all_eq_true.1 (by decide +kernel)
  exact fun c hc => Cmd.levelled_sound (this c hc)

theorem infNum_tm (n : Nat) : InfTm (infNum n).den := by
  induction n with
  | zero => exact .zero
  | succ n ih => exact .succ ih

theorem infNum_annotated (n : Nat) : (infNum n).den.Annotated := by
  induction n with
  | zero => trivial
  | succ n ih => exact ⟨trivial, ih⟩

theorem infNum_inj {i j : Nat} (h : (infNum i).den = (infNum j).den) : i = j := by
  induction i generalizing j with
  | zero => cases j with
    | zero => rfl
    | succ j => cases h
  | succ i ih => cases j with
    | zero => cases h
    | succ j =>
      injection h with _ h
      rw [ih h]

theorem infNum_conv (n : Nat) : Conv infR false (infNum n).den (.const 19) := by
  induction n with
  | zero => exact .refl _
  | succ n ih =>
    refine .trans (.app (.refl _) ih) (.symm ?_)
    exact Rule.Of.conv (r := infRule) ⟨_, infR_19, List.mem_cons_self⟩ (by intro m; simp [infRule, Pattern.varsList]) Tm.var (ts := []) .nil rfl rfl

theorem toZero_conv (i j : Nat) : Conv infR false (toZero i).den (toZero j).den :=
  .app (.refl (.const 20)) ((infNum_conv i).trans (infNum_conv j).symm)

theorem toZero_no_whnf (eta : Bool) (i : Nat) : ¬ HasWhnf infR eta (toZero i).den := (infNum_tm i).no_whnf

theorem toZero_inj {i j : Nat} (h : (toZero i).den = (toZero j).den) : i = j := by
  have h : Tm.app (.const 20) (infNum i).den = .app (.const 20) (infNum j).den := h
  injection h with _ h
  exact infNum_inj h

/-- a definition with a type is accepted only if the check answers -/
theorem inferCheck_check {n : Nat} {rc : Nat → Bool} {opt : Opt} (ho : opt.omitted = none) {gc : GCtx} {s : Sym} {ty tm : LTerm}
    (h : (inferCheck (Kern.std n rc) opt gc (.intro s (.definition (some ty) (some tm)))).2 = .ok ()) :
    ∃ p, check n gc [] (STerm.ofL tm) (STerm.ofL ty) (St.init rc) = .ok p := by
  have hc : opt.omits .check = false := by rw [Opt.omits, ho]; rfl
  have e1 : (Kern.std n rc).intro gc (.definition (some ty) (some tm)) =
    (M.bind (infer n gc [] (STerm.ofL ty)) (fun _ => M.pure ((⟨[], ty, some tm⟩ : Typing), some (⟨[], ty, tm⟩ : Check))) (St.init rc)).value := rfl
  have e2 : (Kern.std n rc).check gc ⟨[], ty, tm⟩ =
    (M.bind (check n gc [] (STerm.ofL tm) (STerm.ofL ty)) (fun r => if r.1 then M.pure () else M.throw .unconvertible) (St.init rc)).value := rfl
  unfold inferCheck inferWith at h
  simp only [hc, Bool.false_eq_true, if_false] at h
  rw [e1] at h
  unfold M.bind at h
  cases ei : infer n gc [] (STerm.ofL ty) (St.init rc) with
  | ok r =>
    rw [ei] at h
    simp only [M.pure, Res.value, Res.out, Out.bind] at h
    rw [e2] at h
    unfold M.bind at h
    cases ec : check n gc [] (STerm.ofL tm) (STerm.ofL ty) (St.init rc) with
    | ok p => exact ⟨p, rfl⟩
    | err k => rw [ec] at h; simp [Res.value, Res.out] at h
    | panic => rw [ec] at h; simp [Res.value, Res.out] at h
    | timeout => rw [ec] at h; simp [Res.value, Res.out] at h
  | err k => rw [ei] at h; simp [Res.value, Res.out, Out.bind] at h
  | panic => rw [ei] at h; simp [Res.value, Res.out, Out.bind] at h
  | timeout => rw [ei] at h; simp [Res.value, Res.out, Out.bind] at h

section
variable {k : Kern} {opt : Opt} {gc : GCtx} (hk : k.Real) (ho : opt.omitted = none) (he : opt.eta = false)
variable (h : seqLoop k opt (GCtx.start opt.eta) ((natCmds ++ infCmds).map .ok) = (gc, .ok ()))

include hk he h in
theorem inf_gc : gc.eta = false ∧ gc.rules = infR := ⟨(seqLoop_grows h).eta.trans he, (seqLoop_rulesEq hk h).1⟩

include hk ho h in
theorem toZero_typed (Γ : List Tm) (i : Nat) : Strict gc.theory Γ (toZero i).den (.const 0) := by
  have h20 : gc.theory.ty 20 = some (.pi (.const 0) (.const 0)) := seqLoop_ty hk ho h 26 rfl rfl
  have h19 : gc.theory.ty 19 = some (.const 0) := seqLoop_ty hk ho h 24 rfl rfl
  have h1 : gc.theory.ty 1 = some (.pi (.const 0) (.const 0)) := seqLoop_ty hk ho h 1 rfl rfl
  refine .app (B := .const 0) (.const h20) ?_
  induction i with
  | zero => exact .const h19
  | succ i ih => exact .app (B := .const 0) (.const h1) ih

include hk ho h in
theorem dep_toZero (Γ : List Tm) (i : Nat) : Strict gc.theory Γ (.app (.const 17) (toZero i).den) .type := by
  have h17 : gc.theory.ty 17 = some (.pi (.const 0) .type) := seqLoop_ty hk ho h 22 rfl rfl
  exact .app (B := .type) (.const h17) (toZero_typed hk ho h Γ i)

include hk ho he h in
/-- the last command is right -/
theorem inf_right (i j : Nat) : Strict gc.theory [] (.app (.const 18) (toZero j).den) (.app (.const 17) (toZero i).den) := by
  have h18 : gc.theory.ty 18 = some (.pi (.const 0) (.app (.const 17) (.var 0))) := seqLoop_ty hk ho h 23 rfl rfl
  obtain ⟨h1, h2⟩ := inf_gc hk he h
  refine .conv (A := .app (.const 17) (toZero j).den) ?_ ?_ (dep_toZero hk ho h [] i) .type
  · exact .app (B := .app (.const 17) (.var 0)) (.const h18) (toZero_typed hk ho h [] j)
  · show Conv gc.rules gc.eta _ _
    rw [h1, h2]
    exact .app (.refl _) (toZero_conv j i)

include hk ho he h in
/-- it is not refused -/
theorem inf_complete {k' : Kern} (hk' : k'.Exact) {s : Sym} (hs : 20 < s) (i j : Nat) :
    (inferCheck k' opt gc (.intro s (infThm i j))).2 = .ok () ∨ (inferCheck k' opt gc (.intro s (infThm i j))).2 = .timeout := by
  obtain ⟨h1, h2⟩ := inf_gc hk he h
  have hcr : Confluent gc.rules := h2 ▸ infCmds_confluent (List.append_nil _).symm
  refine C44_command_complete gc (.plain h1 hcr) (seqLoop_cmds_levelled hk ho he (fun _ _ => infCmds_confluent) infCmds_levelled h)
    k' hk' opt _ (GCtx.eta_off h1) ⟨?_, ?_⟩ ?_ ⟨?_, ?_, ⟨.type, .type, ?_⟩, ?_⟩
  · rintro A ⟨⟩
    exact ⟨trivial, trivial, infNum_annotated i⟩
  · rintro t ⟨⟩
    exact ⟨trivial, trivial, infNum_annotated j⟩
  · rintro A ⟨⟩ hk
    exact hk.elim
  · exact (seqLoop_fresh hk ho h (by decide +kernel) hs).1
  · exact (seqLoop_fresh hk ho h (by decide +kernel) hs).2
  · exact dep_toZero hk ho h [] i
  · exact inf_right hk ho he h i j

include hk ho h in
/-- it is not accepted -/
theorem inf_never {s : Sym} {i j : Nat} (hij : i ≠ j) (n : Nat) (rc : Nat → Bool) :
    (inferCheck (Kern.std n rc) opt gc (.intro s (infThm i j))).2 ≠ .ok () := by
  intro hok
  obtain ⟨p, hp⟩ := inferCheck_check ho hok
  have h2 : gc.rules = infR := (seqLoop_rulesEq hk h).1
  obtain ⟨A, h3, h4⟩ := seqLoop_given hk ho h 23 rfl
  rw [h4.given _ rfl] at h3
  refine TriG.ok (Tri.check_dep (e := 0) (x := ['n']) (h2 ▸ rfl) h3 ?_ ?_ n) hp
  · exact fun e => hij (toZero_inj e).symm
  · rw [h2]
    exact toZero_no_whnf _ j

include hk ho he h in
/-- there is no answer -/
theorem inf_unending {s : Sym} (hs : 20 < s) {i j : Nat} (hij : i ≠ j) (n : Nat) (rc : Nat → Bool) :
    (inferCheck (Kern.std n rc) opt gc (.intro s (infThm i j))).2 = .timeout :=
  (inf_complete hk ho he h (Kern.std_exact n rc) hs i j).resolve_left (inf_never hk ho h hij n rc)

end

end Kontroli
