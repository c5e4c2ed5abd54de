import Verif.Spec.Arith
import Verif.Proofs.Overlap
import Verif.Props.Complete
import Verif.Props.Session

/-!
# What examples of the repository say: proofs
-/

namespace Kontroli

/-! ## Redundant rules -/

theorem Conv.mono_rules {R R' : RuleMap} (up : ∀ s rs r, R' s = some rs → r ∈ rs → ∃ rs', R s = some rs' ∧ r ∈ rs') {t u : Tm}
    (h : Conv R' false t u) : Conv R false t u := by
  induction h with
  | refl t => exact .refl t
  | symm _ ih => exact .symm ih
  | trans _ _ ih1 ih2 => exact .trans ih1 ih2
  | app _ _ ih1 ih2 => exact .app ih1 ih2
  | dlam _ ih => exact .dlam ih
  | annot A b => exact .annot A b
  | pi _ _ ih1 ih2 => exact .pi ih1 ih2
  | beta b a => exact .beta b a
  | eta h => cases h
  | rule h1 h2 h3 h4 =>
    obtain ⟨rs', k1, k2⟩ := up _ _ _ h1 h2
    exact .rule k1 k2 h3 h4

theorem RedA.mono_rules {R R' : RuleMap} (up : ∀ s rs r, R' s = some rs → r ∈ rs → ∃ rs', R s = some rs' ∧ r ∈ rs') {t u : Tm}
    (h : RedA R' t u) : RedA R t u := by
  induction h with
  | refl t => exact .refl t
  | trans _ _ ih1 ih2 => exact .trans ih1 ih2
  | app _ _ ih1 ih2 => exact .app ih1 ih2
  | lam _ _ ih1 ih2 => exact .lam ih1 ih2
  | dlam _ ih => exact .dlam ih
  | annot A b => exact .annot A b
  | pi _ _ ih1 ih2 => exact .pi ih1 ih2
  | beta b a => exact .beta b a
  | rule h1 h2 h3 h4 h5 h6 =>
    obtain ⟨rs', k1, k2⟩ := up _ _ _ h1 h2
    exact .rule k1 k2 h3 h4 ⟨h5.1, fun p hp => (h5.2 p hp).mono_rules up⟩ h6

/-- rules that follow from the others do not change conversion -/
theorem Conv.redundant {R R' : RuleMap}
    (down : ∀ s rs r, R s = some rs → r ∈ rs → (∃ rs', R' s = some rs' ∧ r ∈ rs') ∨
      ∀ σ ts, PInsts σ r.lhs.args ts → Conv R' false (Tm.apps (.const s) ts) (r.rhs.den.sub σ)) {t u : Tm}
    (h : Conv R false t u) : Conv R' false t u := by
  induction h with
  | refl t => exact .refl t
  | symm _ ih => exact .symm ih
  | trans _ _ ih1 ih2 => exact .trans ih1 ih2
  | app _ _ ih1 ih2 => exact .app ih1 ih2
  | dlam _ ih => exact .dlam ih
  | annot A b => exact .annot A b
  | pi _ _ ih1 ih2 => exact .pi ih1 ih2
  | beta b a => exact .beta b a
  | eta h => cases h
  | rule h1 h2 h3 h4 =>
    rcases down _ _ _ h1 h2 with ⟨rs', k1, k2⟩ | k
    · exact .rule k1 k2 h3 h4
    · exact k _ _ h4

theorem Confluent.redundant {R R' : RuleMap} (up : ∀ s rs r, R' s = some rs → r ∈ rs → ∃ rs', R s = some rs' ∧ r ∈ rs')
    (down : ∀ s rs r, R s = some rs → r ∈ rs → (∃ rs', R' s = some rs' ∧ r ∈ rs') ∨
      ∀ σ ts, PInsts σ r.lhs.args ts → Conv R' false (Tm.apps (.const s) ts) (r.rhs.den.sub σ))
    (h : Confluent R') : Confluent R := by
  intro t u htu
  obtain ⟨v, h1, h2⟩ := h t u (htu.redundant down)
  exact ⟨v, h1.mono_rules up, h2.mono_rules up⟩

/-! ## Terms that do not reduce -/

/-- made of products, applications and constants without rules -/
inductive Frozen (R : RuleMap) : Tm → Prop
  | const {c : Sym} : (∀ rs, R c = some rs → rs = []) → Frozen R (.const c)
  | app {f a : Tm} : Frozen R f → Frozen R a → Frozen R (.app f a)
  | pi {A B : Tm} : Frozen R A → Frozen R B → Frozen R (.pi A B)

theorem Frozen.head {R : RuleMap} {s : Sym} {ts : List Tm} (h : Frozen R (Tm.apps (.const s) ts)) : Frozen R (.const s) := by
  induction ts using List.reverseRecOn with
  | nil => exact h
  | append_singleton ts t ih =>
    rw [Tm.apps_snoc] at h
    cases h with
    | app h _ => exact ih h

theorem RedA.frozen {R : RuleMap} {t u : Tm} (h : RedA R t u) (ht : Frozen R t) : u = t := by
  induction h with
  | refl t => rfl
  | trans _ _ ih1 ih2 =>
    have := ih1 ht
    subst this
    exact ih2 ht
  | app _ _ ih1 ih2 =>
    cases ht with
    | app h1 h2 => rw [ih1 h1, ih2 h2]
  | lam => cases ht
  | dlam => cases ht
  | annot => cases ht
  | pi _ _ ih1 ih2 =>
    cases ht with
    | pi h1 h2 => rw [ih1 h1, ih2 h2]
  | beta b a =>
    cases ht with
    | app h1 _ => cases h1
  | rule h1 h2 _ _ _ _ =>
    cases ht.head with
    | const h =>
      rw [h _ h1] at h2
      cases h2

theorem Confluent.frozen {R : RuleMap} (h : Confluent R) {t u : Tm} (ht : Frozen R t) (hu : Frozen R u) (hc : Conv R false t u) : t = u := by
  obtain ⟨v, h1, h2⟩ := h t u hc
  rw [← h1.frozen ht, h2.frozen hu]

/-! ## Accepted sessions -/

theorem HasType.app_inv {T : Theory} {Γ : List Tm} {f a C : Tm} (h : HasType T Γ (.app f a) C) :
    ∃ A B, HasType T Γ f (.pi A B) ∧ HasType T Γ a A ∧ T.Conv (B.inst a) C := by
  generalize ht : Tm.app f a = t at h
  induction h with
  | app h1 h2 => cases ht; exact ⟨_, _, h1, h2, .refl _⟩
  | conv _ hc ih =>
    obtain ⟨A, B, h1, h2, h3⟩ := ih ht
    exact ⟨A, B, h1, h2, .trans h3 hc⟩
  | _ => cases ht

theorem HasType.const_inv {T : Theory} {Γ : List Tm} {c : Sym} {C : Tm} (h : HasType T Γ (.const c) C) : ∃ A, T.ty c = some A ∧ T.Conv A C := by
  generalize ht : Tm.const c = t at h
  induction h with
  | const h => cases ht; exact ⟨_, h, .refl _⟩
  | conv _ hc ih =>
    obtain ⟨A, h1, h2⟩ := ih ht
    exact ⟨A, h1, .trans h2 hc⟩
  | _ => cases ht


/-- the type of an application of a constant -/
theorem HasType.call {T : Theory} (hC : T.Church) {Γ : List Tm} {c : Sym} {a A B C : Tm} (hc : T.ty c = some (.pi A B)) (h : HasType T Γ (.app (.const c) a) C) :
    T.Conv (B.inst a) C := by
  obtain ⟨A', B', h1, -, h3⟩ := h.app_inv
  obtain ⟨D, h4, h5⟩ := h1.const_inv
  rw [hc] at h4
  cases h4
  exact .trans (Conv.sub (hC.pi h5).2 _) h3

/-- given types of an accepted session -/
theorem seqLoop_given {k : Kern} (hk : k.Real) {opt : Opt} (ho : opt.omitted = none) {gc : GCtx} {cmds : List Cmd}
    (h : seqLoop k opt (GCtx.start opt.eta) (cmds.map .ok) = (gc, .ok ())) {s : Sym} {it : Intro LTerm} (i : Nat)
    (hi : cmds[i]? = some (.intro s it)) : ∃ A, gc.types s = some A ∧ IntroJustified gc.theory it A := by
  obtain ⟨h1, -⟩ := C07_session_sound k hk opt ho (cmds.map .ok) gc (by rwa [inferChecksSeq_all ho])
  obtain ⟨hlt, hi⟩ := List.getElem?_eq_some_iff.1 hi
  have e : cmds = cmds.take i ++ .intro s it :: cmds.drop (i + 1) := by
    rw [← hi, List.getElem_cons_drop, List.take_append_drop]
  obtain ⟨-, A, -, -, h2, -, h3⟩ := h1 ((cmds.take i).map .ok) s it ((cmds.drop (i + 1)).map .ok) (by
    conv_lhs => rw [e]
    simp)
  exact ⟨A, h2, h3⟩

/-! ## `nat.dk` -/

/-- not the redundant rule -/
def keepNat (r : Rule) : Bool := match r.lhs.symbol, r.lhs.args with
  | 15, [.symb 1 [.symb 2 []]] => false
  | _, _ => true

/-- without the redundant rule -/
def stripNat : Cmd → Cmd
  | .rules rs => .rules (rs.filter keepNat)
  | c => c

/-- the rule is among the rules of its symbol -/
def Rule.Of (r : Rule) (R : RuleMap) : Prop := ∃ rs, R r.lhs.symbol = some rs ∧ r ∈ rs

theorem Rule.Of.conv {R : RuleMap} {r : Rule} (h : r.Of R) (hs : r.Scoped) (σ : Nat → Tm) {ts : List Tm} (hi : PInsts σ r.lhs.args ts) {t u : Tm}
    (ht : t = Tm.apps (.const r.lhs.symbol) ts) (hu : u = r.rhs.den.sub σ) : Conv R false t u := by
  obtain ⟨rs, h1, h2⟩ := h
  rw [ht, hu]
  exact .rule h1 h2 hs hi

theorem pinst_const {σ : Nat → Tm} {c : Sym} : PInst σ (.symb c []) (.const c) := .symb (ts := []) .nil

theorem pinst_app {σ : Nat → Tm} {c : Sym} {p : Pattern} {t : Tm} (h : PInst σ p t) : PInst σ (.symb c [p]) (.app (.const c) t) :=
  .symb (ts := [t]) (.cons h .nil)

/-- two variables -/
def twoSub (x y : Tm) : Nat → Tm
  | 0 => x
  | _ => y

/-- `f 0 X --> t` -/
def zeroRule (f : Sym) (t : LTerm) : Rule := ⟨[(['X'], none)], ⟨f, [.symb 2 [], .mvar 0]⟩, t⟩

/-- `f (succ X) Y --> t` -/
def succRule (f : Sym) (t : LTerm) : Rule := ⟨[(['X'], none), (['Y'], none)], ⟨f, [.symb 1 [.mvar 1], .mvar 0]⟩, t⟩

theorem zeroRule_conv {R : RuleMap} {f : Sym} {t : LTerm} (h : (zeroRule f t).Of R) (y : Tm) :
    Conv R false (.app (.app (.const f) (.const 2)) y) (t.den.sub fun _ => y) := by
  refine h.conv (fun m => ?_) (fun _ => y) (ts := [.const 2, y]) (.cons pinst_const (.cons (.mvar 0) .nil)) rfl rfl
  simp [zeroRule, Pattern.varsList, Pattern.vars]

theorem succRule_conv {R : RuleMap} {f : Sym} {t : LTerm} (h : (succRule f t).Of R) (x y : Tm) :
    Conv R false (.app (.app (.const f) (.app (.const 1) x)) y) (t.den.sub (twoSub y x)) := by
  refine h.conv (fun m => ?_) (twoSub y x) (ts := [.app (.const 1) x, y]) (.cons (pinst_app (.mvar 1)) (.cons (.mvar 0) .nil)) rfl rfl
  simp only [succRule, Pattern.varsList, Pattern.vars, List.append_nil, List.cons_append, List.nil_append, List.mem_cons, List.not_mem_nil, or_false,
    List.length_cons, List.length_nil]
  omega

/-- the rules of `nat.dk` for addition, multiplication, factorials and the number one, except for the redundant one -/
structure NatRules (R : RuleMap) : Prop where
  one : Rule.Of ⟨[], ⟨3, []⟩, .natSucc (.const 2)⟩ R
  add0 : (zeroRule 12 (.var 0)).Of R
  addS : (succRule 12 (.natSucc (.appl (.const 12) [.var 1, .var 0]))).Of R
  mul0 : (zeroRule 13 (.const 2)).Of R
  mulS : (succRule 13 (.appl (.const 12) [.var 0, .appl (.const 13) [.var 1, .var 0]])).Of R
  fac0 : Rule.Of ⟨[], ⟨15, [.symb 2 []]⟩, .const 3⟩ R
  facS : Rule.Of ⟨[(['X'], none)], ⟨15, [.symb 1 [.mvar 0]]⟩, .appl (.const 13) [.natSucc (.var 0), .appl (.const 15) [.var 0]]⟩ R

section

variable {R : RuleMap}

/-- a number as a term -/
def num : Nat → Tm
  | 0 => .const 2
  | n + 1 => .app (.const 1) (num n)

theorem NatRules.one_conv (h : NatRules R) : Conv R false (.const 3) (num 1) :=
  h.one.conv (fun m => by simp [Pattern.varsList]) .var (ts := []) .nil rfl rfl

theorem Conv.app2 {f x y x' y' : Tm} (h : Conv R false x x') (h' : Conv R false y y') : Conv R false (.app (.app f x) y) (.app (.app f x') y') :=
  .app (.app (.refl f) h) h'

theorem NatRules.add_conv (h : NatRules R) (m n : Nat) : Conv R false (.app (.app (.const 12) (num m)) (num n)) (num (m + n)) := by
  induction m with
  | zero =>
    rw [Nat.zero_add]
    exact zeroRule_conv h.add0 (num n)
  | succ m ih =>
    rw [Nat.succ_add]
    exact .trans (succRule_conv h.addS (num m) (num n)) (.app (.refl _) ih)

theorem NatRules.mul_conv (h : NatRules R) (m n : Nat) : Conv R false (.app (.app (.const 13) (num m)) (num n)) (num (m * n)) := by
  induction m with
  | zero =>
    rw [Nat.zero_mul]
    exact zeroRule_conv h.mul0 (num n)
  | succ m ih =>
    rw [Nat.succ_mul, Nat.add_comm (m * n)]
    refine .trans (succRule_conv h.mulS (num m) (num n)) (.trans ?_ (h.add_conv n (m * n)))
    exact .app2 (.refl _) ih

theorem NatRules.fac_conv (h : NatRules R) (n : Nat) : Conv R false (.app (.const 15) (num n)) (num n.factorial) := by
  induction n with
  | zero => exact .trans (h.fac0.conv (fun m => by simp [Pattern.varsList, Pattern.vars]) .var (ts := [.const 2]) (.cons pinst_const .nil) rfl rfl) h.one_conv
  | succ n ih =>
    refine .trans (h.facS.conv (fun m => by simp [Pattern.varsList, Pattern.vars]) (fun _ => num n) (ts := [num (n + 1)])
      (.cons (pinst_app (.mvar 0)) .nil) rfl rfl) (.trans ?_ (h.mul_conv (n + 1) n.factorial))
    exact .app2 (.refl _) ih

end

theorem stripNat_rules (cmds : List Cmd) (s : Sym) : rulesOfCmds (cmds.map stripNat) s = (rulesOfCmds cmds s).map (·.filter keepNat) := by
  induction cmds using List.reverseRecOn with
  | nil => rfl
  | append_singleton cmds cmd ih =>
    rw [List.map_append, List.map_singleton, rulesOfCmds_snoc, rulesOfCmds_snoc]
    cases cmd with
    | intro c it =>
      simp only [stripNat]
      split
      · cases it with
        | definition ty tm =>
          cases tm with
          | none => rfl
          | some tm =>
            have : keepNat ⟨[], ⟨c, []⟩, tm⟩ = true := by
              unfold keepNat
              split
              · next e => cases e
              · rfl
            simp [Intro.ruleList, this]
        | theorem_ ty tm => rfl
        | declaration inj ty => cases inj <;> rfl
      · exact ih
    | rules rs =>
      simp only [stripNat]
      rw [ih]
      cases rulesOfCmds cmds s with
      | none => rfl
      | some l => simp [List.filter_filter, Bool.and_comm]

/-- the rule for `fac (succ 0)` is redundant -/
theorem strip_confluent {cmds : List Cmd} (ho : orthogonal (cmds.map stripNat) = true) (hN : NatRules (rulesOfCmds (cmds.map stripNat)))
    (hf : ∀ r ∈ allRules cmds, keepNat r = true ∨ r = facOne) : Confluent (rulesOfCmds cmds) := by
  refine Confluent.redundant (R' := rulesOfCmds (cmds.map stripNat)) ?_ ?_ (orthogonal_sound ho).confluent
  · intro s rs r h1 h2
    rw [stripNat_rules, Option.map_eq_some_iff] at h1
    obtain ⟨l, h1, rfl⟩ := h1
    exact ⟨l, h1, (List.mem_filter.1 h2).1⟩
  · intro s rs r h1 h2
    obtain ⟨h3, h4⟩ := rulesOfCmds_mem h1 h2
    rcases hf r h3 with h5 | rfl
    · left
      exact ⟨_, by rw [stripNat_rules, h1]; rfl, List.mem_filter.2 ⟨h2, h5⟩⟩
    · right
      intro σ ts hi
      cases h4
      cases hi with
      | cons h h' =>
        cases h'
        generalize hp : Pattern.symb 1 [.symb 2 []] = p at h
        cases h with
        | mvar => cases hp
        | joker => cases hp
        | symb h =>
          cases hp
          cases h with
          | cons h h' =>
            cases h'
            generalize hp : Pattern.symb 2 [] = p at h
            cases h with
            | mvar => cases hp
            | joker => cases hp
            | symb h =>
              cases hp
              cases h
              exact .trans (hN.fac_conv 1) (.symm hN.one_conv)

theorem natCmds_confluent {pre post : List Cmd} (h : natCmds = pre ++ post) : Confluent (rulesOfCmds pre) := by
  have hp : pre = natCmds.take pre.length := by rw [h, List.take_left]
  have hl : pre.length ≤ 24 := by
    have := congrArg List.length h
    rw [List.length_append, show natCmds.length = 24 from rfl] at this
    omega
  generalize pre.length = k at hp hl
  subst hp
  have hf : ∀ r ∈ allRules natCmds, keepNat r = true ∨ r = facOne := by
    have e : allRules natCmds = (allRules natCmds).take 16 ++ facOne :: (allRules natCmds).drop 17 := rfl
    have h1 : ((allRules natCmds).take 16).all keepNat = true := by decide +kernel
    have h2 : ((allRules natCmds).drop 17).all keepNat = true := by decide +kernel
    rw [List.all_eq_true] at h1 h2
    intro r hr
    rw [e, List.mem_append, List.mem_cons] at hr
    rcases hr with hr | hr | hr
    · exact .inl (h1 r hr)
    · exact .inr hr
    · exact .inl (h2 r hr)
  have hf : ∀ r ∈ allRules (natCmds.take k), keepNat r = true ∨ r = facOne := by
    intro r hr
    refine hf r ?_
    rw [← List.take_append_drop k natCmds]
    simp only [allRules, List.flatMap_append, List.mem_append] at hr ⊢
    exact .inl hr
  by_cases hk : k < 20
  · have : ∀ k ∈ List.range 20, orthogonal (natCmds.take k) = true := by decide +kernel
    exact (orthogonal_sound (this k (List.mem_range.2 hk))).confluent
  · have ho : ∀ k ∈ List.range 25, orthogonal ((natCmds.take k).map stripNat) = true := by decide +kernel
    refine strip_confluent (ho k (List.mem_range.2 (by omega))) ?_ hf
    have hk : k = 20 ∨ k = 21 ∨ k = 22 ∨ k = 23 ∨ k = 24 := by omega
    rcases hk with rfl | rfl | rfl | rfl | rfl <;>
      exact ⟨⟨_, rfl, .head _⟩, ⟨_, rfl, .head _⟩, ⟨_, rfl, .tail _ (.head _)⟩, ⟨_, rfl, .head _⟩, ⟨_, rfl, .tail _ (.head _)⟩,
        ⟨_, rfl, .head _⟩, ⟨_, rfl, .tail _ (.head _)⟩⟩

/-- a test for small terms -/
def Tm.isSmall : Tm → Bool
  | .kind => false
  | .type => false
  | .const _ => true
  | .var _ => true
  | .app f a => f.isSmall && a.isSmall
  | .lam A b => A.isSmall && b.isSmall
  | .dlam b => b.isSmall
  | .pi A B => A.isSmall && B.isSmall

theorem Tm.isSmall_iff {t : Tm} : t.isSmall = true ↔ t.Small := by
  induction t <;> simp_all [Tm.isSmall, Tm.Small]

theorem Tm.Small.notKind {t : Tm} (h : t.Small) : ¬ t.IsKind := by
  induction t with
  | pi A B _ ih => exact fun hk => ih h.2 hk.2
  | type => exact h.elim
  | _ => exact fun hk => hk.elim

/-- a test for terms that are written as kinds -/
def LTerm.kindForm : LTerm → Bool
  | .type => true
  | .comb (.prod _ _ b) => LTerm.kindForm b
  | _ => false

theorem LTerm.kindForm_sound : (t : LTerm) → t.kindForm = true → t.KindForm
  | .type, _ => trivial
  | .comb (.prod _ _ b), h => by
    rw [LTerm.kindForm] at h
    exact LTerm.kindForm_sound b h
  | .const _, h => by simp [LTerm.kindForm] at h
  | .var _, h => by simp [LTerm.kindForm] at h
  | .comb (.appl _ _), h => by simp [LTerm.kindForm] at h
  | .comb (.abst _ _ _), h => by simp [LTerm.kindForm] at h

/-- a test for levels -/
def Cmd.levelled : Cmd → Bool
  | .intro _ it => match it.given with
    | some A => A.den.isSmall || A.kindForm
    | none => true
  | .rules rs => rs.all fun r => r.rhs.den.isSmall && match r.toT with
    | some t => t.ctx.all fun A => A.den.isSmall
    | none => true

theorem Cmd.levelled_sound {c : Cmd} (h : c.levelled = true) : c.Levelled := by
  cases c with
  | intro s it =>
    intro A hA hk
    simp only [Cmd.levelled, hA, Bool.or_eq_true, Tm.isSmall_iff] at h
    exact h.elim (fun h => absurd hk h.notKind) (LTerm.kindForm_sound A)
  | rules rs =>
    intro r hr
    simp only [Cmd.levelled, List.all_eq_true, Bool.and_eq_true, Tm.isSmall_iff] at h
    obtain ⟨h1, h2⟩ := h r hr
    refine ⟨fun t ht A hA => ?_, fun _ => h1⟩
    rw [ht] at h2
    simp only [List.all_eq_true, Tm.isSmall_iff] at h2
    exact h2 A hA

theorem natCmds_levelled : ∀ c ∈ natCmds, c.Levelled := by
  have : ∀ c ∈ natCmds, c.levelled = true := List.all_eq_true.1 (by decide +kernel)
  exact fun c hc => Cmd.levelled_sound (this c hc)

/-! ## The values of expressions -/

theorem natRules : NatRules (rulesOfCmds natCmds) :=
  ⟨⟨_, rfl, .head _⟩, ⟨_, rfl, .head _⟩, ⟨_, rfl, .tail _ (.head _)⟩, ⟨_, rfl, .head _⟩, ⟨_, rfl, .tail _ (.head _)⟩,
    ⟨_, rfl, .head _⟩, ⟨_, rfl, .tail _ (.tail _ (.head _))⟩⟩

/-- the rules of `nat.dk` -/
abbrev natR : RuleMap := rulesOfCmds natCmds

theorem exp_conv (m n : Nat) : Conv natR false (.app (.app (.const 14) (num m)) (num n)) (num (n ^ m)) := by
  induction m with
  | zero =>
    rw [Nat.pow_zero]
    exact .trans (zeroRule_conv (f := 14) (t := .const 3) ⟨_, rfl, .head _⟩ (num n)) natRules.one_conv
  | succ m ih =>
    rw [Nat.pow_succ, Nat.mul_comm (n ^ m)]
    refine .trans (succRule_conv (f := 14) (t := .appl (.const 13) [.var 0, .appl (.const 14) [.var 1, .var 0]]) ⟨_, rfl, .tail _ (.head _)⟩ (num m) (num n))
      (.trans ?_ (natRules.mul_conv n (n ^ m)))
    exact .app2 (.refl _) ih

theorem fib_conv (n : Nat) : Conv natR false (.app (.const 16) (num n)) (num (Nat.fib n)) ∧
    Conv natR false (.app (.const 16) (num (n + 1))) (num (Nat.fib (n + 1))) := by
  induction n with
  | zero =>
    have h0 : Rule.Of ⟨[], ⟨16, [.symb 2 []]⟩, .const 2⟩ natR := ⟨_, rfl, .head _⟩
    have h1 : Rule.Of ⟨[], ⟨16, [.symb 1 [.symb 2 []]]⟩, .const 3⟩ natR := ⟨_, rfl, .tail _ (.head _)⟩
    refine ⟨h0.conv (fun m => by simp [Pattern.varsList, Pattern.vars]) .var (ts := [.const 2]) (.cons pinst_const .nil) rfl rfl, ?_⟩
    exact .trans (h1.conv (fun m => by simp [Pattern.varsList, Pattern.vars]) .var (ts := [num 1]) (.cons (pinst_app pinst_const) .nil) rfl rfl) natRules.one_conv
  | succ n ih =>
    refine ⟨ih.2, ?_⟩
    have h2 : Rule.Of ⟨[(['X'], none)], ⟨16, [.symb 1 [.symb 1 [.mvar 0]]]⟩,
        .appl (.const 12) [.appl (.const 16) [.natSucc (.var 0)], .appl (.const 16) [.var 0]]⟩ natR := ⟨_, rfl, .tail _ (.tail _ (.head _))⟩
    rw [Nat.fib_add_two, Nat.add_comm (Nat.fib n)]
    refine .trans (h2.conv (fun m => by simp [Pattern.varsList, Pattern.vars]) (fun _ => num n) (ts := [num (n + 2)])
      (.cons (pinst_app (pinst_app (.mvar 0))) .nil) rfl rfl) (.trans ?_ (natRules.add_conv _ _))
    exact .app2 ih.2 ih.1

theorem digit_conv (i : Nat) (hi : i < 9) : Conv natR false (.const (i + 3)) (num (i + 1)) := by
  induction i with
  | zero => exact natRules.one_conv
  | succ i ih =>
    have h : Rule.Of ⟨[], ⟨i + 4, []⟩, .natSucc (.const (i + 3))⟩ natR := by
      have hi : i = 0 ∨ i = 1 ∨ i = 2 ∨ i = 3 ∨ i = 4 ∨ i = 5 ∨ i = 6 ∨ i = 7 := by omega
      rcases hi with rfl | rfl | rfl | rfl | rfl | rfl | rfl | rfl <;> exact ⟨_, rfl, .head _⟩
    exact .trans (h.conv (fun m => by simp [Pattern.varsList]) .var (ts := []) .nil rfl rfl) (.app (.refl _) (ih (by omega)))

/-- every expression is equal to the numeral of its value -/
theorem NExp.conv (e : NExp) : Conv natR false e.term.den (num e.val) := by
  induction e with
  | zero => exact .refl _
  | succ e ih => exact .app (.refl _) ih
  | digit i => exact digit_conv i i.2
  | add e e' ih ih' => exact .trans (.app2 ih ih') (natRules.add_conv _ _)
  | mul e e' ih ih' => exact .trans (.app2 ih ih') (natRules.mul_conv _ _)
  | exp e e' ih ih' => exact .trans (.app2 ih ih') (exp_conv _ _)
  | fac e ih => exact .trans (.app (.refl _) ih) (natRules.fac_conv _)
  | fib e ih => exact .trans (.app (.refl _) ih) (fib_conv _).1

theorem num_frozen (n : Nat) : Frozen natR (num n) := by
  induction n with
  | zero => exact .const fun rs h => by cases h
  | succ n ih => exact .app (.const fun rs h => by cases h) ih

theorem num_inj {m n : Nat} (h : num m = num n) : m = n := by
  induction m generalizing n with
  | zero => cases n with
    | zero => rfl
    | succ n => cases h
  | succ m ih => cases n with
    | zero => cases h
    | succ n =>
      simp only [num, Tm.app.injEq, true_and] at h
      rw [ih h]

theorem natR_confluent : Confluent natR := natCmds_confluent (List.append_nil _).symm

theorem NExp.conv_iff (e e' : NExp) : Conv natR false e.term.den e'.term.den ↔ e.val = e'.val := by
  constructor
  · intro h
    exact num_inj (natR_confluent.frozen (num_frozen _) (num_frozen _) (.trans (.symm e.conv) (.trans h e'.conv)))
  · intro h
    exact .trans e.conv (.trans (h ▸ .refl _) (.symm e'.conv))

/-- the same for `Dep` -/
theorem NExp.dep_iff (e e' : NExp) : Conv natR false (.app (.const 17) e.term.den) (.app (.const 17) e'.term.den) ↔ e.val = e'.val := by
  constructor
  · intro h
    have hd : Frozen natR (.const 17) := .const fun rs h => by cases h
    have := natR_confluent.frozen (.app hd (num_frozen _)) (.app hd (num_frozen _))
      (.trans (.app (.refl _) (.symm e.conv)) (.trans h (.app (.refl _) e'.conv)))
    simp only [Tm.app.injEq, true_and] at this
    exact num_inj this
  · intro h
    exact .app (.refl _) ((e.conv_iff e').2 h)


/-! ## Typing in `nat.dk` -/

section

variable {k : Kern} {opt : Opt} {gc : GCtx}

theorem seqLoop_fresh {k : Kern} (hk : k.Real) {opt : Opt} (ho : opt.omitted = none) {gc : GCtx} {cmds : List Cmd}
    (h : seqLoop k opt (GCtx.start opt.eta) (cmds.map .ok) = (gc, .ok ())) {n s : Nat}
    (hn : cmds.all (fun c => match c with | .intro s _ => decide (s ≤ n) | .rules _ => true) = true) (hs : n < s) :
    gc.types s = none ∧ gc.rules s = none := by
  have h1 : gc.types s = none := by
    have := (C07_session_sound k hk opt ho (cmds.map .ok) gc (by rwa [inferChecksSeq_all ho])).2.1 s
    cases ht : gc.types s with
    | none => rfl
    | some A =>
      rw [ht] at this
      obtain ⟨it, hm⟩ := this.1 rfl
      obtain ⟨c, h3, h4⟩ := List.mem_map.1 hm
      cases h4
      have := of_decide_eq_true (List.all_eq_true.1 hn _ h3)
      exact absurd this (Nat.not_le.2 hs)
  exact ⟨h1, (seqLoop_rulesEq hk h).2 s h1⟩

theorem seqLoop_cmds_levelled {k : Kern} (hk : k.Real) {opt : Opt} (ho : opt.omitted = none) (he : opt.eta = false) {gc : GCtx} {cmds : List Cmd}
    (hcr : ∀ pre post, cmds = pre ++ post → Confluent (rulesOfCmds pre)) (hl : ∀ c ∈ cmds, c.Levelled)
    (h : seqLoop k opt (GCtx.start opt.eta) (cmds.map .ok) = (gc, .ok ())) : gc.Levelled := by
  refine seqLoop_levelled hk (by simp [Opt.omits, ho]) he (GCtx.start_levelled _) ?_ ?_ h
  · intro c hc
    obtain ⟨c', h1, h2⟩ := List.mem_map.1 hc
    cases h2
    exact hl _ h1
  · intro pre post gci e _ h1
    obtain ⟨pre', post', e1, rfl, rfl⟩ := List.map_eq_append_iff.1 e
    rw [(seqLoop_rulesEq hk h1).1]
    exact hcr _ _ e1

theorem theory_ty {gc : GCtx} {s : Sym} {A : LTerm} (h : gc.types s = some A) : gc.theory.ty s = some A.den := by
  simp [GCtx.theory, h]

theorem seqLoop_ty (hk : k.Real) (ho : opt.omitted = none) {cmds : List Cmd}
    (h : seqLoop k opt (GCtx.start opt.eta) (cmds.map .ok) = (gc, .ok ())) {s : Sym} {it : Intro LTerm} {A : LTerm} (i : Nat)
    (hi : cmds[i]? = some (.intro s it)) (hA : it.given = some A) : gc.theory.ty s = some A.den := by
  obtain ⟨A', h1, h2⟩ := seqLoop_given hk ho h i hi
  rw [h2.given A hA] at h1
  exact theory_ty h1

variable (hk : k.Real) (ho : opt.omitted = none) (he : opt.eta = false)
variable (h : seqLoop k opt (GCtx.start opt.eta) (natCmds.map .ok) = (gc, .ok ()))

include hk he h in
theorem nat_church : gc.eta = false ∧ gc.rules = natR ∧ gc.theory.Church ∧ ∀ t u, gc.theory.Conv t u ↔ Conv natR false t u := by
  have h1 := (seqLoop_rulesEq hk h).1
  have h2 : gc.eta = false := (seqLoop_grows h).eta.trans he
  refine ⟨h2, h1, .plain h2 (show Confluent gc.rules from h1 ▸ natR_confluent), fun t u => ?_⟩
  show Conv gc.rules gc.eta t u ↔ _
  rw [h1, h2]

include hk ho he h in
theorem nat_digit {Γ : List Tm} {n : Nat} (hn : n < 9) (ih : Strict gc.theory Γ (.const (n + 2)) (.const 0)) : Strict gc.theory Γ (.const (n + 3)) (.const 0) := by
  obtain ⟨-, -, hC, hconv⟩ := nat_church hk he h
  have hi : natCmds[n + 3]? = some (.intro (n + 3) (.definition none (some (.natSucc (.const (n + 2)))))) := by
    have hi : n = 0 ∨ n = 1 ∨ n = 2 ∨ n = 3 ∨ n = 4 ∨ n = 5 ∨ n = 6 ∨ n = 7 ∨ n = 8 := by omega
    rcases hi with rfl | rfl | rfl | rfl | rfl | rfl | rfl | rfl | rfl <;> rfl
  obtain ⟨A, h1, h2⟩ := seqLoop_given hk ho h _ hi
  have h3 := h2.body _ rfl
  have hs : gc.theory.ty 1 = some (.pi (.const 0) (.const 0)) := seqLoop_ty hk ho h 1 rfl rfl
  have h4 : gc.theory.Conv (.const 0) A.den := HasType.call hC hs h3
  have hN : gc.theory.ty 0 = some .type := seqLoop_ty hk ho h 0 rfl rfl
  exact .conv (.const (theory_ty h1)) h4.symm (.const hN) .type

include hk ho he h in
theorem NExp.typed (e : NExp) (Γ : List Tm) : Strict gc.theory Γ e.term.den (.const 0) := by
  have hs : gc.theory.ty 1 = some (.pi (.const 0) (.const 0)) := seqLoop_ty hk ho h 1 rfl rfl
  have h0 : gc.theory.ty 2 = some (.const 0) := seqLoop_ty hk ho h 2 rfl rfl
  have h12 : gc.theory.ty 12 = some (.pi (.const 0) (.pi (.const 0) (.const 0))) := seqLoop_ty hk ho h 12 rfl rfl
  have h13 : gc.theory.ty 13 = some (.pi (.const 0) (.pi (.const 0) (.const 0))) := seqLoop_ty hk ho h 14 rfl rfl
  have h14 : gc.theory.ty 14 = some (.pi (.const 0) (.pi (.const 0) (.const 0))) := seqLoop_ty hk ho h 16 rfl rfl
  have h15 : gc.theory.ty 15 = some (.pi (.const 0) (.const 0)) := seqLoop_ty hk ho h 18 rfl rfl
  have h16 : gc.theory.ty 16 = some (.pi (.const 0) (.const 0)) := seqLoop_ty hk ho h 20 rfl rfl
  have app1 : ∀ {f a : Tm}, Strict gc.theory Γ f (.pi (.const 0) (.const 0)) → Strict gc.theory Γ a (.const 0) → Strict gc.theory Γ (.app f a) (.const 0) :=
    fun hf ha => .app (B := .const 0) hf ha
  have app2 : ∀ {f a b : Tm}, Strict gc.theory Γ f (.pi (.const 0) (.pi (.const 0) (.const 0))) → Strict gc.theory Γ a (.const 0) →
      Strict gc.theory Γ b (.const 0) → Strict gc.theory Γ (.app (.app f a) b) (.const 0) :=
    fun hf ha hb => app1 (.app (B := .pi (.const 0) (.const 0)) hf ha) hb
  induction e with
  | zero => exact .const h0
  | succ e ih => exact app1 (.const hs) ih
  | digit i =>
    obtain ⟨i, hi⟩ := i
    show Strict gc.theory Γ (.const (i + 3)) (.const 0)
    induction i with
    | zero => exact nat_digit hk ho he h hi (.const h0)
    | succ i ih => exact nat_digit hk ho he h hi (ih (by omega))
  | add e e' ih ih' => exact app2 (.const h12) ih ih'
  | mul e e' ih ih' => exact app2 (.const h13) ih ih'
  | exp e e' ih ih' => exact app2 (.const h14) ih ih'
  | fac e ih => exact app1 (.const h15) ih
  | fib e ih => exact app1 (.const h16) ih

theorem NExp.annotated (e : NExp) : e.term.den.Annotated := by
  induction e <;> simp_all [NExp.term, LTerm.appl, LTerm.den, LComb.den, LTerm.denList, Tm.apps, Tm.Annotated]

include hk ho he h in
theorem nat_dep {e e' : NExp} {A : LTerm} (h2 : IntroJustified gc.theory (natThm e e') A) : e.val = e'.val := by
  obtain ⟨-, -, hC, hconv⟩ := nat_church hk he h
  have h3 := h2.body _ rfl
  rw [h2.given _ rfl] at h3
  have h18 : gc.theory.ty 18 = some (.pi (.const 0) (.app (.const 17) (.var 0))) := seqLoop_ty hk ho h 23 rfl rfl
  have h4 : gc.theory.Conv (.app (.const 17) e'.term.den) (.app (.const 17) e.term.den) := HasType.call hC h18 h3
  exact ((NExp.dep_iff e' e).1 ((hconv _ _).1 h4)).symm

include hk ho he h in
theorem nat_sound {s : Sym} {e e' : NExp} {gc' : GCtx} (hr : inferCheck k opt gc (.intro s (natThm e e')) = (gc', .ok ())) : e.val = e'.val := by
  obtain ⟨-, A, -, h2⟩ := inferCheck_intro_sound hk (by simp [Opt.omits, ho]) hr
  exact nat_dep hk ho he h h2

include hk ho he h in
theorem nat_complete_of {k' : Kern} (hk' : k'.Exact) {s : Sym} (hs : 18 < s) {e e' : NExp} (hv : e.val = e'.val) :
    (inferCheck k' opt gc (.intro s (natThm e e'))).2 = .ok () ∨ (inferCheck k' opt gc (.intro s (natThm e e'))).2 = .timeout := by
  obtain ⟨h1, h2, hC, hconv⟩ := nat_church hk he h
  have hcr : Confluent gc.rules := h2 ▸ natR_confluent
  refine C44_command_complete gc (.plain h1 hcr) (seqLoop_cmds_levelled hk ho he (fun _ _ => natCmds_confluent) natCmds_levelled h)
    k' hk' opt _ (GCtx.eta_off h1) ⟨?_, ?_⟩ ?_ ⟨?_, ?_, ⟨.type, .type, ?_⟩, ?_⟩
  · rintro A ⟨⟩
    exact ⟨trivial, e.annotated⟩
  · rintro t ⟨⟩
    exact ⟨trivial, e'.annotated⟩
  · rintro A ⟨⟩ hk
    exact hk.elim
  · exact (seqLoop_fresh hk ho h (by decide +kernel) hs).1
  · exact (seqLoop_fresh hk ho h (by decide +kernel) hs).2
  · have h17 : gc.theory.ty 17 = some (.pi (.const 0) .type) := seqLoop_ty hk ho h 22 rfl rfl
    exact .app (B := .type) (.const h17) (e.typed hk ho he h [])
  · have h17 : gc.theory.ty 17 = some (.pi (.const 0) .type) := seqLoop_ty hk ho h 22 rfl rfl
    have h18 : gc.theory.ty 18 = some (.pi (.const 0) (.app (.const 17) (.var 0))) := seqLoop_ty hk ho h 23 rfl rfl
    refine .conv (A := .app (.const 17) e'.term.den) ?_ ((hconv _ _).2 ((NExp.dep_iff e' e).2 hv.symm))
      (.app (B := .type) (.const h17) (e.typed hk ho he h [])) .type
    exact .app (B := .app (.const 17) (.var 0)) (.const h18) (e'.typed hk ho he h [])

include ho he h in
theorem nat_complete (hk : k.Exact) {s : Sym} (hs : 18 < s) {e e' : NExp} (hv : e.val = e'.val) :
    (inferCheck k opt gc (.intro s (natThm e e'))).2 = .ok () ∨ (inferCheck k opt gc (.intro s (natThm e e'))).2 = .timeout :=
  nat_complete_of hk.real ho he h hk hs hv

end


/-! ## `bool.dk` -/

/-- the rules of `bool.dk` -/
abbrev boolR : RuleMap := rulesOfCmds boolCmds

theorem boolR_confluent : Confluent boolR := (orthogonal_sound (by decide +kernel)).confluent

/-- a truth value as a symbol -/
def truth : Bool → Sym
  | true => 1
  | false => 2

theorem Rule.Of.const1 {f v : Sym} {p : Pattern} {x : Tm} (h : Rule.Of ⟨[], ⟨f, [p]⟩, .const v⟩ boolR) (hv : p.vars = [])
    (hp : PInst Tm.var p x) : Conv boolR false (.app (.const f) x) (.const v) :=
  h.conv (fun m => by simp [Pattern.varsList, hv]) Tm.var (ts := [x]) (.cons hp .nil) rfl rfl

theorem Rule.Of.const2 {f v : Sym} {p q : Pattern} {x y : Tm} (h : Rule.Of ⟨[], ⟨f, [p, q]⟩, .const v⟩ boolR) (hv : p.vars = []) (hw : q.vars = [])
    (hp : PInst Tm.var p x) (hq : PInst Tm.var q y) : Conv boolR false (.app (.app (.const f) x) y) (.const v) :=
  h.conv (fun m => by simp [Pattern.varsList, hv, hw]) Tm.var (ts := [x, y]) (.cons hp (.cons hq .nil)) rfl rfl

theorem BExp.conv (e : BExp) : Conv boolR false e.term.den (.const (truth e.val)) := by
  have c (c : Sym) : PInst Tm.var (.symb c []) (.const c) := pinst_const
  have j (t : Tm) : PInst Tm.var .joker t := .joker t
  have v (c : Sym) : (Pattern.symb c []).vars = [] := by simp [Pattern.vars, Pattern.varsList]
  have w : Pattern.joker.vars = [] := by simp [Pattern.vars]
  induction e with
  | tt => exact .refl _
  | ff => exact .refl _
  | and e e' ih ih' =>
    refine .trans (.app2 ih ih') ?_
    show Conv _ _ _ (.const (truth (e.val && e'.val)))
    cases e.val <;> cases e'.val
    · exact Rule.Of.const2 ⟨_, rfl, .head _⟩ (v _) w (c _) (j _)
    · exact Rule.Of.const2 ⟨_, rfl, .head _⟩ (v _) w (c _) (j _)
    · exact Rule.Of.const2 ⟨_, rfl, .tail _ (.head _)⟩ w (v _) (j _) (c _)
    · exact Rule.Of.const2 ⟨_, rfl, .tail _ (.tail _ (.head _))⟩ (v _) (v _) (c _) (c _)
  | or e e' ih ih' =>
    refine .trans (.app2 ih ih') ?_
    show Conv _ _ _ (.const (truth (e.val || e'.val)))
    cases e.val <;> cases e'.val
    · exact Rule.Of.const2 ⟨_, rfl, .tail _ (.tail _ (.head _))⟩ (v _) (v _) (c _) (c _)
    · exact Rule.Of.const2 ⟨_, rfl, .tail _ (.head _)⟩ w (v _) (j _) (c _)
    · exact Rule.Of.const2 ⟨_, rfl, .head _⟩ (v _) w (c _) (j _)
    · exact Rule.Of.const2 ⟨_, rfl, .head _⟩ (v _) w (c _) (j _)
  | not e ih =>
    refine .trans (.app (.refl _) ih) ?_
    show Conv _ _ _ (.const (truth (!e.val)))
    cases e.val
    · exact Rule.Of.const1 ⟨_, rfl, .tail _ (.head _)⟩ (v _) (c _)
    · exact Rule.Of.const1 ⟨_, rfl, .head _⟩ (v _) (c _)
  | iff e e' ih ih' =>
    refine .trans (.app2 ih ih') ?_
    show Conv _ _ _ (.const (truth (e.val == e'.val)))
    cases e.val <;> cases e'.val
    · exact Rule.Of.const2 ⟨_, rfl, .tail _ (.tail _ (.tail _ (.head _)))⟩ (v _) (v _) (c _) (c _)
    · exact Rule.Of.const2 ⟨_, rfl, .tail _ (.tail _ (.head _))⟩ (v _) (v _) (c _) (c _)
    · exact Rule.Of.const2 ⟨_, rfl, .tail _ (.head _)⟩ (v _) (v _) (c _) (c _)
    · exact Rule.Of.const2 ⟨_, rfl, .head _⟩ (v _) (v _) (c _) (c _)
  | imp e e' ih ih' =>
    refine .trans (.app2 ih ih') ?_
    show Conv _ _ _ (.const (truth (!e.val || e'.val)))
    cases e.val <;> cases e'.val
    · exact Rule.Of.const2 ⟨_, rfl, .head _⟩ (v _) w (c _) (j _)
    · exact Rule.Of.const2 ⟨_, rfl, .head _⟩ (v _) w (c _) (j _)
    · exact Rule.Of.const2 ⟨_, rfl, .tail _ (.tail _ (.head _))⟩ (v _) (v _) (c _) (c _)
    · exact Rule.Of.const2 ⟨_, rfl, .tail _ (.head _)⟩ (v _) (v _) (c _) (c _)

theorem truth_frozen (b : Bool) : Frozen boolR (.const (truth b)) := by
  cases b <;> exact .const fun rs h => by cases h

theorem truth_inj {b c : Bool} (h : Tm.const (truth b) = .const (truth c)) : b = c := by
  cases b <;> cases c <;> first | rfl | cases h

theorem BExp.conv_iff (e e' : BExp) : Conv boolR false e.term.den e'.term.den ↔ e.val = e'.val := by
  constructor
  · intro h
    exact truth_inj (boolR_confluent.frozen (truth_frozen _) (truth_frozen _) (.trans (.symm e.conv) (.trans h e'.conv)))
  · intro h
    exact .trans e.conv (.trans (h ▸ .refl _) (.symm e'.conv))

/-! ## `magic.dk` -/

/-- the rules of `magic.dk` -/
abbrev magicR : RuleMap := rulesOfCmds magicCmds

theorem magicCmds_confluent {pre post : List Cmd} (h : magicCmds = pre ++ post) : Confluent (rulesOfCmds pre) := by
  have hp : pre = magicCmds.take pre.length := by rw [h, List.take_left]
  have hl : pre.length < 9 := by
    have := congrArg List.length h
    rw [List.length_append, show magicCmds.length = 8 from rfl] at this
    omega
  rw [hp]
  have : ∀ k ∈ List.range 9, orthogonal (magicCmds.take k) = true := by decide +kernel
  exact (orthogonal_sound (this _ (List.mem_range.2 hl))).confluent

theorem magicR_confluent : Confluent magicR := magicCmds_confluent (List.append_nil _).symm

theorem magicCmds_levelled : ∀ c ∈ magicCmds, c.Levelled := by
  have : ∀ c ∈ magicCmds, c.levelled = true := List.all_eq_true.1 (by decide +kernel)
  exact fun c hc => Cmd.levelled_sound (this c hc)

theorem magicNum_sub (n : Nat) (σ : Nat → Tm) : (magicNum n).den.sub σ = (magicNum n).den := by
  induction n with
  | zero => rfl
  | succ n ih =>
    show Tm.app (.const 2) ((magicNum n).den.sub σ) = .app (.const 2) (magicNum n).den
    rw [ih]

theorem magic_conv (l n : Nat) : Conv magicR false (.app (.app (.const 5) (magicNum l).den) (magicNum n).den) (magicType (magicNum l) n).den := by
  induction n with
  | zero =>
    refine Rule.Of.conv (r := ⟨[(['n'], none)], ⟨5, [.mvar 0, .symb 1 []]⟩, .appl (.const 4) [.var 0]⟩) ⟨_, rfl, .head _⟩ ?_ (fun _ => (magicNum l).den)
      (ts := [(magicNum l).den, .const 1]) (.cons (.mvar 0) (.cons pinst_const .nil)) rfl rfl
    simp [Rule.Scoped, Pattern.varsList, Pattern.vars]
  | succ n ih =>
    refine .trans (Rule.Of.conv (r := ⟨[(['n'], none), (['i'], none)], ⟨5, [.mvar 1, .symb 2 [.mvar 0]]⟩, .arrow (.const 3) (.appl (.const 5) [.var 2, .var 1])⟩)
      ⟨_, rfl, .tail _ (.head _)⟩ ?_ (twoSub (magicNum n).den (magicNum l).den)
      (ts := [(magicNum l).den, .app (.const 2) (magicNum n).den]) (.cons (.mvar 1) (.cons (pinst_app (.mvar 0)) .nil)) rfl rfl) ?_
    · intro m
      simp only [Pattern.varsList, Pattern.vars, List.append_nil, List.cons_append, List.nil_append, List.mem_cons, List.not_mem_nil, or_false,
        List.length_cons, List.length_nil]
      omega
    · refine .pi (.refl _) ?_
      refine .trans ?_ ih
      show Conv _ _ (.app (.app (.const 5) ((magicNum l).den.ren (· + 1))) ((magicNum n).den.ren (· + 1))) _
      rw [Tm.ren_eq_sub, Tm.ren_eq_sub, magicNum_sub, magicNum_sub]
      exact .refl _

theorem magicNum_frozen (n : Nat) : Frozen magicR (magicNum n).den := by
  induction n with
  | zero => exact .const fun rs h => by cases h
  | succ n ih => exact .app (.const fun rs h => by cases h) ih

theorem magicType_frozen (l n : Nat) : Frozen magicR (magicType (magicNum l) n).den := by
  induction n with
  | zero => exact .app (.const fun rs h => by cases h) (magicNum_frozen l)
  | succ n ih => exact .pi (.const fun rs h => by cases h) ih

theorem magicNum_inj {m n : Nat} (h : (magicNum m).den = (magicNum n).den) : m = n := by
  induction m generalizing n with
  | zero => cases n with
    | zero => rfl
    | succ n => cases h
  | succ m ih => cases n with
    | zero => cases h
    | succ n =>
      injection h with _ h
      rw [ih h]

theorem magicType_inj {l l' m n : Nat} (h : (magicType (magicNum l) m).den = (magicType (magicNum l') n).den) : l = l' ∧ m = n := by
  induction m generalizing n with
  | zero => cases n with
    | zero =>
      injection h with _ h
      exact ⟨magicNum_inj h, rfl⟩
    | succ n => cases h
  | succ m ih => cases n with
    | zero => cases h
    | succ n =>
      injection h with _ h
      obtain ⟨h1, h2⟩ := ih h
      exact ⟨h1, h2 ▸ rfl⟩

theorem magicNum_annotated (n : Nat) : (magicNum n).den.Annotated := by
  induction n with
  | zero => trivial
  | succ n ih => exact ⟨trivial, ih⟩

theorem magicType_annotated (l n : Nat) : (magicType (magicNum l) n).den.Annotated := by
  induction n with
  | zero => exact ⟨trivial, magicNum_annotated l⟩
  | succ n ih => exact ⟨trivial, ih⟩

theorem magicType_notKind (l n : Nat) : ¬ (magicType (magicNum l) n).den.IsKind := by
  induction n with
  | zero => exact id
  | succ n ih => exact fun h => ih h.2

section

variable {k : Kern} {opt : Opt} {gc : GCtx}
variable (hk : k.Real) (ho : opt.omitted = none) (he : opt.eta = false)
variable (h : seqLoop k opt (GCtx.start opt.eta) (magicCmds.map .ok) = (gc, .ok ()))

include hk he h in
theorem magic_church : gc.eta = false ∧ gc.rules = magicR ∧ gc.theory.Church ∧ ∀ t u, gc.theory.Conv t u ↔ Conv magicR false t u := by
  have h1 := (seqLoop_rulesEq hk h).1
  have h2 : gc.eta = false := (seqLoop_grows h).eta.trans he
  refine ⟨h2, h1, .plain h2 (show Confluent gc.rules from h1 ▸ magicR_confluent), fun t u => ?_⟩
  show Conv gc.rules gc.eta t u ↔ _
  rw [h1, h2]

include hk ho he h in
theorem magic_sound {s : Sym} {n l m : Nat} {gc' : GCtx} (hr : inferCheck k opt gc (.intro s (magicCheck n l m)) = (gc', .ok ())) : n = m ∧ l = m := by
  obtain ⟨-, -, hC, hconv⟩ := magic_church hk he h
  obtain ⟨-, A, -, h2⟩ := inferCheck_intro_sound hk (by simp [Opt.omits, ho]) hr
  have h3 := h2.body _ rfl
  rw [h2.given _ rfl] at h3
  have h6 : gc.theory.ty 6 = some (.pi (.const 0) (.app (.app (.const 5) (.var 0)) (.var 0))) := seqLoop_ty hk ho h 7 rfl rfl
  have h4 : gc.theory.Conv (.app (.app (.const 5) (magicNum m).den) (magicNum m).den) (magicType (magicNum l) n).den := HasType.call hC h6 h3
  obtain ⟨h5, h6⟩ := magicType_inj (magicR_confluent.frozen (magicType_frozen _ _) (magicType_frozen _ _) (.trans (.symm (magic_conv m m)) ((hconv _ _).1 h4)))
  exact ⟨h6.symm, h5.symm⟩

include hk ho h in
theorem magicNum_typed (n : Nat) (Γ : List Tm) : Strict gc.theory Γ (magicNum n).den (.const 0) := by
  have h1 : gc.theory.ty 1 = some (.const 0) := seqLoop_ty hk ho h 1 rfl rfl
  have h2 : gc.theory.ty 2 = some (.pi (.const 0) (.const 0)) := seqLoop_ty hk ho h 2 rfl rfl
  induction n with
  | zero => exact .const h1
  | succ n ih => exact .app (B := .const 0) (.const h2) ih

include hk ho h in
theorem magicType_typed (l n : Nat) (Γ : List Tm) : Strict gc.theory Γ (magicType (magicNum l) n).den .type := by
  have h3 : gc.theory.ty 3 = some .type := seqLoop_ty hk ho h 3 rfl rfl
  have h4 : gc.theory.ty 4 = some (.pi (.const 0) .type) := seqLoop_ty hk ho h 4 rfl rfl
  induction n generalizing Γ with
  | zero => exact .app (B := .type) (.const h4) (magicNum_typed hk ho h l Γ)
  | succ n ih => exact .pi (.const h3) (ih _) .type

include ho he h in
theorem magic_complete (hk : k.Exact) {s : Sym} (hs : 6 < s) (n : Nat) :
    (inferCheck k opt gc (.intro s (magicCheck n n n))).2 = .ok () ∨ (inferCheck k opt gc (.intro s (magicCheck n n n))).2 = .timeout := by
  obtain ⟨h1, h2, hC, hconv⟩ := magic_church hk.real he h
  have hcr : Confluent gc.rules := h2 ▸ magicR_confluent
  refine C44_command_complete gc (.plain h1 hcr) (seqLoop_cmds_levelled hk.real ho he (fun _ _ => magicCmds_confluent) magicCmds_levelled h)
    k hk opt _ (GCtx.eta_off h1) ⟨?_, ?_⟩ ?_ ⟨?_, ?_, ⟨.type, .type, ?_⟩, ?_⟩
  · rintro A ⟨⟩
    exact magicType_annotated _ _
  · rintro t ⟨⟩
    exact ⟨trivial, magicNum_annotated _⟩
  · rintro A ⟨⟩ hk
    exact (magicType_notKind _ _ hk).elim
  · exact (seqLoop_fresh hk.real ho h (by decide +kernel) hs).1
  · exact (seqLoop_fresh hk.real ho h (by decide +kernel) hs).2
  · exact magicType_typed hk.real ho h _ _ _
  · have h6 : gc.theory.ty 6 = some (.pi (.const 0) (.app (.app (.const 5) (.var 0)) (.var 0))) := seqLoop_ty hk.real ho h 7 rfl rfl
    refine .conv (A := .app (.app (.const 5) (magicNum n).den) (magicNum n).den) ?_ ((hconv _ _).2 (magic_conv n n)) (magicType_typed hk.real ho h _ _ _) .type
    exact .app (B := .app (.app (.const 5) (.var 0)) (.var 0)) (.const h6) (magicNum_typed hk.real ho h _ _)

end

end Kontroli
