import Verif.Proofs.Like
import Verif.Props.Strict
import Verif.Props.Terminate

/-!
# The theories of `nat.dk` and `bool.dk` are normalising
-/

namespace Kontroli

/-! ## Functions on one type -/

/-- functions with `n` arguments -/
def Tm.powers (B : Tm) : Nat → Tm
  | 0 => B
  | n + 1 => .pi B (Tm.powers B n)

/-- the number of arguments that the term takes, if the variables below `m` are no functions -/
def Tm.arity (ar : Sym → Option Nat) (m : Nat) : Tm → Option Nat
  | .const c => ar c
  | .var n => if n < m then some 0 else none
  | .app f a => match Tm.arity ar m f, Tm.arity ar m a with
    | some (n + 1), some 0 => some n
    | _, _ => none
  | _ => none

theorem Tm.powers_sub (c : Sym) (σ : Nat → Tm) (n : Nat) : (Tm.powers (.const c) n).sub σ = Tm.powers (.const c) n := by
  induction n generalizing σ with
  | zero => rfl
  | succ n ih => simp only [Tm.powers, Tm.sub, ih]

theorem Tm.arity_sound {T : Theory} {B : Sym} {ar : Sym → Option Nat} (hc : ∀ Γ c n, ar c = some n → Strict T Γ (.const c) (Tm.powers (.const B) n)) {m : Nat}
    {t : Tm} {n : Nat} (h : t.arity ar m = some n) : Strict T (List.replicate m (.const B)) t (Tm.powers (.const B) n) := by
  induction t generalizing n with
  | const c => exact hc _ _ _ h
  | var i =>
    simp only [Tm.arity] at h
    split at h
    · next hi =>
      cases h
      exact .var (A := .const B) (by simp [hi])
    · cases h
  | app f a ih1 ih2 =>
    simp only [Tm.arity] at h
    split at h
    · next n' e1 e2 =>
      cases h
      have := Strict.app (ih1 e1) (ih2 e2)
      rwa [Tm.inst, Tm.powers_sub] at this
    · cases h
  | _ => cases h

theorem powers_type {T : Theory} {B : Sym} (hB : T.ty B = some .type) (n : Nat) (Γ : List Tm) : Strict T Γ (Tm.powers (.const B) n) .type := by
  induction n generalizing Γ with
  | zero => exact .const hB
  | succ n ih => exact .pi (.const hB) (ih _) .type

theorem powers_ctx {T : Theory} {B : Sym} (hB : T.ty B = some .type) (n : Nat) : WfCtx T (List.replicate n (.const B)) := by
  induction n with
  | zero => exact .nil
  | succ n ih => exact .cons ih (.const hB)

/-- both sides of the rule have the type `B`, if its variables have -/
def Rule.powersOk (B : Sym) (ar : Sym → Option Nat) (r : Rule) : Bool :=
  match r.toT with
  | none => false
  | some t => decide (t.ctx.map LTerm.den = List.replicate t.ctx.length (.const B)) && decide (t.lhs.den.arity ar t.ctx.length = some 0) &&
      decide (r.rhs.den.arity ar t.ctx.length = some 0)

theorem Rule.powersOk_sound {T : Theory} {B : Sym} (hB : T.ty B = some .type) {ar : Sym → Option Nat}
    (hc : ∀ Γ c n, ar c = some n → Strict T Γ (.const c) (Tm.powers (.const B) n)) {r : Rule} (h : r.powersOk B ar = true) : RuleTyped T r := by
  unfold Rule.powersOk at h
  split at h
  · cases h
  next t ht =>
    simp only [Bool.and_eq_true, decide_eq_true_eq] at h
    obtain ⟨⟨h1, h2⟩, h3⟩ := h
    refine ⟨t, ht, ?_⟩
    rw [h1, List.reverse_replicate]
    exact ⟨powers_ctx hB _, _, Tm.arity_sound hc h2, Tm.arity_sound hc h3⟩

/-- the conditions on the rules, apart from typing -/
def Rule.structOk (R : RuleMap) (lv pos : Sym → Nat) (r : Rule) : Bool :=
  r.simple && r.flat R && r.rhs.den.descends lv pos r 0 []

theorem Theory.normalising_powers {T : Theory} {B : Sym} {ar : Sym → Option Nat} {f : Rule → Rule} {cmds : List Cmd} (he : T.eta = false)
    (hR : T.rules = rulesOfCmds cmds) (cr : Confluent T.rules) (hS : T.Sorted) (hB : T.ty B = some .type)
    (hc : ∀ Γ c n, ar c = some n → Strict T Γ (.const c) (Tm.powers (.const B) n))
    (ho : ∀ r ∈ allRules cmds, ((f r).rhs.den.FreeBelow 0 ∧ (f r).rhs.den.simple (fun _ => .base) = .base) ∨
      ∃ A, T.ty r.lhs.symbol = some A ∧ Strict T [] A .type)
    (hf : ∀ r ∈ allRules cmds, (f r).lhs.symbol = r.lhs.symbol ∧ r.Sim (f r) ∧ (f r).Sim r) {lv pos : Sym → Nat}
    (hok : (allRules cmds).all (fun r => (f r).powersOk B ar && (f r).structOk (fun s => (rulesOfCmds cmds s).map (·.map f)) lv pos) = true) :
    T.WellFormed ∧ T.Normalising := by
  have hmem : ∀ {s rs r}, (rulesOfCmds cmds s).map (·.map f) = some rs → r ∈ rs → ∃ r0 ∈ allRules cmds, r0.lhs.symbol = s ∧ f r0 = r := by
    intro s rs r h hr
    obtain ⟨rs0, h1, rfl⟩ := Option.map_eq_some_iff.1 h
    obtain ⟨r0, h2, rfl⟩ := List.mem_map.1 hr
    obtain ⟨h3, h4⟩ := rulesOfCmds_mem h1 h2
    exact ⟨r0, h3, h4, rfl⟩
  have hall := List.all_eq_true.1 hok
  simp only [Bool.and_eq_true, Rule.structOk, Rule.simple, decide_eq_true_eq] at hall
  have s1 : T.rules.Sims fun s => (rulesOfCmds cmds s).map (·.map f) := by
    intro s rs r h hr
    rw [hR] at h
    exact ⟨rs.map f, f r, by simp only [h, Option.map_some], List.mem_map_of_mem hr, (hf r (rulesOfCmds_mem h hr).1).2.1⟩
  have s2 : RuleMap.Sims (fun s => (rulesOfCmds cmds s).map (·.map f)) T.rules := by
    intro s rs r h hr
    obtain ⟨rs0, h1, rfl⟩ := Option.map_eq_some_iff.1 h
    obtain ⟨r0, h2, rfl⟩ := List.mem_map.1 hr
    exact ⟨rs0, r0, hR ▸ h1, h2, (hf r0 (rulesOfCmds_mem h1 h2).1).2.2⟩
  refine Theory.normalising_like (R := fun s => (rulesOfCmds cmds s).map (·.map f)) he s1 s2 cr hS ?_ ?_ ?_ ?_ ?_ (lv := lv) (pos := pos) ?_
  · intro s rs r h hr
    obtain ⟨r0, h1, h2, rfl⟩ := hmem h hr
    refine ⟨(hf r0 h1).1.trans h2, Rule.powersOk_sound (T := T.withRules fun s => (rulesOfCmds cmds s).map (·.map f)) hB (ar := ar) (fun Γ c n h => ?_) (hall r0 h1).1⟩
    refine (hc Γ c n h).sims (T' := T.withRules fun s => (rulesOfCmds cmds s).map (·.map f)) (show T.ty = (T.withRules _).ty from rfl) fun t u h => ?_
    unfold Theory.Conv at h ⊢
    simp only [Theory.withRules]
    rw [he] at h ⊢
    exact h.sims s1
  · intro s rs r h hr
    obtain ⟨r0, h1, h2, rfl⟩ := hmem h hr
    exact h2 ▸ ho r0 h1
  · intro s rs r h hr
    obtain ⟨r0, h1, h2, rfl⟩ := hmem h hr
    exact Tm.freeBelow_iff.1 (hall r0 h1).2.1.1.2
  · intro s rs r h hr
    obtain ⟨r0, h1, h2, rfl⟩ := hmem h hr
    exact (hall r0 h1).2.1.1.1
  · intro s rs r h hr
    obtain ⟨r0, h1, h2, rfl⟩ := hmem h hr
    exact Rule.flat_sound (hall r0 h1).2.1.2
  · intro s rs r h hr
    obtain ⟨r0, h1, h2, rfl⟩ := hmem h hr
    exact Tm.descends_sound (hall r0 h1).2.2 nofun

/-! ## `nat.dk` -/

/-- the rule, with the types of its variables -/
def Rule.natTyped (r : Rule) : Rule := ⟨r.ctx.map fun v => (v.1, some (.const 0)), r.lhs, r.rhs⟩

/-- the numbers of arguments in `nat.dk` -/
def natArity (c : Sym) : Option Nat :=
  if c = 1 ∨ c = 15 ∨ c = 16 then some 1 else if c = 12 ∨ c = 13 ∨ c = 14 then some 2 else if 2 ≤ c ∧ c ≤ 11 then some 0 else none

set_option maxRecDepth 100000 in
theorem natRules_ok : (allRules natCmds).all (fun r => r.natTyped.powersOk 0 natArity &&
    r.natTyped.structOk (fun s => (rulesOfCmds natCmds s).map (·.map Rule.natTyped)) (fun s => s) fun _ => 0) = true := by decide +kernel

section
variable {k : Kern} {opt : Opt} {gc : GCtx} (hk : k.Real) (ho : opt.omitted = none) (he : opt.eta = false)

include hk ho he in
/-- types of a session where all rules are given by definitions -/
theorem seqLoop_sorted {cmds : List Cmd} (hcr : ∀ pre post, cmds = pre ++ post → Confluent (rulesOfCmds pre))
    (hd : cmds.all (fun c => match c with | .intro _ _ => true | .rules _ => false) = true)
    (h : seqLoop k opt (GCtx.start opt.eta) (cmds.map .ok) = (gc, .ok ())) : gc.theory.Sorted := by
  have hint : ∀ c ∈ cmds, ∃ s it, c = .intro s it := by
    intro c hc
    have := List.all_eq_true.1 hd c hc
    cases c with
    | intro s it => exact ⟨s, it, rfl⟩
    | rules rs => cases this
  refine (seqLoop_strict hk (by simp [Opt.omits, ho]) (GCtx.start_right _) ?_ ?_ h).1.1.types
  · intro pre post gci e hr h1
    obtain ⟨pre', post', e1, rfl, rfl⟩ := List.map_eq_append_iff.1 e
    have hrules := (seqLoop_rulesEq hk h1).1
    refine ⟨.plain ((seqLoop_grows h1).eta.trans he) (show Confluent gci.rules from hrules ▸ hcr _ _ e1), fun s rs r h2 h3 h4 => ?_⟩
    rw [hrules] at h2
    obtain ⟨c, h5, h6⟩ := List.mem_flatMap.1 (rulesOfCmds_mem h2 h3).1
    obtain ⟨s', it, rfl⟩ := hint c (e1 ▸ List.mem_append_left _ h5)
    exfalso
    cases it with
    | declaration b ty => cases b <;> simp [Intro.ruleList] at h6
    | definition ty tm =>
      cases tm with
      | none => simp [Intro.ruleList] at h6
      | some tm =>
        simp [Intro.ruleList] at h6
        rw [h6] at h4
        cases h4
    | theorem_ ty tm => simp [Intro.ruleList] at h6
  · intro pre cmd post gci e _
    have : cmd ∈ cmds := by
      have : Out.ok cmd ∈ cmds.map .ok := e ▸ List.mem_append_right _ List.mem_cons_self
      obtain ⟨c, h1, h2⟩ := List.mem_map.1 this
      cases h2
      exact h1
    obtain ⟨s, it, rfl⟩ := hint cmd this
    trivial

variable (h : seqLoop k opt (GCtx.start opt.eta) (natCmds.map .ok) = (gc, .ok ()))

include hk ho he h in
theorem nat_sorted : gc.theory.Sorted := by
  intro c A hA
  have hle : c ≤ 18 := by
    by_contra hc
    have := (seqLoop_fresh hk ho h (n := 18) (s := c) (by decide +kernel) (Nat.not_le.1 hc)).1
    simp [GCtx.theory, this] at hA
  have hN : gc.theory.ty 0 = some .type := seqLoop_ty hk ho h 0 rfl rfl
  by_cases hd : c < 12
  · have h' := h
    rw [show natCmds = natCmds.take 12 ++ natCmds.drop 12 from (List.take_append_drop _ _).symm, List.map_append] at h'
    obtain ⟨gc1, h1, h2⟩ := seqLoop_append_ok h'
    have hS := seqLoop_sorted hk ho he (fun pre post e => natCmds_confluent (post := post ++ natCmds.drop 12) (by
      rw [← List.append_assoc, ← e, List.take_append_drop])) (by decide +kernel) h1
    have hg := seqLoop_grows h2
    have hi : ∃ it, (natCmds.take 12)[c]? = some (.intro c it) := by
      have : ∀ c : Nat, c < 12 → ∃ it, (natCmds.take 12)[c]? = some (.intro c it) := by
        intro c hc
        match c, hc with
        | 0, _ => exact ⟨_, rfl⟩
        | 1, _ => exact ⟨_, rfl⟩
        | 2, _ => exact ⟨_, rfl⟩
        | 3, _ => exact ⟨_, rfl⟩
        | 4, _ => exact ⟨_, rfl⟩
        | 5, _ => exact ⟨_, rfl⟩
        | 6, _ => exact ⟨_, rfl⟩
        | 7, _ => exact ⟨_, rfl⟩
        | 8, _ => exact ⟨_, rfl⟩
        | 9, _ => exact ⟨_, rfl⟩
        | 10, _ => exact ⟨_, rfl⟩
        | 11, _ => exact ⟨_, rfl⟩
      exact this c hd
    obtain ⟨it, hi⟩ := hi
    obtain ⟨B, h3, -⟩ := seqLoop_given hk ho h1 c hi
    have h4 := hS c _ (theory_ty h3)
    have h5 := theory_ty (hg.types c B h3)
    rw [hA] at h5
    cases h5
    exact Theory.Sorted.mono hg.le h4
  · have h12 : gc.theory.ty 12 = some (Tm.powers (.const 0) 2) := seqLoop_ty hk ho h 12 rfl rfl
    have h13 : gc.theory.ty 13 = some (Tm.powers (.const 0) 2) := seqLoop_ty hk ho h 14 rfl rfl
    have h14 : gc.theory.ty 14 = some (Tm.powers (.const 0) 2) := seqLoop_ty hk ho h 16 rfl rfl
    have h15 : gc.theory.ty 15 = some (Tm.powers (.const 0) 1) := seqLoop_ty hk ho h 18 rfl rfl
    have h16 : gc.theory.ty 16 = some (Tm.powers (.const 0) 1) := seqLoop_ty hk ho h 20 rfl rfl
    have h17 : gc.theory.ty 17 = some (.pi (.const 0) .type) := seqLoop_ty hk ho h 22 rfl rfl
    have h18 : gc.theory.ty 18 = some (.pi (.const 0) (.app (.const 17) (.var 0))) := seqLoop_ty hk ho h 23 rfl rfl
    have hc : c = 12 ∨ c = 13 ∨ c = 14 ∨ c = 15 ∨ c = 16 ∨ c = 17 ∨ c = 18 := by
      have h1 : ¬ (c : Nat) < 12 := hd
      have h2 : (c : Nat) ≤ 18 := hle
      have : ∀ c : Nat, ¬ c < 12 → c ≤ 18 → c = 12 ∨ c = 13 ∨ c = 14 ∨ c = 15 ∨ c = 16 ∨ c = 17 ∨ c = 18 := by omega
      exact this c h1 h2
    rcases hc with rfl | rfl | rfl | rfl | rfl | rfl | rfl
    · rw [h12] at hA; cases hA; exact ⟨_, .type, powers_type hN 2 _⟩
    · rw [h13] at hA; cases hA; exact ⟨_, .type, powers_type hN 2 _⟩
    · rw [h14] at hA; cases hA; exact ⟨_, .type, powers_type hN 2 _⟩
    · rw [h15] at hA; cases hA; exact ⟨_, .type, powers_type hN 1 _⟩
    · rw [h16] at hA; cases hA; exact ⟨_, .type, powers_type hN 1 _⟩
    · rw [h17] at hA; cases hA; exact ⟨_, .kind, .pi (.const hN) .type .kind⟩
    · rw [h18] at hA; cases hA
      exact ⟨_, .type, .pi (.const hN) (.app (B := .type) (.const h17) (.var (A := .const 0) rfl)) .type⟩

include hk ho he h in
theorem nat_consts (Γ : List Tm) (c : Sym) (n : Nat) (hc : natArity c = some n) : Strict gc.theory Γ (.const c) (Tm.powers (.const 0) n) := by
  unfold natArity at hc
  split at hc
  · next e =>
    cases hc
    rcases e with rfl | rfl | rfl
    · exact .const (seqLoop_ty hk ho h 1 rfl rfl)
    · exact .const (seqLoop_ty hk ho h 18 rfl rfl)
    · exact .const (seqLoop_ty hk ho h 20 rfl rfl)
  split at hc
  · next e =>
    cases hc
    rcases e with rfl | rfl | rfl
    · exact .const (seqLoop_ty hk ho h 12 rfl rfl)
    · exact .const (seqLoop_ty hk ho h 14 rfl rfl)
    · exact .const (seqLoop_ty hk ho h 16 rfl rfl)
  split at hc
  · next e =>
    cases hc
    obtain ⟨e1, e2⟩ := e
    obtain ⟨i, rfl⟩ : ∃ i, c = i + 2 := ⟨c - 2, (Nat.sub_add_cancel e1).symm⟩
    cases i with
    | zero => exact NExp.typed hk ho he h .zero Γ
    | succ i =>
      have := NExp.typed hk ho he h (.digit ⟨i, by have : i + 1 + 2 ≤ 11 := e2; omega⟩) Γ
      exact this
  · cases hc

include hk ho he h in
/-- The theory of `nat.dk` is well-formed, and typed terms are strongly normalising in it. -/
theorem nat_normalising : gc.theory.WellFormed ∧ gc.theory.Normalising := by
  obtain ⟨h1, h2, -, -⟩ := nat_church hk he h
  have hN : gc.theory.ty 0 = some .type := seqLoop_ty hk ho h 0 rfl rfl
  have hS := nat_sorted hk ho he h
  refine Theory.normalising_powers (f := Rule.natTyped) h1 h2 (show Confluent gc.rules from h2 ▸ natR_confluent) hS hN
    (nat_consts hk ho he h) ?_ ?_ natRules_ok
  · intro r hr
    have hok := List.all_eq_true.1 (show (allRules natCmds).all (fun r => (r.natTyped.rhs.den.freeBelow 0 &&
      decide (r.natTyped.rhs.den.simple (fun _ => .base) = .base)) || (12 ≤ r.lhs.symbol && r.lhs.symbol ≤ 16)) = true by decide +kernel) r hr
    simp only [Bool.or_eq_true, Bool.and_eq_true, decide_eq_true_eq, Tm.freeBelow_iff] at hok
    refine hok.imp id fun ⟨e1, e2⟩ => ?_
    have hc : ∀ c : Nat, 12 ≤ c → c ≤ 16 → c = 12 ∨ c = 13 ∨ c = 14 ∨ c = 15 ∨ c = 16 := by omega
    rcases hc _ e1 e2 with e | e | e | e | e <;> rw [e]
    · exact ⟨_, seqLoop_ty hk ho h 12 rfl rfl, powers_type hN 2 _⟩
    · exact ⟨_, seqLoop_ty hk ho h 14 rfl rfl, powers_type hN 2 _⟩
    · exact ⟨_, seqLoop_ty hk ho h 16 rfl rfl, powers_type hN 2 _⟩
    · exact ⟨_, seqLoop_ty hk ho h 18 rfl rfl, powers_type hN 1 _⟩
    · exact ⟨_, seqLoop_ty hk ho h 20 rfl rfl, powers_type hN 1 _⟩
  · intro r _
    exact ⟨rfl, .ctx rfl rfl (by simp [Rule.natTyped]), .ctx rfl rfl (by simp [Rule.natTyped])⟩

end

/-! ## `bool.dk` -/

section
variable {c f v : Sym} {x : Str × Option LTerm}

theorem PInst.const_inv {σ : Nat → Tm} {t : Tm} (h : PInst σ (.symb c []) t) : t = .const c := by
  cases h with
  | symb h => cases h; rfl

theorem PBind.const_inv {t : Tm} {bs : List (Nat × Tm)} (h : PBind (.symb c []) t bs) : t = .const c ∧ bs = [] := by
  cases h with
  | symb h => cases h; exact ⟨rfl, rfl⟩

theorem PBind.const : PBind (.symb c []) (.const c) [] := .symb (ts := []) .nil

theorem Rule.Sim.fillR : Rule.Sim ⟨[], ⟨f, [.symb c [], .joker]⟩, .const v⟩ ⟨[x], ⟨f, [.symb c [], .mvar 0]⟩, .const v⟩ := by
  have hs : Rule.Scoped ⟨[x], ⟨f, [.symb c [], .mvar 0]⟩, .const v⟩ := by
    intro m
    simp [Pattern.varsList, Pattern.vars]
  refine ⟨fun _ σ ts hi => ?_, fun R σ ts bs _ hb _ hv => ?_⟩
  · cases hi with
    | cons h1 h2 =>
      cases h2 with
      | @cons _ t _ _ h2 h3 =>
        cases h3
        rw [h1.const_inv]
        exact ⟨fun _ => t, hs, .cons pinst_const (.cons (.mvar 0) .nil), rfl⟩
  · cases hb with
    | cons h1 h2 =>
      obtain ⟨rfl, rfl⟩ := h1.const_inv
      cases h2 with
      | @cons _ t _ _ _ _ h2 h3 =>
        cases h3
        refine ⟨fun | 0 => t | m + 1 => .var m, [(0, t)], hs, .cons .const (.cons (.mvar 0 t) .nil), ⟨?_, ?_⟩, ?_, rfl⟩
        · intro m u h
          cases m with
          | zero => cases h; rfl
          | succ m => simp [List.lookup] at h
        · intro p hp
          rw [List.mem_singleton] at hp
          subst hp
          exact .refl _
        · intro m hm
          cases m with
          | zero => simp at hm
          | succ m => exact ⟨m, rfl⟩

theorem Rule.Sim.fillL : Rule.Sim ⟨[], ⟨f, [.joker, .symb c []]⟩, .const v⟩ ⟨[x], ⟨f, [.mvar 0, .symb c []]⟩, .const v⟩ := by
  have hs : Rule.Scoped ⟨[x], ⟨f, [.mvar 0, .symb c []]⟩, .const v⟩ := by
    intro m
    simp [Pattern.varsList, Pattern.vars]
  refine ⟨fun _ σ ts hi => ?_, fun R σ ts bs _ hb _ hv => ?_⟩
  · cases hi with
    | @cons _ t _ _ h1 h2 =>
      cases h2 with
      | cons h2 h3 =>
        cases h3
        rw [h2.const_inv]
        exact ⟨fun _ => t, hs, .cons (.mvar 0) (.cons pinst_const .nil), rfl⟩
  · cases hb with
    | @cons _ t _ _ _ _ h1 h2 =>
      cases h1
      cases h2 with
      | cons h2 h3 =>
        cases h3
        obtain ⟨rfl, rfl⟩ := h2.const_inv
        refine ⟨fun | 0 => t | m + 1 => .var m, [(0, t)], hs, .cons (.mvar 0 t) (.cons .const .nil), ⟨?_, ?_⟩, ?_, rfl⟩
        · intro m u h
          cases m with
          | zero => cases h; rfl
          | succ m => simp [List.lookup] at h
        · intro p hp
          rw [List.mem_singleton] at hp
          subst hp
          exact .refl _
        · intro m hm
          cases m with
          | zero => simp at hm
          | succ m => exact ⟨m, rfl⟩

theorem Rule.Sim.forgetR : Rule.Sim ⟨[x], ⟨f, [.symb c [], .mvar 0]⟩, .const v⟩ ⟨[], ⟨f, [.symb c [], .joker]⟩, .const v⟩ := by
  have hs : Rule.Scoped ⟨[], ⟨f, [.symb c [], .joker]⟩, .const v⟩ := by
    intro m
    simp [Pattern.varsList, Pattern.vars]
  refine ⟨fun _ σ ts hi => ?_, fun R σ ts bs _ hb _ hv => ?_⟩
  · cases hi with
    | cons h1 h2 =>
      cases h2 with
      | cons h2 h3 =>
        cases h3
        rw [h1.const_inv]
        exact ⟨σ, hs, .cons pinst_const (.cons (.joker _) .nil), rfl⟩
  · cases hb with
    | cons h1 h2 =>
      obtain ⟨rfl, rfl⟩ := h1.const_inv
      cases h2 with
      | cons h2 h3 =>
        cases h3
        exact ⟨.var, [], hs, .cons .const (.cons (.joker _) .nil), ⟨nofun, nofun⟩, fun m _ => ⟨m, rfl⟩, rfl⟩

theorem Rule.Sim.forgetL : Rule.Sim ⟨[x], ⟨f, [.mvar 0, .symb c []]⟩, .const v⟩ ⟨[], ⟨f, [.joker, .symb c []]⟩, .const v⟩ := by
  have hs : Rule.Scoped ⟨[], ⟨f, [.joker, .symb c []]⟩, .const v⟩ := by
    intro m
    simp [Pattern.varsList, Pattern.vars]
  refine ⟨fun _ σ ts hi => ?_, fun R σ ts bs _ hb _ hv => ?_⟩
  · cases hi with
    | cons h1 h2 =>
      cases h2 with
      | cons h2 h3 =>
        cases h3
        rw [h2.const_inv]
        exact ⟨σ, hs, .cons (.joker _) (.cons pinst_const .nil), rfl⟩
  · cases hb with
    | cons h1 h2 =>
      cases h2 with
      | cons h2 h3 =>
        cases h3
        obtain ⟨rfl, rfl⟩ := h2.const_inv
        exact ⟨.var, [], hs, .cons (.joker _) (.cons .const .nil), ⟨nofun, nofun⟩, fun m _ => ⟨m, rfl⟩, rfl⟩

end

/-- the rule, with a typed variable instead of the wildcard -/
def Rule.boolTyped (r : Rule) : Rule :=
  match r.lhs.args with
  | [.symb c [], .joker] => ⟨[(['x'], some (.const 0))], ⟨r.lhs.symbol, [.symb c [], .mvar 0]⟩, r.rhs⟩
  | [.joker, .symb c []] => ⟨[(['x'], some (.const 0))], ⟨r.lhs.symbol, [.mvar 0, .symb c []]⟩, r.rhs⟩
  | _ => r

/-- the numbers of arguments in `bool.dk` -/
def boolArity (c : Sym) : Option Nat :=
  if c = 5 then some 1 else if c = 3 ∨ c = 4 ∨ c = 6 ∨ c = 7 then some 2 else if c = 1 ∨ c = 2 then some 0 else none

set_option maxRecDepth 100000 in
theorem boolRules_ok : (allRules boolCmds).all (fun r => r.boolTyped.powersOk 0 boolArity &&
    r.boolTyped.structOk (fun s => (rulesOfCmds boolCmds s).map (·.map Rule.boolTyped)) (fun s => s) fun _ => 0) = true := by decide +kernel

section
variable {k : Kern} {opt : Opt} {gc : GCtx} (hk : k.Real) (ho : opt.omitted = none) (he : opt.eta = false)
variable (h : seqLoop k opt (GCtx.start opt.eta) (boolCmds.map .ok) = (gc, .ok ()))

include hk ho h in
theorem bool_consts (c : Sym) (n : Nat) (hc : boolArity c = some n) : gc.theory.ty c = some (Tm.powers (.const 0) n) := by
  unfold boolArity at hc
  split at hc
  · next e =>
    cases hc
    subst e
    exact seqLoop_ty hk ho h 7 rfl rfl
  split at hc
  · next e =>
    cases hc
    rcases e with rfl | rfl | rfl | rfl
    · exact seqLoop_ty hk ho h 3 rfl rfl
    · exact seqLoop_ty hk ho h 5 rfl rfl
    · exact seqLoop_ty hk ho h 9 rfl rfl
    · exact seqLoop_ty hk ho h 11 rfl rfl
  split at hc
  · next e =>
    cases hc
    rcases e with rfl | rfl
    · exact seqLoop_ty hk ho h 1 rfl rfl
    · exact seqLoop_ty hk ho h 2 rfl rfl
  · cases hc

include hk ho he h in
/-- The theory of `bool.dk` is well-formed, and typed terms are strongly normalising in it. -/
theorem bool_normalising : gc.theory.WellFormed ∧ gc.theory.Normalising := by
  have h2 := (seqLoop_rulesEq hk h).1
  have h1 : gc.eta = false := (seqLoop_grows h).eta.trans he
  have hN : gc.theory.ty 0 = some .type := seqLoop_ty hk ho h 0 rfl rfl
  have hty := bool_consts hk ho h
  have hS : gc.theory.Sorted := by
    intro c A hA
    have hle : c ≤ 7 := by
      by_contra hc
      have := (seqLoop_fresh hk ho h (n := 7) (s := c) (by decide +kernel) (Nat.not_le.1 hc)).1
      simp [GCtx.theory, this] at hA
    by_cases h0 : c = 0
    · subst h0
      rw [hN] at hA
      cases hA
      exact ⟨_, .kind, .type⟩
    · have : ∃ n, boolArity c = some n := by
        have : ∀ c : Nat, c ≤ 7 → c ≠ 0 → ∃ n, boolArity c = some n := by
          intro c h1 h2
          match c, h1, h2 with
          | 1, _, _ => exact ⟨_, rfl⟩
          | 2, _, _ => exact ⟨_, rfl⟩
          | 3, _, _ => exact ⟨_, rfl⟩
          | 4, _, _ => exact ⟨_, rfl⟩
          | 5, _, _ => exact ⟨_, rfl⟩
          | 6, _, _ => exact ⟨_, rfl⟩
          | 7, _, _ => exact ⟨_, rfl⟩
        exact this c hle h0
      obtain ⟨n, hn⟩ := this
      rw [hty c n hn] at hA
      cases hA
      exact ⟨_, .type, powers_type hN n _⟩
  refine Theory.normalising_powers (f := Rule.boolTyped) h1 h2 (show Confluent gc.rules from h2 ▸ boolR_confluent) hS hN
    (fun Γ c n hc => .const (hty c n hc)) ?_ ?_ boolRules_ok
  · intro r hr
    have hok := List.all_eq_true.1 (show (allRules boolCmds).all (fun r => (boolArity r.lhs.symbol).isSome) = true by decide +kernel) r hr
    obtain ⟨n, hn⟩ := Option.isSome_iff_exists.1 hok
    exact .inr ⟨_, hty _ n hn, powers_type hN n _⟩
  · intro r hr
    have hv : ∃ v, r.rhs = .const v ∧ r.ctx = [] := by
      have := List.all_eq_true.1 (show (allRules boolCmds).all (fun r => (match r.rhs with | .const _ => true | _ => false) && r.ctx.isEmpty) = true by
        decide +kernel) r hr
      simp only [Bool.and_eq_true, List.isEmpty_iff] at this
      obtain ⟨h1, h2⟩ := this
      split at h1
      · next v e => exact ⟨v, e, h2⟩
      · cases h1
    obtain ⟨v, hv, hx⟩ := hv
    obtain ⟨ctx, ⟨s, args⟩, rhs⟩ := r
    simp only at hv hx
    subst hv hx
    unfold Rule.boolTyped
    simp only
    split
    · exact ⟨rfl, .fillR, .forgetR⟩
    · exact ⟨rfl, .fillL, .forgetL⟩
    · exact ⟨rfl, .ctx rfl rfl rfl, .ctx rfl rfl rfl⟩

include hk ho h in
theorem BExp.typed (e : BExp) (Γ : List Tm) : Strict gc.theory Γ e.term.den (.const 0) := by
  have hty : ∀ {c n}, boolArity c = some n → Strict gc.theory Γ (.const c) (Tm.powers (.const 0) n) := fun hc => .const (bool_consts hk ho h _ _ hc)
  have app1 : ∀ {f a : Tm} {n : Nat}, Strict gc.theory Γ f (Tm.powers (.const 0) (n + 1)) → Strict gc.theory Γ a (.const 0) →
      Strict gc.theory Γ (.app f a) (Tm.powers (.const 0) n) := by
    intro f a n hf ha
    have := Strict.app hf ha
    rwa [Tm.inst, Tm.powers_sub] at this
  induction e with
  | tt => exact hty (c := 1) (n := 0) rfl
  | ff => exact hty (c := 2) (n := 0) rfl
  | and e e' ih ih' => exact app1 (n := 0) (app1 (hty (c := 3) rfl) ih) ih'
  | or e e' ih ih' => exact app1 (n := 0) (app1 (hty (c := 4) rfl) ih) ih'
  | not e ih => exact app1 (n := 0) (hty (c := 5) rfl) ih
  | iff e e' ih ih' => exact app1 (n := 0) (app1 (hty (c := 6) rfl) ih) ih'
  | imp e e' ih ih' => exact app1 (n := 0) (app1 (hty (c := 7) rfl) ih) ih'

end

end Kontroli
