import Verif.Proofs.WeakNormal
import Verif.Props.Terminate
import Verif.Props.Whnf

/-!
# C68: evaluation finds weak-head normal forms

C51 says that evaluation ends on strongly normalising terms.  If the rules only unfold definitions, it ends on all terms that have a
weak-head normal form at all, whatever else could be done in them (call by need drops what is not needed), and comparison
ends on all terms that have normal forms.
-/

namespace Kontroli

theorem whnf_ends {gc : GCtx} {t : STerm} (h : WhStops gc t.den) (rc : Nat → Bool) :
    ∃ n u s, ∀ m, n ≤ m → whnf m gc t (St.init rc) = .ok (u, s) := by
  obtain ⟨n, r, hr, hn⟩ := TH.whnfTerm h _ (World.init _ _ rc)
  have h1 := hn n le_rfl
  cases r with
  | ok p => exact ⟨n, p.1, p.2, hn⟩
  | err e => exact absurd h1 (NoErr.whnfTerm (opsNE gc n) t _ e)
  | panic => exact absurd h1 ((C08_no_panic gc n rc).1 t)
  | timeout => exact absurd rfl hr

theorem HN.of_steps {R : RuleMap} {t w : Tm} (h : HSteps R t w) (hw : ∀ u, ¬ HStep R w u) : ∃ n, HN R n t :=
  HN.before h (n := 0) (.stop 0 hw)

theorem HN.steps {R : RuleMap} {n : Nat} {t : Tm} (h : HN R n t) : ∃ w, HSteps R t w ∧ ∀ u, ¬ HStep R w u := by
  induction h with
  | stop n h => exact ⟨_, .refl, h⟩
  | step h _ ih =>
    obtain ⟨w, h1, h2⟩ := ih
    exact ⟨w, .head h h1, h2⟩

/-- C68. If the rules only unfold definitions, evaluation of a term comes to an end with a value, whatever the reference counts, if and only if
the term reduces to some weak-head normal form, by any steps. -/
theorem C68_whnf (gc : GCtx) (hd : Definitional gc.rules) (rc : Nat → Bool) (t : STerm) :
    (∃ n u s, ∀ m, n ≤ m → whnf m gc t (St.init rc) = .ok (u, s)) ↔ ∃ w, Red gc.rules gc.eta t.den w ∧ Whnf gc.rules gc.eta w := by
  constructor
  · rintro ⟨n, u, s, h⟩
    exact ⟨u.den, TriG.ok (Tri.whnf gc n t) (h n le_rfl)⟩
  · rintro ⟨w, h1, h2⟩
    obtain ⟨n, hn⟩ := HN.expands hd h1 (h2.hn hd 0)
    exact whnf_ends (hn.whStops hd) rc

/-- C68. The same, by head reduction: evaluation comes to an end if and only if the sequence of steps at the head of the term does. -/
theorem C68_head (gc : GCtx) (hd : Definitional gc.rules) (rc : Nat → Bool) (t : STerm) :
    (∃ n u s, ∀ m, n ≤ m → whnf m gc t (St.init rc) = .ok (u, s)) ↔
      ∃ w, Relation.ReflTransGen (HStep gc.rules) t.den w ∧ ∀ u, ¬ HStep gc.rules w u := by
  constructor
  · intro h
    obtain ⟨w, h1, h2⟩ := (C68_whnf gc hd rc t).1 h
    obtain ⟨n, hn⟩ := HN.expands hd h1 (h2.hn hd 0)
    exact hn.steps
  · rintro ⟨w, h1, h2⟩
    obtain ⟨n, hn⟩ := HN.of_steps h1 h2
    exact whnf_ends (hn.whStops hd) rc

/-- C68. If it does not come to an end, every fuel is too little. -/
theorem C68_diverges (gc : GCtx) (hd : Definitional gc.rules) (rc : Nat → Bool) (t : STerm)
    (h : ¬ ∃ w, Red gc.rules gc.eta t.den w ∧ Whnf gc.rules gc.eta w) (n : Nat) : whnf n gc t (St.init rc) = .timeout := by
  cases e : whnf n gc t (St.init rc) with
  | ok p => exact absurd ⟨p.1.den, TriG.ok (Tri.whnf gc n t) e⟩ h
  | err k => exact absurd e (NoErr.whnfTerm (opsNE gc n) t _ k)
  | panic => exact absurd e ((C08_no_panic gc n rc).1 t)
  | timeout => rfl

theorem NFits.of_red {R : RuleMap} (hd : Definitional R) {eta : Bool} {t v : Tm} (h : Red R eta t v) (hv : ∀ u, ¬ Step R eta v u) :
    NFits R v.weight t :=
  ⟨v, Red.pars_of_definitional hd h, fun u hu => hv u (hu.step hd eta), rfl⟩

/-- C68. If the rules only unfold definitions, the comparison of terms that have normal forms, with or without eta, comes to an end and
decides whether they are convertible. -/
theorem C68_convertible (gc : GCtx) (hd : Definitional gc.rules) (rc : Nat → Bool) (t u : STerm)
    (ht : ∃ v, Red gc.rules gc.eta t.den v ∧ ∀ w, ¬ Step gc.rules gc.eta v w)
    (hu : ∃ v, Red gc.rules gc.eta u.den v ∧ ∀ w, ¬ Step gc.rules gc.eta v w) :
    ∃ n b s, (∀ m, n ≤ m → convertible m gc t u (St.init rc) = .ok (b, s)) ∧ (b = true ↔ Conv gc.rules gc.eta t.den u.den) := by
  obtain ⟨v, hv, nv⟩ := ht
  obtain ⟨w, hw, nw⟩ := hu
  have hst := NFits.cvStops hd _ _ _ rfl t u (.of_red hd hv nv) (.of_red hd hw nw)
  obtain ⟨n, r, hr, hn⟩ := hst _ _ [] (fun _ _ => TH.cvNil) _ (World.init _ _ rc)
  have h1 := hn n le_rfl
  cases r with
  | ok p =>
    obtain ⟨b, s⟩ := p
    refine ⟨n, b, s, hn, ?_⟩
    cases he : gc.eta with
    | false => exact C43_decides gc he hd.plain_confluent n rc t u b s h1
    | true => exact C43_eta_definitions gc he hd n rc t u b s h1
  | err e => exact absurd h1 ((opsNE gc n).cv _ _ e)
  | panic => exact absurd h1 ((C08_no_panic gc n rc).2.1 t u)
  | timeout => exact absurd rfl hr

/-! ## Examples -/

namespace Example

/-- `x => x x`, and this applied to itself -/
def selfAppTm : STerm := .scomb (.abst ['x'] none (.scomb (.appl (.var 0) [.var 0])))
def omegaTm : STerm := .scomb (.appl selfAppTm [selfAppTm])

/-- `(x => y => x) c omegaTm` -/
def dropped : STerm := .scomb (.appl (.scomb (.abst ['x'] none (.scomb (.abst ['y'] none (.var 1))))) [.const 3, omegaTm])

/-- no rules -/
def bareGc : GCtx := { Example.gc with rules := fun _ => none }

theorem bareDefinitional : Definitional bareGc.rules := ⟨nofun, nofun, nofun⟩

theorem omegaTm_step (eta : Bool) : Step bareGc.rules eta omegaTm.den omegaTm.den := Step.dbeta _ _

theorem dropped_red : Red bareGc.rules bareGc.eta dropped.den (.const 3) :=
  .trans (.app (.dbeta _ _) (.refl _)) (.dbeta _ _)

theorem bare_normal (s : Sym) (u : Tm) : ¬ Step bareGc.rules bareGc.eta (.const s) u :=
  fun h => by have := h.dstep bareDefinitional; cases this with | delta h => obtain ⟨_, _, h, _⟩ := h; cases h

end Example

/-- The term has an infinite reduction, so C51 says nothing; it has a normal form, so its evaluation comes to an end. -/
example : ¬ SN Example.bareGc.rules Example.bareGc.eta Example.dropped.den ∧
    ∀ rc, ∃ n u s, ∀ m, n ≤ m → whnf m Example.bareGc Example.dropped (St.init rc) = .ok (u, s) := by
  refine ⟨fun h => ?_, fun rc => (C68_whnf _ Example.bareDefinitional rc _).2 ⟨_, Example.dropped_red, .const (ts := []) (by intro rs r h; cases h)⟩⟩
  have hs : Step Example.bareGc.rules Example.bareGc.eta Example.dropped.den Example.dropped.den := .appR (Example.omegaTm_step _)
  exact acc_irrefl h hs

/-- Its comparison with the constant comes to an end. -/
example (rc : Nat → Bool) : ∃ n b s, (∀ m, n ≤ m → convertible m Example.bareGc Example.dropped (.const 3) (St.init rc) = .ok (b, s)) ∧
    (b = true ↔ Conv Example.bareGc.rules Example.bareGc.eta Example.dropped.den (.const 3)) :=
  C68_convertible _ Example.bareDefinitional rc _ _ ⟨_, Example.dropped_red, Example.bare_normal 3⟩ ⟨_, .refl _, Example.bare_normal 3⟩

/-! ## With rewrite rules -/

namespace Example

/-- constants `A`, `B`, `c`; the rule `loop --> loop`, and the rules `f A A --> c`, `f x B --> c` -/
def lazyCmds : List Cmd :=
  [.intro 1 (.declaration false .type), .intro 2 (.declaration false .type), .intro 3 (.declaration false .type),
   .intro 7 (.declaration true .type), .intro 8 (.declaration true .type),
   .rules [⟨[], ⟨7, []⟩, .const 7⟩, ⟨[], ⟨8, [.symb 1 [], .symb 1 []]⟩, .const 3⟩, ⟨[(['x'], none)], ⟨8, [.mvar 0, .symb 2 []]⟩, .const 3⟩]]

def lazyGc : GCtx := { Example.gc with rules := rulesOfCmds lazyCmds }

/-- `f loop B` -/
def lazyTerm : STerm := .scomb (.appl (.const 8) [.const 7, .const 2])

end Example

/-- C68. This does not hold for rewrite rules, even orthogonal ones: arguments are evaluated from left to right to match the rules one after
another, so `f loop B` is evaluated for ever, although the second rule rewrites it to a constant. -/
theorem C68_rules_false : ∃ (gc : GCtx) (t : STerm) (w : Tm), gc.eta = false ∧ Orthogonal gc.rules ∧ Red gc.rules gc.eta t.den w ∧
    Whnf gc.rules gc.eta w ∧ ∀ n rc, whnf n gc t (St.init rc) = .timeout := by
  refine ⟨Example.lazyGc, Example.lazyTerm, .const 3, rfl, C49_orthogonal _ (by decide +kernel), ?_, ?_, fun n rc => ?_⟩
  · have hp : PBinds [.mvar 0, .symb 2 []] [.const 7, .const 2] [(0, .const 7)] := .cons (.mvar 0 _) (.cons (.symb (ts := []) .nil) .nil)
    refine Red.rule (s := 8) (r := ⟨[(['x'], none)], ⟨8, [.mvar 0, .symb 2 []]⟩, .const 3⟩) (σ := fun m => if m = 0 then .const 7 else .var m) rfl
      (by simp) ?_ hp ⟨?_, ?_⟩ ?_
    · intro m; simp [Pattern.varsList, Pattern.vars]
    · intro m t h
      by_cases hm : m = 0
      · subst hm; simpa using h
      · rw [List.lookup_cons, beq_false_of_ne hm] at h
        cases h
    · intro p hp
      simp only [List.mem_singleton] at hp
      subst hp
      exact .refl _
    · intro m hm
      simp only [List.length_singleton] at hm
      exact ⟨m, by rw [if_neg (by omega)]⟩
  · refine .const (ts := []) fun rs r h hr => ?_
    have : Example.lazyGc.rules 3 = some [] ∨ Example.lazyGc.rules 3 = none := by
      first | exact .inl rfl | exact .inr rfl
    rcases this with e | e
    · rw [e] at h; cases h; cases hr
    · rw [e] at h; cases h
  have key : ∀ n s, (ops Example.lazyGc n).wh { ctx := [], term := .const 7, stack := [] } s = .timeout := by
    intro n
    induction n with
    | zero => intro s; rfl
    | succ n ih => exact fun s => ih s
  have tb : ∀ {α β : Type} {m : M α} {f : α → M β} {s : St}, m s = .timeout → M.bind m f s = .timeout := by
    intro α β m f s h
    unfold M.bind
    rw [h]
  match n with
  | 0 => rfl
  | 1 => rfl
  | n + 2 =>
    have h7 : ∀ s, rwhnf (ops Example.lazyGc n) 1 ⟨[⟨⟨[], .const 2, []⟩, false, false⟩, ⟨⟨[], .const 7, []⟩, false, false⟩], [], s⟩ = .timeout := by
      intro s
      show M.bind (M.bind _ _) _ _ = _
      simp only [M.bind]
      erw [key]
    have h8 : (ops Example.lazyGc (n + 1)).wh ⟨[], .const 8, [1, 0]⟩
        ⟨[⟨⟨[], .const 2, []⟩, false, false⟩, ⟨⟨[], .const 7, []⟩, false, false⟩], [], rc⟩ = .timeout := by
      refine tb (m := firstMatch _ _ _) ?_
      refine tb (m := matchFlatten _ _ _) ?_
      refine tb (m := matchRule _ _ _) ?_
      refine tb (m := matchPat _ _ _ _) ?_
      exact tb (m := rwhnf _ _) (h7 rc)
    show M.bind _ _ _ = _
    unfold M.bind
    have h9 : (ops Example.lazyGc (n + 2)).wh ⟨[], Example.lazyTerm, []⟩ (St.init rc) = .timeout := h8
    rw [h9]

#print axioms C68_whnf
#print axioms C68_head
#print axioms C68_diverges
#print axioms C68_convertible
#print axioms C68_rules_false

end Kontroli
