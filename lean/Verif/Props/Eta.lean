import Verif.Proofs.Adequacy
import Verif.Proofs.EtaApart
import Verif.Proofs.StaticProgram
import Verif.Spec.Nat

/-!
# C43 with eta: the conversion test decides conversion if the rules only unfold definitions
-/

namespace Kontroli

open Example (okAnd okAnd_elim)

/-- C43. With eta, if the rules only unfold definitions, the answer of the conversion test is right, be it yes or no. -/
theorem C43_eta_definitions (gc : GCtx) (heta : gc.eta = true) (hd : Definitional gc.rules) (n : Nat) (rc : Nat → Bool)
    (t u : STerm) (b : Bool) (s : St) (h : convertible n gc t u (St.init rc) = .ok (b, s)) :
    b = true ↔ Conv gc.rules true t.den u.den := by
  have h' := TriG.ok (Tri.convertible gc n t u) h
  rw [heta] at h'
  constructor
  · exact h'.1
  · intro hc
    cases b with
    | true => rfl
    | false => exact absurd hc (Apart.notConvE hd (h'.2 rfl))

/-- C43. Reduction by beta, eta and definitions is confluent: convertible terms have a common reduct. -/
theorem C43_eta_confluent (R : RuleMap) (hd : Definitional R) (t u : Tm) (h : Conv R true t u) :
    ∃ v, RedE R t v ∧ RedE R u v := hd.confluent h

/-- C43. The rules made by running a program without rewrite rules only unfold definitions. Hence, after any such run with the option
`--eta`, the conversion test is right. -/
theorem C43_eta_program (k : Kern) (hk : k.Real) (opt : Opt) (es : List Entry) (hes : ∀ e ∈ es, ∀ rs, e.cmd ≠ .rules rs) (cmds : List Cmd)
    (hsh : Shared [] es cmds) (gc : GCtx) (hrun : seqLoop k opt (GCtx.start true) (cmds.map .ok) = (gc, .ok ())) (n : Nat) (rc : Nat → Bool)
    (t u : STerm) (b : Bool) (s : St) (h : convertible n gc t u (St.init rc) = .ok (b, s)) :
    b = true ↔ Conv gc.rules true t.den u.den := by
  have heta : gc.eta = true := seqLoop_eta hrun
  refine C43_eta_definitions gc heta ?_ n rc t u b s h
  rw [(seqLoop_rulesEq hk hrun).1]
  refine Definitional.static ?_
  intro s rs hr
  obtain ⟨it, h1, h2⟩ := rulesOfCmds_static (hsh.noRules hes) hr
  exact hsh.static hes s it h1 rs h2

namespace Example

/-- Eta, and the definition `def f := x => c x`; `f` is symbol 5, `c` is 6. -/
def etaDefs : GCtx :=
  { Example.gc with
    eta := true
    rules := fun s => match s with
      | 5 => some [{ ctx := [], lhs := { symbol := 5, args := [] }, rhs := .comb (.abst ['x'] none (Example.app 6 [.var 0])) }]
      | _ => none }

theorem etaDefs_definitional : Definitional etaDefs.rules := by
  refine Definitional.static ?_
  intro s rs h
  simp only [etaDefs] at h
  split at h
  · cases h
    exact .inr ⟨_, rfl, ⟨trivial, Nat.zero_lt_one⟩⟩
  · cases h

/-- `f` and `c` are found equal -/
example : ∃ s, convertible 30 etaDefs (.const 5) (.const 6) (St.init fun _ => true) = .ok (true, s) := by
  obtain ⟨b, s, h, hb⟩ := okAnd_elim (r := convertible 30 etaDefs (.const 5) (.const 6) (St.init fun _ => true)) (p := fun b => b)
    (by decide +kernel)
  subst hb
  exact ⟨s, h⟩

/-- `f` and `x => x` are not equal: a negative answer with eta -/
example : ¬ Conv etaDefs.rules true (.const 5) (.dlam (.var 0)) := by
  obtain ⟨b, s, h, hb⟩ := okAnd_elim (r := convertible 30 etaDefs (.const 5) (STerm.ofL (.comb (.abst ['x'] none (.var 0))))
    (St.init fun _ => true)) (p := fun b => !b) (by decide +kernel)
  have := C43_eta_definitions etaDefs rfl etaDefs_definitional 30 _ _ _ b s h
  cases b with
  | true => cases hb
  | false => intro hc; cases this.2 hc

end Example

#print axioms C43_eta_definitions
#print axioms C43_eta_confluent
#print axioms C43_eta_program

end Kontroli
