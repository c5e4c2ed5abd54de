import Verif.Spec.Fib
import Verif.Props.Arith

/-!
# C70, continued: definitions after nat.dk, and the benchmark `/repo/examples/bench/fib24.dk`
-/

namespace Kontroli

section
variable {k : Kern} {opt : Opt} {gc : GCtx} (hk : k.Real) (ho : opt.omitted = none) (he : opt.eta = false)
variable (h : seqLoop k opt (GCtx.start opt.eta) (natCmds.map .ok) = (gc, .ok ()))

include hk ho he h in
theorem natDef_dep {e e' : NExp} {A : LTerm} (h2 : IntroJustified gc.theory (natDef e e') A) : e.val = e'.val := by
  obtain ⟨-, -, hC, hconv⟩ := nat_church hk he h
  have h3 := h2.body _ rfl
  rw [h2.given _ rfl] at h3
  have h18 : gc.theory.ty 18 = some (.pi (.const 0) (.app (.const 17) (.var 0))) := seqLoop_ty hk ho h 23 rfl rfl
  have h4 : gc.theory.Conv (.app (.const 17) e'.term.den) (.app (.const 17) e.term.den) := HasType.call hC h18 h3
  exact ((NExp.dep_iff e' e).1 ((hconv _ _).1 h4)).symm

include hk ho he h in
theorem natDef_complete {k' : Kern} (hk' : k'.Exact) {s : Sym} (hs : 18 < s) {e e' : NExp} (hv : e.val = e'.val) :
    (inferCheck k' opt gc (.intro s (natDef e e'))).2 = .ok () ∨ (inferCheck k' opt gc (.intro s (natDef e e'))).2 = .timeout := by
  obtain ⟨h1, h2, hC, hconv⟩ := nat_church hk he h
  have hcr : Confluent gc.rules := h2 ▸ natR_confluent
  have h17 : gc.theory.ty 17 = some (.pi (.const 0) .type) := seqLoop_ty hk ho h 22 rfl rfl
  have h18 : gc.theory.ty 18 = some (.pi (.const 0) (.app (.const 17) (.var 0))) := seqLoop_ty hk ho h 23 rfl rfl
  refine C44_command_complete gc (.plain h1 hcr) (seqLoop_cmds_levelled hk ho he (fun _ _ => natCmds_confluent) natCmds_levelled h)
    k' hk' opt _ (GCtx.eta_off h1) ⟨?_, ?_⟩ ?_ ⟨?_, ?_, ⟨.type, .type, ?_⟩, ?_⟩
  · rintro A ⟨⟩
    exact ⟨trivial, e.annotated⟩
  · rintro t ⟨⟩
    exact ⟨trivial, e'.annotated⟩
  · rintro A ⟨⟩ hk
    exact hk.elim
  · exact (seqLoop_fresh hk ho h (by decide +kernel) hs).1
  · exact (seqLoop_fresh hk ho h (by decide +kernel) hs).2
  · exact .app (B := .type) (.const h17) (e.typed hk ho he h [])
  · refine .conv (A := .app (.const 17) e'.term.den) ?_ ((hconv _ _).2 ((NExp.dep_iff e' e).2 hv.symm))
      (.app (B := .type) (.const h17) (e.typed hk ho he h [])) .type
    exact .app (B := .app (.const 17) (.var 0)) (.const h18) (e'.typed hk ho he h [])

end

/-- C70 (definitions): with enough steps, the checker accepts `def s : Dep e := dep e'.` after nat.dk if the expressions have the same value, and otherwise it
gives an error. -/
theorem C70_nat_defines (k : Kern) (hk : k.Real) (opt : Opt) (ho : opt.omitted = none) (he : opt.eta = false) (gc : GCtx)
    (h : inferChecksSeq k opt (GCtx.start opt.eta) (natCmds.map .ok) = (gc, .ok ())) (rc : Nat → Bool) (s : Sym) (hs : 18 < s) (e e' : NExp) :
    ∃ n, (e.val = e'.val ∧ ∀ m, n ≤ m → (inferCheck (Kern.std m rc) opt gc (.intro s (natDef e e'))).2 = .ok ()) ∨
      (e.val ≠ e'.val ∧ ∃ err, ∀ m, n ≤ m → (inferCheck (Kern.std m rc) opt gc (.intro s (natDef e e'))).2 = .err err) := by
  obtain ⟨n, r, hr, hn⟩ := C70_nat_ends k hk opt ho he gc h rc s (natDef e e')
  rw [inferChecksSeq_all ho] at h
  have h1 := hn n le_rfl
  refine ⟨n, ?_⟩
  obtain ⟨gc', o⟩ := r
  cases o with
  | ok u =>
    obtain ⟨-, A, -, h3⟩ := inferCheck_intro_sound (Kern.std_real n rc) (by simp [Opt.omits, ho]) h1
    exact .inl ⟨natDef_dep hk ho he h h3, fun m hm => by rw [hn m hm]⟩
  | err er =>
    refine .inr ⟨fun hv => ?_, er, fun m hm => by rw [hn m hm]⟩
    have := natDef_complete hk ho he h (Kern.std_exact n rc) hs hv
    rw [h1] at this
    rcases this with h2 | h2 <;> cases h2
  | panic => exact absurd (congrArg Prod.snd h1) (inferCheck_panic (Kern.std_exact n rc).safe gc _)
  | timeout => exact absurd rfl hr

set_option maxRecDepth 100000 in
/-- C70 (fib24.dk): the benchmark, after nat.dk, is read as these commands. -/
theorem C70_fib24_text : Example.cmdsOf "fib24" (natText ++ fib24Text) = (natCmds ++ [Cmd.intro 19 (natDef fib24 fib24')]).map .ok :=
  cmdsAre_sound _ _ (by decide +kernel)

/-- C70 (fib24.dk): the benchmark is accepted, with enough steps, after nat.dk is. -/
theorem C70_fib24 (k : Kern) (hk : k.Real) (opt : Opt) (ho : opt.omitted = none) (he : opt.eta = false) (gc : GCtx)
    (h : inferChecksSeq k opt (GCtx.start opt.eta) (natCmds.map .ok) = (gc, .ok ())) (rc : Nat → Bool) :
    ∃ n, ∀ m, n ≤ m → (inferCheck (Kern.std m rc) opt gc (.intro 19 (natDef fib24 fib24'))).2 = .ok () := by
  obtain ⟨n, hn | hn⟩ := C70_nat_defines k hk opt ho he gc h rc 19 (by decide) fib24 fib24'
  · exact ⟨n, hn.2⟩
  · exact absurd rfl hn.1

/-- The number that both sides stand for. -/
example : fib24.val = 46368 := by decide +kernel

/-- nat.dk is accepted, so the benchmark is. -/
example : ∃ n, ∀ m, n ≤ m → (inferCheck (Kern.std m fun _ => true) ⟨false, none, false⟩ (Example.says natCmds).1 (.intro 19 (natDef fib24 fib24'))).2 = .ok () :=
  C70_fib24 Example.kern (Kern.std_exact _ _).real ⟨false, none, false⟩ rfl rfl _ Example.nat_says _

/-- `def s : Dep (fib 3) := dep 3.` gives an error, as the third Fibonacci number is 2. -/
example : ∃ n err, ∀ m, n ≤ m → (inferCheck (Kern.std m fun _ => true) ⟨false, none, false⟩ (Example.says natCmds).1
    (.intro 19 (natDef (.fib (.digit 2)) (.digit 2)))).2 = .err err := by
  obtain ⟨n, h | h⟩ := C70_nat_defines Example.kern (Kern.std_exact _ _).real ⟨false, none, false⟩ rfl rfl _ Example.nat_says (fun _ => true) 19 (by decide)
    (.fib (.digit 2)) (.digit 2)
  · exact absurd h.1 (by decide)
  · exact ⟨n, h.2⟩

#print axioms C70_nat_defines
#print axioms C70_fib24_text
#print axioms C70_fib24

end Kontroli
