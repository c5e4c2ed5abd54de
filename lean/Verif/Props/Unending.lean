import Verif.Proofs.Unending
import Verif.Props.Arith

/-!
# C73: the example file whose check does not come to an end

`/repo/examples/bench/inf.dk` is there to show that the checker may run forever: its last command is called `does_not_terminate`.  It is proved here that the
command is right, and that the checker neither accepts nor refuses it, however long it runs.
-/

namespace Kontroli

/-- C73 (evaluation): a term without weak-head normal form is not evaluated, with any fuel; whatever the rules are. -/
theorem C73_whnf (gc : GCtx) (t : STerm) (h : ¬ HasWhnf gc.rules gc.eta t.den) (n : Nat) (rc : Nat → Bool) : whnf n gc t (St.init rc) = .timeout :=
  whnf_timeout h n rc

/-- C73 (comparison): a term without weak-head normal form is not compared to any term but itself. -/
theorem C73_convertible (gc : GCtx) (t u : STerm) (hd : t.den ≠ u.den) (h : ¬ HasWhnf gc.rules gc.eta t.den ∨ ¬ HasWhnf gc.rules gc.eta u.den) (n : Nat)
    (rc : Nat → Bool) : convertible n gc t u (St.init rc) = .timeout :=
  convertible_timeout hd (fun k => h.elim (· k.1) (· k.2)) n rc

set_option maxRecDepth 100000 in
/-- C73 (inf.dk): the file, after nat.dk, is read as these commands; the last is `does_not_terminate`. -/
theorem C73_inf_text : Example.cmdsOf "inf" (natText ++ infText) = (natCmds ++ infCmds ++ [Cmd.intro 21 (infThm 0 1)]).map .ok :=
  cmdsAre_sound _ _ (by decide +kernel)

/-- C73 (inf.dk): all terms `to_zero (succ (... (succ inf)))` are convertible, and none has a weak-head normal form. -/
theorem C73_inf_terms (i j : Nat) : Conv (rulesOfCmds (natCmds ++ infCmds)) false (toZero i).den (toZero j).den ∧
    ¬ HasWhnf (rulesOfCmds (natCmds ++ infCmds)) false (toZero i).den := ⟨toZero_conv i j, toZero_no_whnf false i⟩

/-- C73 (inf.dk): the last command is right by the rules of the textbook. -/
theorem C73_inf_right (k : Kern) (hk : k.Real) (opt : Opt) (ho : opt.omitted = none) (he : opt.eta = false) (gc : GCtx)
    (h : inferChecksSeq k opt (GCtx.start opt.eta) ((natCmds ++ infCmds).map .ok) = (gc, .ok ())) (i j : Nat) :
    Strict gc.theory [] (LTerm.appl (.const 18) [toZero j]).den (LTerm.appl (.const 17) [toZero i]).den := by
  rw [inferChecksSeq_all ho] at h
  exact inf_right hk ho he h i j

/-- C73 (inf.dk): the checker comes to no answer on the last command, with any fuel. -/
theorem C73_inf_unending (k : Kern) (hk : k.Real) (opt : Opt) (ho : opt.omitted = none) (he : opt.eta = false) (gc : GCtx)
    (h : inferChecksSeq k opt (GCtx.start opt.eta) ((natCmds ++ infCmds).map .ok) = (gc, .ok ())) (s : Sym) (hs : 20 < s) (i j : Nat) (hij : i ≠ j) (n : Nat)
    (rc : Nat → Bool) : (inferCheck (Kern.std n rc) opt gc (.intro s (infThm i j))).2 = .timeout := by
  rw [inferChecksSeq_all ho] at h
  exact inf_unending hk ho he h hs hij n rc

theorem seqLoop_last_ok {k : Kern} {opt : Opt} {c : Cmd} : ∀ {cmds : List Cmd} {gc : GCtx}, (seqLoop k opt gc ((cmds ++ [c]).map .ok)).2 = .ok () →
    ∃ gc', seqLoop k opt gc (cmds.map .ok) = (gc', .ok ()) ∧ (inferCheck k opt gc' c).2 = .ok ()
  | [], gc, h => by
    refine ⟨gc, rfl, ?_⟩
    simp only [List.nil_append, List.map_cons, List.map_nil, seqLoop] at h
    rcases e : inferCheck k opt gc c with ⟨gc1, o⟩
    rw [e] at h
    cases o with
    | ok _ => rfl
    | _ => exact h
  | d :: cmds, gc, h => by
    simp only [List.cons_append, List.map_cons, seqLoop] at h ⊢
    rcases e : inferCheck k opt gc d with ⟨gc1, o⟩
    rw [e] at h
    cases o with
    | ok _ => exact seqLoop_last_ok h
    | _ => cases h

/-- C73 (inf.dk): the last command is not accepted with eta either. -/
theorem C73_inf_never (k : Kern) (hk : k.Real) (opt : Opt) (ho : opt.omitted = none) (gc : GCtx)
    (h : inferChecksSeq k opt (GCtx.start opt.eta) ((natCmds ++ infCmds).map .ok) = (gc, .ok ())) (s : Sym) (i j : Nat) (hij : i ≠ j) (n : Nat)
    (rc : Nat → Bool) : (inferCheck (Kern.std n rc) opt gc (.intro s (infThm i j))).2 ≠ .ok () := by
  rw [inferChecksSeq_all ho] at h
  exact inf_never hk ho h hij n rc

/-- C73 (inf.dk): the file as it stands in the repository is never accepted, with or without eta. -/
theorem C73_inf_file (opt : Opt) (ho : opt.omitted = none) (n : Nat) (rc : Nat → Bool) :
    (inferChecksSeq (Kern.std n rc) opt (GCtx.start opt.eta) (Example.cmdsOf "inf" (natText ++ infText))).2 ≠ .ok () := by
  rw [C73_inf_text, inferChecksSeq_all ho]
  intro h
  obtain ⟨gc, h1, h2⟩ := seqLoop_last_ok h
  exact inf_never (Kern.std_real n rc) ho h1 (by decide) n rc h2

set_option maxRecDepth 100000 in
/-- What comes before the last command is accepted. -/
theorem Example.inf_says : Example.says (natCmds ++ infCmds) = ((Example.says (natCmds ++ infCmds)).1, .ok ()) := Example.says_ok (by decide +kernel)

/-- The last command of the file, with a billion steps. -/
example : (inferCheck (Kern.std 1000000000 fun _ => true) ⟨false, none, false⟩ (Example.says (natCmds ++ infCmds)).1 (.intro 21 (infThm 0 1))).2 = .timeout :=
  C73_inf_unending Example.kern (Kern.std_exact _ _).real ⟨false, none, false⟩ rfl rfl _ Example.inf_says 21 (by decide) 0 1 (by decide) _ _

set_option maxRecDepth 100000 in
/-- The numbers must differ: `Dep (to_zero inf) := dep (to_zero inf)` is accepted at once, since the terms are equal. -/
example : (inferCheck Example.kern ⟨false, none, false⟩ (Example.says (natCmds ++ infCmds)).1 (.intro 21 (infThm 1 1))).2.isOk = true := by decide +kernel

set_option maxRecDepth 100000 in
/-- It is `to_zero` that makes the difference: `inf` and `succ inf` are compared. -/
example : (inferCheck Example.kern ⟨false, none, false⟩ (Example.says (natCmds ++ infCmds)).1
    (.intro 21 (.definition (some (.appl (.const 17) [infNum 0])) (some (.appl (.const 18) [infNum 1]))))).2.isOk = true := by decide +kernel

#print axioms C73_whnf
#print axioms C73_convertible
#print axioms C73_inf_text
#print axioms C73_inf_terms
#print axioms C73_inf_right
#print axioms C73_inf_unending
#print axioms C73_inf_never
#print axioms C73_inf_file

end Kontroli
