import Verif.Proofs.SimDriver
import Verif.Spec.Nat
import Verif.Props.Eval
import Verif.Props.Session

/-!
# C34, C39: answers do not depend on the order of the terms, on reference counts or on the representation of terms

The oracle of reference counts is part of the state, so quantifying over two states quantifies over two oracles.  Nothing is assumed about
the rules: they need be neither confluent nor terminating.  The theorems compare runs that come to an end.
-/

namespace Kontroli

open Example (okAnd okAnd_elim)

/-! ## Evaluation and conversion -/

/-- C39 for evaluation: two evaluations of terms that denote the same plain term, with any reference counts, give results that denote the same
plain term. -/
theorem C39_whnf (gc : GCtx) (n m : Nat) (t u t' u' : STerm) (s1 s2 s1' s2' : St) (htu : t.den = u.den)
    (h : whnf n gc t s1 = .ok (t', s1')) (h' : whnf m gc u s2 = .ok (u', s2')) : t'.den = u'.den :=
  (whnfTerm_sim (simOps gc n m) (P := False) (fun h => h.elim) ⟨htu, fun h => h.elim⟩ h h').2.2.1.1

/-- C39 for the conversion test: the answer depends only on the plain terms. -/
theorem C39_convertible (gc : GCtx) (n m : Nat) (t u t' u' : STerm) (b b' : Bool) (s1 s2 s1' s2' : St) (ht : t.den = t'.den)
    (hu : u.den = u'.den) (h : convertible n gc t u s1 = .ok (b, s1')) (h' : convertible m gc t' u' s2 = .ok (b', s2')) : b = b' :=
  ((simOps gc n m).cv _ _ (.cons (.inl ⟨ht, hu⟩) .nil) _ _ _ _ _ _ h h').2.2

/-- C34, symmetry: the answer does not depend on the order of the terms. -/
theorem C34_symm (gc : GCtx) (n m : Nat) (t u : STerm) (b b' : Bool) (s1 s2 s1' s2' : St)
    (h : convertible n gc t u s1 = .ok (b, s1')) (h' : convertible m gc u t s2 = .ok (b', s2')) : b = b' :=
  ((simOps gc n m).cv _ _ (.cons (.inr ⟨rfl, rfl⟩) .nil) _ _ _ _ _ _ h h').2.2

/-- C34, reflexivity on plain terms: if the test ends, it answers yes on two representations of a plain term. -/
theorem C34_refl_den (gc : GCtx) (n : Nat) (t u : STerm) (b : Bool) (s s' : St) (htu : t.den = u.den)
    (h : convertible n gc t u s = .ok (b, s')) : b = true :=
  C39_convertible gc n 2 t u t t b true s s s' s rfl htu.symm h (C34_refl gc 0 t s)

/-- the two orders of `(x => x + x) (1 + 1)` and `1`, with different outcomes of the uniqueness tests -/
example : (∃ b s, convertible 100 Example.gc (STerm.ofL Example.double) (STerm.ofL Example.one)
      (St.init fun _ => true) = .ok (b, s) ∧ (!b) = true) ∧
    (∃ b s, convertible 100 Example.gc (STerm.ofL Example.one) (STerm.ofL Example.double)
      (St.init fun k => k % 2 == 0) = .ok (b, s) ∧ (!b) = true) :=
  ⟨okAnd_elim (p := fun b => !b) (by decide +kernel), okAnd_elim (p := fun b => !b) (by decide +kernel)⟩

/-! ## Inference and checking

The code can represent the application of a term to no arguments; parsing and sharing make no such terms (`shareAll_proper`).  Terms without
them are proper (`Spec/Proper.lean`). -/

theorem GCtx.Proper.rel {gc : GCtx} (h : gc.Proper) : GRel gc gc := .refl h.rules h.types

theorem ctxRel {lc lc' : LCtx} (hp : ∀ A ∈ lc, A.Proper) (hp' : ∀ A ∈ lc', A.Proper) (h : lc.map STerm.den = lc'.map STerm.den) :
    LRel lc lc' := by
  induction lc generalizing lc' with
  | nil =>
    cases lc' with
    | nil => exact .nil
    | cons => simp at h
  | cons A lc ih =>
    cases lc' with
    | nil => simp at h
    | cons A' lc' =>
      simp only [List.map_cons, List.cons.injEq] at h
      exact .cons (.mk h.1 (hp A (by simp)) (hp' A' (by simp)))
        (ih (fun B hB => hp B (by simp [hB])) (fun B hB => hp' B (by simp [hB])) h.2)

theorem LRel.dens {lc lc' : LCtx} (h : LRel lc lc') : lc.map STerm.den = lc'.map STerm.den := by
  induction h with
  | nil => rfl
  | cons h _ ih => simp [h.1, ih]

theorem ResRel.mono {α β : Type} {Q Q' : α → β → Prop} {m : Res α} {m' : Res β} (h : ResRel Q m m') (hq : ∀ a b, Q a b → Q' a b) :
    ResRel Q' m m' := by
  cases m <;> cases m' <;> first | exact hq _ _ h | exact h

/-- C39 for inference: two runs on a term, in local contexts that denote the same, with any reference counts, end with types that denote the
same plain term, or with the same error. -/
theorem C39_infer (gc : GCtx) (hgc : gc.Proper) (n m : Nat) (lc lc' : LCtx) (hlc : ∀ A ∈ lc, A.Proper) (hlc' : ∀ A ∈ lc', A.Proper)
    (h : lc.map STerm.den = lc'.map STerm.den) (t : STerm) (ht : t.Proper) (s s' : St) :
    ResRel (fun r r' => r.1.1.den = r'.1.1.den ∧ r.1.2.map STerm.den = r'.1.2.map STerm.den) (infer n gc lc t s) (infer m gc lc' t s') :=
  (Agree.infer hgc.rel n m (ctxRel hlc hlc' h) ht s s').mono fun _ _ h => ⟨h.1.1, h.2.dens⟩

/-- C39 for checking: two runs on a term and types that denote the same, with any reference counts, end with the same answer, or with the same
error. -/
theorem C39_check (gc : GCtx) (hgc : gc.Proper) (n m : Nat) (lc lc' : LCtx) (hlc : ∀ A ∈ lc, A.Proper) (hlc' : ∀ A ∈ lc', A.Proper)
    (h : lc.map STerm.den = lc'.map STerm.den) (t A A' : STerm) (ht : t.Proper) (hA : A.Proper) (hA' : A'.Proper) (hAA : A.den = A'.den)
    (s s' : St) : ResRel (fun r r' => r.1.1 = r'.1.1) (check n gc lc t A s) (check m gc lc' t A' s') :=
  (Agree.check hgc.rel n m (ctxRel hlc hlc' h) ht (.mk hAA hA hA') s s').mono fun _ _ h => h.1

theorem Example.gc_proper : Example.gc.Proper := by
  have hR : ∀ {s rs r}, Example.gc.rules s = some rs → r ∈ rs → r = Example.plusZero ∨ r = Example.plusSucc := by
    intro s rs r h h'
    simp only [Example.gc] at h
    split at h
    · cases h; simpa using h'
    · cases h
  constructor
  · intro s rs h r hr
    rcases hR h hr with rfl | rfl
    · trivial
    · simp [Example.plusSucc, Example.app, LTerm.Proper, LComb.Proper, LTerm.ProperList]
  · intro s A h
    simp only [Example.gc] at h
    split at h <;> first | (cases h; done) | (cases h; simp [LTerm.Proper, LComb.Proper, Example.arrow])

/-- the type of `(x : Nat => x + x) (1 + 1)` is inferred, with two kinds of reference counts -/
example : (STerm.ofL Example.double).Proper ∧
    (∃ r s, infer 50 Example.gc [] (STerm.ofL Example.double) (St.init fun _ => true) = .ok (r, s) ∧ r.1.beq (.const Example.nat) = true) ∧
    (∃ r s, infer 60 Example.gc [] (STerm.ofL Example.double) (St.init fun k => k % 2 == 0) = .ok (r, s) ∧
      r.1.beq (.const Example.nat) = true) :=
  ⟨by simp [Example.double, Example.onePlusOne, Example.one, Example.app, STerm.ofL, STerm.Proper, LTerm.Proper, LComb.Proper, LTerm.ProperOpt,
      LTerm.ProperList],
    okAnd_elim (p := fun r : STerm × LCtx => r.1.beq (.const Example.nat)) (by decide +kernel),
    okAnd_elim (p := fun r : STerm × LCtx => r.1.beq (.const Example.nat)) (by decide +kernel)⟩

/-! ## Commands, sessions, programs -/

/-- C39 for sessions: two runs over the same commands that come to a verdict come to the same verdict, also if it is an error, and build
contexts with the same rules and types that denote the same plain terms. -/
theorem C39_session (k k' : Kern) (hk : k.Exact) (hk' : k'.Exact) (opt : Opt) (gc g g' : GCtx) (hgc : gc.Proper) (cmds : List (Out Cmd))
    (hc : ∀ c, .ok c ∈ cmds → c.Proper) (res res' : Out Unit) (h : inferChecksSeq k opt gc cmds = (g, res))
    (h' : inferChecksSeq k' opt gc cmds = (g', res')) (hd : res.Decided) (hd' : res'.Decided) : res = res' ∧ g.theory = g'.theory := by
  have := inferChecksSeq_rel hk hk' hgc.rel opt hc
  rw [h, h'] at this
  exact ⟨(this hd hd').1, (this hd hd').2.theory⟩

/-- the session with natural numbers is accepted with two kinds of reference counts -/
example : (Kern.std 60 fun _ => false).Exact ∧ (Kern.std 70 fun k => k % 2 == 0).Exact ∧ (∀ c, .ok c ∈ Example.session → c.Proper) ∧
    (inferChecksSeq (Kern.std 60 fun _ => false) ⟨false, none, false⟩ (GCtx.start false) Example.session).2.isOk = true ∧
    (inferChecksSeq (Kern.std 70 fun k => k % 2 == 0) ⟨false, none, false⟩ (GCtx.start false) Example.session).2.isOk = true := by
  refine ⟨Kern.std_exact _ _, Kern.std_exact _ _, ?_, by decide +kernel, by decide +kernel⟩
  intro c h
  simp only [Example.session, List.mem_cons, Out.ok.injEq, List.not_mem_nil, or_false] at h
  rcases h with rfl | rfl | rfl | rfl | rfl | rfl | rfl | rfl <;>
    simp [Cmd.Proper, Intro.Proper, Rule.Proper, LTerm.ProperOpt, LTerm.Proper, LComb.Proper, LTerm.ProperList, Example.arrow, Example.app,
      Example.plusZero, Example.plusSucc, Example.onePlusOne, Example.one, Example.two, Example.double]
  rintro a b (⟨-, rfl⟩ | ⟨-, rfl⟩) <;> trivial

/-- C39 for programs: two runs of the checker with one thread over the same files that come to a verdict come to the same verdict, also if it
is an error, and build the same theory. -/
theorem C39_program (k k' : Kern) (hk : k.Exact) (hk' : k'.Exact) (opt : Opt) (hj : opt.jobs = false) (fs : FileSystem) (stdin : Str)
    (paths : List Str) (gc gc' : GCtx) (res res' : Out Unit) (h : RunPaths k opt fs stdin paths gc res)
    (h' : RunPaths k' opt fs stdin paths gc' res') (hd : res.Decided) (hd' : res'.Decided) : res = res' ∧ gc.theory = gc'.theory := by
  have := runFiles_rel hk hk' hj (GRel.start opt.eta) h h' hd hd'
  exact ⟨this.1, this.2.theory⟩

/-- C39 for programs and threads: if a run, with any number of threads, accepts the files, then a run with one thread accepts them if it comes to
a verdict, and builds the same theory. -/
theorem C39_threads (k k' : Kern) (hk : k.Exact) (hk' : k'.Exact) (opt : Opt) (fs : FileSystem) (stdin : Str)
    (paths : List Str) (gc gc' : GCtx) (res' : Out Unit) (h : RunPaths k opt fs stdin paths gc (.ok ()))
    (h' : RunPaths k' { opt with jobs := false } fs stdin paths gc' res') (hd' : res'.Decided) : res' = .ok () ∧ gc.theory = gc'.theory := by
  obtain ⟨files, hf⟩ := runFiles_ok_files h
  have h1 : RunPaths k { opt with jobs := false } fs stdin paths gc (.ok ()) := by
    unfold RunPaths Run at h ⊢
    rw [hf] at h ⊢
    rw [runFiles_ok_iff] at h ⊢
    rw [inferChecksSeq_jobs, allCmds_jobs]
    exact h
  have := C39_program k k' hk hk' _ rfl fs stdin paths gc gc' _ res' h1 h' (.inl ⟨_, rfl⟩) hd'
  exact ⟨this.1.symm, this.2⟩

#print axioms C39_whnf
#print axioms C39_convertible
#print axioms C34_symm
#print axioms C34_refl_den
#print axioms C39_infer
#print axioms C39_check
#print axioms C39_session
#print axioms C39_program
#print axioms C39_threads

end Kontroli
