import Verif.Proofs.Arith
import Verif.Proofs.ArithEnds
import Verif.Proofs.SameCmd
import Verif.Proofs.TerminateDriver
import Verif.Proofs.Panic
import Verif.Props.Confluence
import Verif.Props.Correct

/-!
# C70: what the example files of the repository say

`/repo/examples/nat.dk` computes with numbers, `/repo/examples/bool.dk` with truth values, and `/repo/examples/magic.dk` computes the number of arguments of a
constructor.  The files are given to the parser of the model as they stand in the repository; what the checker then says of further commands is compared to
arithmetic (with Mathlib's factorials and Fibonacci numbers) and to truth tables.
-/

namespace Kontroli

/-- the commands that a text stands for -/
abbrev Example.cmdsOf (m : String) (text : Str) : List (Out Cmd) := allCmds ⟨false, none, false⟩ ShState.new [⟨[str m], parseText text⟩]

set_option maxRecDepth 100000 in
/-- C70 (nat.dk): the file, as it stands in the repository, is read as the commands `natCmds`. -/
theorem C70_nat_text : Example.cmdsOf "nat" natText = natCmds.map .ok := cmdsAre_sound _ _ (by decide +kernel)

set_option maxRecDepth 100000 in
/-- C70 (bool.dk): the file is read as the commands `boolCmds`. -/
theorem C70_bool_text : Example.cmdsOf "bool" boolText = boolCmds.map .ok := cmdsAre_sound _ _ (by decide +kernel)

set_option maxRecDepth 100000 in
/-- C70 (magic.dk): the file is read as the commands `magicCmds`, with the check that `cons 3` takes three elements and gives a list of length three. -/
theorem C70_magic_text : Example.cmdsOf "magic" magicText = (magicCmds ++ [Cmd.intro 7 (magicCheck 3 3 3)]).map .ok := cmdsAre_sound _ _ (by decide +kernel)

/-- C70 (redundant rules): rules that only say what follows from the other rules by conversion do not harm confluence; so the test of C43 need only be made
of the other rules. -/
theorem C70_redundant (R R' : RuleMap) (up : ∀ s rs r, R' s = some rs → r ∈ rs → ∃ rs', R s = some rs' ∧ r ∈ rs')
    (down : ∀ s rs r, R s = some rs → r ∈ rs → (∃ rs', R' s = some rs' ∧ r ∈ rs') ∨
      ∀ σ ts, PInsts σ r.lhs.args ts → Conv R' false (Tm.apps (.const s) ts) (r.rhs.den.sub σ))
    (h : Confluent R') : Confluent R := Confluent.redundant up down h

/-- C70 (the rules of nat.dk): they are confluent, although `fac (succ 0)` is rewritten by two rules to terms that are
not written the same way. -/
theorem C70_nat_confluent : Confluent (rulesOfCmds natCmds) := natR_confluent

/-- the overlap: `1`, and `mul (succ 0) (fac 0)` -/
example : orthogonal natCmds = false := by decide +kernel

/-- C70 (arithmetic): once nat.dk is accepted, `thm s : Dep e := dep e'.` is accepted exactly if the expressions have the same number as value — unless the
checker does not come to an end. -/
theorem C70_nat (k : Kern) (hk : k.Exact) (opt : Opt) (ho : opt.omitted = none) (he : opt.eta = false) (gc : GCtx)
    (h : inferChecksSeq k opt (GCtx.start opt.eta) (natCmds.map .ok) = (gc, .ok ())) (s : Sym) (hs : 18 < s) (e e' : NExp)
    (hd : (inferCheck k opt gc (.intro s (natThm e e'))).2 ≠ .timeout) :
    (inferCheck k opt gc (.intro s (natThm e e'))).2 = .ok () ↔ e.val = e'.val := by
  rw [inferChecksSeq_all ho] at h
  constructor
  · intro hr
    exact nat_sound hk.real ho he h (gc' := (inferCheck k opt gc (.intro s (natThm e e'))).1) (by rw [← hr])
  · intro hv
    exact (nat_complete ho he h hk hs hv).resolve_right hd

/-- C70 (arithmetic, the conversion test): of two expressions of nat.dk, it answers whether their values are the same. -/
theorem C70_nat_convertible (k : Kern) (hk : k.Real) (opt : Opt) (ho : opt.omitted = none) (he : opt.eta = false) (gc : GCtx)
    (h : inferChecksSeq k opt (GCtx.start opt.eta) (natCmds.map .ok) = (gc, .ok ())) (e e' : NExp) (n : Nat) (rc : Nat → Bool) (b : Bool) (st : St)
    (hr : convertible n gc (.ofL e.term) (.ofL e'.term) (St.init rc) = .ok (b, st)) : b = true ↔ e.val = e'.val := by
  rw [inferChecksSeq_all ho] at h
  obtain ⟨h1, h2, -, -⟩ := nat_church hk he h
  have := C43_decides gc h1 (show Confluent gc.rules from h2 ▸ natR_confluent) n rc _ _ b st hr
  rw [h2, STerm.den_ofL, STerm.den_ofL] at this
  exact this.trans (e.conv_iff e')

/-- C70 (truth tables): once bool.dk is accepted, the conversion test answers whether two expressions have the same truth value. -/
theorem C70_bool (k : Kern) (hk : k.Real) (opt : Opt) (ho : opt.omitted = none) (he : opt.eta = false) (gc : GCtx)
    (h : inferChecksSeq k opt (GCtx.start opt.eta) (boolCmds.map .ok) = (gc, .ok ())) (e e' : BExp) (n : Nat) (rc : Nat → Bool) (b : Bool) (st : St)
    (hr : convertible n gc (.ofL e.term) (.ofL e'.term) (St.init rc) = .ok (b, st)) : b = true ↔ e.val = e'.val := by
  rw [inferChecksSeq_all ho] at h
  have h1 := (seqLoop_rulesEq hk h).1
  have := C43_decides gc ((seqLoop_grows h).eta.trans he) (show Confluent gc.rules from h1 ▸ boolR_confluent) n rc _ _ b st hr
  rw [h1, STerm.den_ofL, STerm.den_ofL] at this
  exact this.trans (e.conv_iff e')

/-- C70 (magic.dk): once the file is accepted, `cons m` is accepted as a function of `n` elements that gives a list of length `l` exactly if `n` and `l` are
`m` — unless the checker does not come to an end. -/
theorem C70_magic (k : Kern) (hk : k.Exact) (opt : Opt) (ho : opt.omitted = none) (he : opt.eta = false) (gc : GCtx)
    (h : inferChecksSeq k opt (GCtx.start opt.eta) (magicCmds.map .ok) = (gc, .ok ())) (s : Sym) (hs : 6 < s) (n l m : Nat)
    (hd : (inferCheck k opt gc (.intro s (magicCheck n l m))).2 ≠ .timeout) :
    (inferCheck k opt gc (.intro s (magicCheck n l m))).2 = .ok () ↔ n = m ∧ l = m := by
  rw [inferChecksSeq_all ho] at h
  constructor
  · intro hr
    exact magic_sound hk.real ho he h (gc' := (inferCheck k opt gc (.intro s (magicCheck n l m))).1) (by rw [← hr])
  · rintro ⟨rfl, rfl⟩
    exact (magic_complete ho he h hk hs _).resolve_right hd

/-- C70 (rules without types): let `f` add types for the variables of the rules of a theory.  If with these types the rules are typed and structurally
recursive, on objects (or unfold definitions), then the theory, as it is without the types, is well-formed and normalising. -/
theorem C70_untyped (T : Theory) (he : T.eta = false) (cr : Confluent T.rules) (hS : T.Sorted) (f : Rule → Rule)
    (hf : ∀ r, (f r).lhs = r.lhs ∧ (f r).rhs = r.rhs ∧ (f r).ctx.length = r.ctx.length) (R : RuleMap) (hR : R = fun s => (T.rules s).map (·.map f))
    (ht : ∀ s rs r, R s = some rs → r ∈ rs → r.lhs.symbol = s ∧ RuleTyped ⟨T.ty, R, T.eta⟩ r)
    (ho : ∀ s rs r, R s = some rs → r ∈ rs →
      (r.rhs.den.FreeBelow 0 ∧ ∃ c as, r.rhs.den = Tm.apps (.const c) as) ∨ ∃ A, T.ty s = some A ∧ Strict T [] A .type)
    (hc : ∀ s rs r, R s = some rs → r ∈ rs → r.rhs.den.FreeBelow r.ctx.length)
    (hlin : ∀ s rs r, R s = some rs → r ∈ rs → (Pattern.varsList r.lhs.args).Nodup)
    (hflat : ∀ s rs r, R s = some rs → r ∈ rs → r.Flat R) (lv pos : Sym → Nat)
    (hdesc : ∀ s rs r, R s = some rs → r ∈ rs → r.rhs.den.Descends lv pos r 0) : T.WellFormed ∧ T.Normalising := by
  subst hR
  refine Theory.normalising_like he ?_ ?_ cr hS ht ?_ hc hlin hflat hdesc
  · intro s rs r h hr
    obtain ⟨h1, h2, h3⟩ := hf r
    exact ⟨rs.map f, f r, by simp only [h, Option.map_some], List.mem_map_of_mem hr, .ctx (by rw [h1]) h2.symm h3.symm⟩
  · intro s rs r h hr
    obtain ⟨rs0, h1, rfl⟩ := Option.map_eq_some_iff.1 h
    obtain ⟨r0, h2, rfl⟩ := List.mem_map.1 hr
    obtain ⟨k1, k2, k3⟩ := hf r0
    exact ⟨rs0, r0, h1, h2, .ctx (by rw [k1]) k2 k3⟩
  · intro s rs r h hr
    refine (ho s rs r h hr).imp (fun ⟨h1, c, as, h2⟩ => ⟨h1, ?_⟩) id
    rw [h2]
    exact base c as
where
  base (c : Sym) (as : List Tm) : (Tm.apps (.const c) as).simple (fun _ => .base) = .base := by
    induction as using List.reverseRecOn with
    | nil => rfl
    | append_singleton as a ih => rw [Tm.apps_append]; exact ih

/-- C70 (termination of nat.dk): once the file is accepted, its theory is well-formed, although its rules do not say the types of their variables, and every
typed term is strongly normalising in it. -/
theorem C70_nat_normalising (k : Kern) (hk : k.Real) (opt : Opt) (ho : opt.omitted = none) (he : opt.eta = false) (gc : GCtx)
    (h : inferChecksSeq k opt (GCtx.start opt.eta) (natCmds.map .ok) = (gc, .ok ())) : gc.theory.WellFormed ∧ gc.theory.Normalising :=
  nat_normalising hk ho he (by rwa [inferChecksSeq_all ho] at h)

/-- C70 (termination of bool.dk): the same. -/
theorem C70_bool_normalising (k : Kern) (hk : k.Real) (opt : Opt) (ho : opt.omitted = none) (he : opt.eta = false) (gc : GCtx)
    (h : inferChecksSeq k opt (GCtx.start opt.eta) (boolCmds.map .ok) = (gc, .ok ())) : gc.theory.WellFormed ∧ gc.theory.Normalising :=
  bool_normalising hk ho he (by rwa [inferChecksSeq_all ho] at h)

/-- C70 (after nat.dk): whatever name is introduced after nat.dk, rightly or wrongly, the checker comes to an end. -/
theorem C70_nat_ends (k : Kern) (hk : k.Real) (opt : Opt) (ho : opt.omitted = none) (he : opt.eta = false) (gc : GCtx)
    (h : inferChecksSeq k opt (GCtx.start opt.eta) (natCmds.map .ok) = (gc, .ok ())) (rc : Nat → Bool) (s : Sym) (it : Intro LTerm) :
    ∃ n r, r.2 ≠ .timeout ∧ ∀ m, n ≤ m → inferCheck (Kern.std m rc) opt gc (.intro s it) = r := by
  obtain ⟨h1, h2⟩ := C70_nat_normalising k hk opt ho he gc h
  rw [inferChecksSeq_all ho] at h
  exact inferCheck_ends h1 (nat_church hk he h).2.2.1 h2 rc (by simp [Opt.omits, ho]) _ trivial

/-- C70 (arithmetic, with termination): with enough steps, the checker accepts `thm s : Dep e := dep e'.` if the expressions have the same value, and
otherwise it gives an error. -/
theorem C70_nat_decides (k : Kern) (hk : k.Real) (opt : Opt) (ho : opt.omitted = none) (he : opt.eta = false) (gc : GCtx)
    (h : inferChecksSeq k opt (GCtx.start opt.eta) (natCmds.map .ok) = (gc, .ok ())) (rc : Nat → Bool) (s : Sym) (hs : 18 < s) (e e' : NExp) :
    ∃ n, (e.val = e'.val ∧ ∀ m, n ≤ m → (inferCheck (Kern.std m rc) opt gc (.intro s (natThm e e'))).2 = .ok ()) ∨
      (e.val ≠ e'.val ∧ ∃ err, ∀ m, n ≤ m → (inferCheck (Kern.std m rc) opt gc (.intro s (natThm e e'))).2 = .err err) := by
  obtain ⟨n, r, hr, hn⟩ := C70_nat_ends k hk opt ho he gc h rc s (natThm e e')
  rw [inferChecksSeq_all ho] at h
  have h1 := hn n le_rfl
  refine ⟨n, ?_⟩
  obtain ⟨gc', o⟩ := r
  cases o with
  | ok u =>
    obtain ⟨-, A, -, h3⟩ := inferCheck_intro_sound (Kern.std_real n rc) (by simp [Opt.omits, ho]) h1
    exact .inl ⟨nat_dep hk ho he h h3, fun m hm => by rw [hn m hm]⟩
  | err er =>
    refine .inr ⟨fun hv => ?_, er, fun m hm => by rw [hn m hm]⟩
    have := nat_complete_of hk ho he h (Kern.std_exact n rc) hs hv
    rw [h1] at this
    rcases this with h2 | h2 <;> cases h2
  | panic => exact absurd (congrArg Prod.snd h1) (inferCheck_panic (Kern.std_exact n rc).safe gc _)
  | timeout => exact absurd rfl hr

/-- C70 (truth tables, with termination): with enough steps, the conversion test decides whether two expressions of bool.dk have the same truth value. -/
theorem C70_bool_decides (k : Kern) (hk : k.Real) (opt : Opt) (ho : opt.omitted = none) (he : opt.eta = false) (gc : GCtx)
    (h : inferChecksSeq k opt (GCtx.start opt.eta) (boolCmds.map .ok) = (gc, .ok ())) (rc : Nat → Bool) (e e' : BExp) :
    ∃ n st, ∀ m, n ≤ m → convertible m gc (.ofL e.term) (.ofL e'.term) (St.init rc) = .ok (decide (e.val = e'.val), st) := by
  obtain ⟨-, hN⟩ := C70_bool_normalising k hk opt ho he gc h
  have h' := h
  rw [inferChecksSeq_all ho] at h'
  obtain ⟨n, b, st, hn⟩ := C51_convertible gc (GCtx.eta_off ((seqLoop_grows h').eta.trans he)) rc (.ofL e.term) (.ofL e'.term)
    (by rw [STerm.den_ofL]; exact hN _ _ _ .nil (e.typed hk ho h' [])) (by rw [STerm.den_ofL]; exact hN _ _ _ .nil (e'.typed hk ho h' []))
  refine ⟨n, st, fun m hm => ?_⟩
  have := C70_bool k hk opt ho he gc h e e' n rc b st (hn n le_rfl)
  rw [hn m hm]
  congr
  cases b <;> simp_all

/-- C70 (arithmetic, the conversion test with termination): of two expressions of nat.dk, it answers, with enough steps, whether their values are the same. -/
theorem C70_nat_converts (k : Kern) (hk : k.Real) (opt : Opt) (ho : opt.omitted = none) (he : opt.eta = false) (gc : GCtx)
    (h : inferChecksSeq k opt (GCtx.start opt.eta) (natCmds.map .ok) = (gc, .ok ())) (rc : Nat → Bool) (e e' : NExp) :
    ∃ n st, ∀ m, n ≤ m → convertible m gc (.ofL e.term) (.ofL e'.term) (St.init rc) = .ok (decide (e.val = e'.val), st) := by
  obtain ⟨-, hN⟩ := C70_nat_normalising k hk opt ho he gc h
  have h' := h
  rw [inferChecksSeq_all ho] at h'
  obtain ⟨n, b, st, hn⟩ := C51_convertible gc (GCtx.eta_off (nat_church hk he h').1) rc (.ofL e.term) (.ofL e'.term)
    (by rw [STerm.den_ofL]; exact hN _ _ _ .nil (e.typed hk ho he h' [])) (by rw [STerm.den_ofL]; exact hN _ _ _ .nil (e'.typed hk ho he h' []))
  refine ⟨n, st, fun m hm => ?_⟩
  have := C70_nat_convertible k hk opt ho he gc h e e' n rc b st (hn n le_rfl)
  rw [hn m hm]
  congr
  cases b <;> simp_all

/-! ## The hypotheses can be met -/

/-- the checker, with enough steps for the examples -/
abbrev Example.kern : Kern := Kern.std 200 fun _ => true

/-- what the checker says of commands -/
abbrev Example.says (cmds : List Cmd) : GCtx × Out Unit := inferChecksSeq Example.kern ⟨false, none, false⟩ (GCtx.start false) (cmds.map .ok)

theorem Example.says_ok {cmds : List Cmd} (h : (Example.says cmds).2.isOk = true) : Example.says cmds = ((Example.says cmds).1, .ok ()) := by
  rcases e : Example.says cmds with ⟨gc, o⟩
  rw [e] at h
  cases o <;> first | rfl | cases h

set_option maxRecDepth 100000 in
/-- nat.dk is accepted. -/
theorem Example.nat_says : Example.says natCmds = ((Example.says natCmds).1, .ok ()) := Example.says_ok (by decide +kernel)

set_option maxRecDepth 100000 in
/-- bool.dk is accepted. -/
theorem Example.bool_says : Example.says boolCmds = ((Example.says boolCmds).1, .ok ()) := Example.says_ok (by decide +kernel)

set_option maxRecDepth 100000 in
/-- magic.dk is accepted. -/
theorem Example.magic_says : Example.says magicCmds = ((Example.says magicCmds).1, .ok ()) := Example.says_ok (by decide +kernel)

set_option maxRecDepth 100000 in
/-- `thm s : Dep (fac 3) := dep (add 2 4).` is accepted, as `3! = 2 + 4`; the theorem applies, since the checker comes to an end. -/
example : (inferCheck Example.kern ⟨false, none, false⟩ (Example.says natCmds).1 (.intro 19 (natThm (.fac (.digit 2)) (.add (.digit 1) (.digit 3))))).2 = .ok () := by
  refine (C70_nat Example.kern (Kern.std_exact _ _) ⟨false, none, false⟩ rfl rfl _ Example.nat_says 19 (by decide) _ _ ?_).2 rfl
  have h : (inferCheck Example.kern ⟨false, none, false⟩ (Example.says natCmds).1
    (.intro 19 (natThm (.fac (.digit 2)) (.add (.digit 1) (.digit 3))))).2.isOk = true := by decide +kernel
  intro e
  rw [e] at h
  cases h

set_option maxRecDepth 100000 in
/-- `thm s : Dep (fib 6) := dep 7.` is refused, as the sixth Fibonacci number is 8. -/
example : (inferCheck Example.kern ⟨false, none, false⟩ (Example.says natCmds).1 (.intro 19 (natThm (.fib (.digit 5)) (.digit 6)))).2 ≠ .ok () := by
  have h : ¬ (inferCheck Example.kern ⟨false, none, false⟩ (Example.says natCmds).1 (.intro 19 (natThm (.fib (.digit 5)) (.digit 6)))).2 matches .timeout := by
    decide +kernel
  refine fun e => absurd ((C70_nat Example.kern (Kern.std_exact _ _) ⟨false, none, false⟩ rfl rfl _ Example.nat_says 19 (by decide) _ _ ?_).1 e) (by decide)
  intro e
  rw [e] at h
  exact h rfl

/-- `thm s : Dep (exp 9 9) := dep (mul 9 (exp 8 9)).` is accepted, with enough steps: `9⁹ = 9 * 9⁸`.  (Nobody would wait for this.) -/
example : ∃ n, ∀ m, n ≤ m → (inferCheck (Kern.std m fun _ => true) ⟨false, none, false⟩ (Example.says natCmds).1
    (.intro 19 (natThm (.exp (.digit 8) (.digit 8)) (.mul (.digit 8) (.exp (.digit 7) (.digit 8)))))).2 = .ok () := by
  obtain ⟨n, h | h⟩ := C70_nat_decides Example.kern (Kern.std_exact _ _).real ⟨false, none, false⟩ rfl rfl _ Example.nat_says (fun _ => true) 19 (by decide)
    (.exp (.digit 8) (.digit 8)) (.mul (.digit 8) (.exp (.digit 7) (.digit 8)))
  · exact ⟨n, h.2⟩
  · exact absurd (by simp [NExp.val]) h.1

set_option maxRecDepth 100000 in
/-- `exp 3 2` and `8` are found to be convertible. -/
example : (match convertible 200 (Example.says natCmds).1 (.ofL (NExp.exp (.digit 2) (.digit 1)).term) (.ofL (NExp.digit 7).term) (St.init fun _ => true) with
    | .ok (b, _) => b
    | _ => false) = true := by decide +kernel

set_option maxRecDepth 100000 in
/-- `imp F (not T)` and `iff T F` are found not to be convertible. -/
example : (match convertible 200 (Example.says boolCmds).1 (.ofL (BExp.imp .ff (.not .tt)).term) (.ofL (BExp.iff .tt .ff).term) (St.init fun _ => true) with
    | .ok (b, _) => b
    | _ => true) = false := by decide +kernel

set_option maxRecDepth 100000 in
/-- The check of magic.dk is accepted, and the one that is commented out there (`fails`) is refused. -/
example : (inferCheck Example.kern ⟨false, none, false⟩ (Example.says magicCmds).1 (.intro 7 (magicCheck 3 3 3))).2.isOk = true ∧
    (inferCheck Example.kern ⟨false, none, false⟩ (Example.says magicCmds).1 (.intro 7 (magicCheck 3 3 2))).2 matches .err _ := by
  decide +kernel

#print axioms C70_nat_text
#print axioms C70_bool_text
#print axioms C70_magic_text
#print axioms C70_redundant
#print axioms C70_nat_confluent
#print axioms C70_nat
#print axioms C70_nat_convertible
#print axioms C70_bool
#print axioms C70_untyped
#print axioms C70_nat_normalising
#print axioms C70_bool_normalising
#print axioms C70_nat_ends
#print axioms C70_nat_decides
#print axioms C70_nat_converts
#print axioms C70_bool_decides
#print axioms C70_magic

end Kontroli
