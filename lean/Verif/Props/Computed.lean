import Verif.Proofs.LogicEnds
import Verif.Proofs.MagicEnds
import Verif.Props.Logic

/-! # C72: Termination where rules compute types -/

namespace Kontroli

/-- C72 (criterion): types are read as sets of terminating terms.  If every constant belongs to what its type is read as, then every typed term is strongly normalising. -/
theorem C72_normalising (T : Theory) (he : T.eta = false) (cr : Confluent T.rules)
    (hR : ∀ s rs r, T.rules s = some rs → r ∈ rs → r.rhs.den.FreeBelow r.ctx.length) (hS : T.Sorted) (hc : ∀ c A, T.ty c = some A → Fine T.rules (.const c) A) :
    T.Normalising := Theory.normalising_fine cr hR he rfl hS hc

/-- C72 (sessions): only the constants for which rules are given by rules commands have to be looked at, and of their types it can be taken for granted that they can be read. -/
theorem C72_session (cmds : List Cmd) (T : Theory) (h : Session cmds T) (cr : Confluent T.rules)
    (hR : ∀ s rs r, T.rules s = some rs → r ∈ rs → r.rhs.den.FreeBelow r.ctx.length)
    (hd : ∀ rs, Cmd.rules rs ∈ cmds → ∀ r ∈ rs, ∀ A, T.ty r.lhs.symbol = some A → (∃ Q, Denotes T.rules (FlatK T.rules) A Q) → Fine T.rules (.const r.lhs.symbol) A) :
    T.Normalising :=
  h.normalising_computed cr hR (fun c => ∃ rs, Cmd.rules rs ∈ cmds ∧ ∃ r ∈ rs, r.lhs.symbol = c) (fun rs h1 r h2 => ⟨rs, h1, r, h2, rfl⟩)
    fun c A ⟨rs, h1, r, h2, e⟩ hA hQ => by
      subst e
      exact hd rs h1 r h2 A hA hQ

/-- C72 (fo_imp.dk): whatever is declared, defined and proved after the declarations of fo_imp.dk, every typed term is strongly normalising. -/
theorem C72_fo_normalising (more : List Cmd) (hm : ∀ c ∈ more, c.Later) (T : Theory) (h : Session (foCmds ++ more) T) : T.Normalising :=
  fo_normalising hm (List.append_nil _).symm h

theorem fo_loop_ends (rc : Nat → Bool) {opt : Opt} (ho : opt.omitted = none) (he : opt.eta = false) {more : List Cmd} (hm : ∀ c ∈ more, c.Later) :
    ∃ n gc res, res ≠ .timeout ∧ ∀ m, n ≤ m → inferChecksSeq (Kern.std m rc) opt (GCtx.start opt.eta) ((foCmds ++ more).map .ok) = (gc, res) := by
  obtain ⟨n, gc, res, h1, h2⟩ := C51_session rc opt opt.eta (Opt.omits_none ho _) ((foCmds ++ more).map .ok) (by simp) (by
    intro pre post e
    obtain ⟨pre', post', e1, e2, rfl⟩ := List.map_eq_append_iff.1 e
    have hi : Function.Injective (List.map (Out.ok : Cmd → Out Cmd)) := List.map_injective_iff.2 fun a b h => by cases h; rfl
    rw [he, ← hi e2]
    exact TameIn.prefix (e1 ▸ fo_tame hm))
  exact ⟨n, gc, res, h1, fun m hm => by rw [inferChecksSeq_all ho, h2 m hm]⟩

/-- C72 (fo_imp.dk): whatever names are introduced after the declarations of fo_imp.dk, with whatever definitions and proofs, right or wrong, the checker comes to an end. -/
theorem C72_fo_ends (rc : Nat → Bool) (opt : Opt) (ho : opt.omitted = none) (he : opt.eta = false) (more : List Cmd) (hm : ∀ c ∈ more, c.Later) :
    ∃ n gc res, res ≠ .timeout ∧ ∀ m, n ≤ m → inferChecksSeq (Kern.std m rc) opt (GCtx.start opt.eta) ((foCmds ++ more).map .ok) = (gc, res) :=
  fo_loop_ends rc ho he hm

/-- C72 (fo_imp.dk): the checker, with enough steps, accepts some proof of a formula exactly if the formula is provable. -/
theorem C72_fo_decides (rc : Nat → Bool) (opt : Opt) (ho : opt.omitted = none) (he : opt.eta = false) (n : Nat) (φ : Fml) (hn : φ.Below n) (s : Sym) (hs : 2 < s) :
    (∃ A t : LTerm, A.den = foStatement φ n ∧ ∃ k, ∀ m, k ≤ m →
      (inferChecksSeq (Kern.std m rc) opt (GCtx.start opt.eta) ((foCmds ++ [Cmd.intro s (.theorem_ A t)]).map .ok)).2 = .ok ()) ↔ Proves ∅ φ := by
  constructor
  · rintro ⟨A, t, hA, k, h⟩
    have hst : (Cmd.intro s (.theorem_ A t)).States n φ := ⟨s, A, t, rfl, hA⟩
    exact C71_fo_sound _ (Kern.std_exact k rc).real opt ho he [Cmd.intro s (.theorem_ A t)] (by simpa using ⟨n, φ, hst⟩) _ (Prod.ext rfl (h k le_rfl)) _
      (List.mem_singleton.2 rfl) n φ hst
  · intro h
    obtain ⟨A, t, hA, h1⟩ := C71_fo_complete n φ hn h s hs
    obtain ⟨k, gc, res, h2, h3⟩ := C72_fo_ends rc opt ho he [Cmd.intro s (.theorem_ A t)] (by
      intro c hc
      cases List.mem_singleton.1 hc
      exact ⟨s, _, rfl, hs, nofun⟩)
    refine ⟨A, t, hA, k, fun m hm => ?_⟩
    rcases h1 _ (Kern.std_exact m rc) opt ho he with h4 | h4
    · exact h4
    · rw [h3 m hm] at h4
      exact absurd h4 h2

/-- C72 (fo_imp.dk): whatever is given as a proof of a formula that is not provable, the checker, with enough steps, gives an error. -/
theorem C72_fo_refuses (rc : Nat → Bool) (opt : Opt) (ho : opt.omitted = none) (he : opt.eta = false) (n : Nat) (φ : Fml) (hφ : ¬ Proves ∅ φ) (s : Sym) (hs : 2 < s)
    (A t : LTerm) (hA : A.den = foStatement φ n) :
    ∃ k res, res ≠ .ok () ∧ res ≠ .timeout ∧ ∀ m, k ≤ m →
      (inferChecksSeq (Kern.std m rc) opt (GCtx.start opt.eta) ((foCmds ++ [Cmd.intro s (.theorem_ A t)]).map .ok)).2 = res := by
  obtain ⟨k, gc, res, h2, h3⟩ := C72_fo_ends rc opt ho he [Cmd.intro s (.theorem_ A t)] (by
    intro c hc
    cases List.mem_singleton.1 hc
    exact ⟨s, _, rfl, hs, nofun⟩)
  refine ⟨k, res, ?_, h2, fun m hm => by rw [h3 m hm]⟩
  rintro rfl
  have hst : (Cmd.intro s (.theorem_ A t)).States n φ := ⟨s, A, t, rfl, hA⟩
  exact hφ (C71_fo_sound _ (Kern.std_exact k rc).real opt ho he [Cmd.intro s (.theorem_ A t)] (by simpa using ⟨n, φ, hst⟩) gc (h3 k le_rfl) _
    (List.mem_singleton.2 rfl) n φ hst)

/-- C72 (magic.dk): once the file is accepted, its theory is well-formed, although its rules do not say the types of their variables, and every typed term is
strongly normalising in it, although its rules compute types by recursion. -/
theorem C72_magic_normalising (k : Kern) (hk : k.Real) (opt : Opt) (ho : opt.omitted = none) (he : opt.eta = false) (gc : GCtx)
    (h : inferChecksSeq k opt (GCtx.start opt.eta) (magicCmds.map .ok) = (gc, .ok ())) : gc.theory.WellFormed ∧ gc.theory.Normalising :=
  magic_normalising hk ho he (by rwa [inferChecksSeq_all ho] at h)

/-- C72 (after magic.dk): whatever name is introduced after magic.dk, rightly or wrongly, the checker comes to an end. -/
theorem C72_magic_ends (k : Kern) (hk : k.Real) (opt : Opt) (ho : opt.omitted = none) (he : opt.eta = false) (gc : GCtx)
    (h : inferChecksSeq k opt (GCtx.start opt.eta) (magicCmds.map .ok) = (gc, .ok ())) (rc : Nat → Bool) (s : Sym) (it : Intro LTerm) :
    ∃ n r, r.2 ≠ .timeout ∧ ∀ m, n ≤ m → inferCheck (Kern.std m rc) opt gc (.intro s it) = r := by
  obtain ⟨h1, h2⟩ := C72_magic_normalising k hk opt ho he gc h
  rw [inferChecksSeq_all ho] at h
  exact inferCheck_ends h1 (magic_church hk he h).2.2.1 h2 rc (by simp [Opt.omits, ho]) _ trivial

/-- C72 (magic.dk, with termination): with enough steps, the checker accepts `cons m` as a function of `n` elements that gives a list of length `l` if `n` and `l`
are `m`, and otherwise it gives an error. -/
theorem C72_magic_decides (k : Kern) (hk : k.Real) (opt : Opt) (ho : opt.omitted = none) (he : opt.eta = false) (gc : GCtx)
    (h : inferChecksSeq k opt (GCtx.start opt.eta) (magicCmds.map .ok) = (gc, .ok ())) (rc : Nat → Bool) (s : Sym) (hs : 6 < s) (n l m : Nat) :
    ∃ j, ((n = m ∧ l = m) ∧ ∀ i, j ≤ i → (inferCheck (Kern.std i rc) opt gc (.intro s (magicCheck n l m))).2 = .ok ()) ∨
      (¬ (n = m ∧ l = m) ∧ ∃ err, ∀ i, j ≤ i → (inferCheck (Kern.std i rc) opt gc (.intro s (magicCheck n l m))).2 = .err err) := by
  obtain ⟨j, r, hr, hj⟩ := C72_magic_ends k hk opt ho he gc h rc s (magicCheck n l m)
  rw [inferChecksSeq_all ho] at h
  have h1 := hj j le_rfl
  refine ⟨j, ?_⟩
  obtain ⟨gc', o⟩ := r
  cases o with
  | ok u => exact .inl ⟨magic_sound_of hk ho he h (Kern.std_real j rc) h1, fun i hi => by rw [hj i hi]⟩
  | err er =>
    refine .inr ⟨?_, er, fun i hi => by rw [hj i hi]⟩
    rintro ⟨rfl, rfl⟩
    have := magic_complete_of hk ho he h (Kern.std_exact j rc) hs l
    rw [h1] at this
    rcases this with h2 | h2 <;> cases h2
  | panic => exact absurd (congrArg Prod.snd h1) (inferCheck_panic (Kern.std_exact j rc).safe gc _)
  | timeout => exact absurd rfl hr

/-! ## Examples -/

/-- magic.dk is accepted, so the theorems apply. -/
example : (Example.says magicCmds).1.theory.Normalising :=
  (C72_magic_normalising Example.kern (Kern.std_exact _ _).real ⟨false, none, false⟩ rfl rfl _ Example.magic_says).2

/-- `cons 2` takes two elements, not three: the check that is commented out in magic.dk is refused in finitely many steps. -/
example : ∃ j err, ∀ i, j ≤ i →
    (inferCheck (Kern.std i fun _ => true) ⟨false, none, false⟩ (Example.says magicCmds).1 (.intro 7 (magicCheck 3 3 2))).2 = .err err := by
  obtain ⟨j, ⟨⟨h, -⟩, -⟩ | ⟨-, err, h⟩⟩ := C72_magic_decides Example.kern (Kern.std_exact _ _).real ⟨false, none, false⟩ rfl rfl _ Example.magic_says (fun _ => true) 7
    (by decide) 3 3 2
  · cases h
  · exact ⟨j, err, h⟩

/-- `imp_refl` is a command of the kind that C72 is about, and so are declarations and definitions -/
example : ∀ c ∈ [Cmd.intro 3 foRefl, .intro 4 (.declaration false (.const 0)), .intro 5 (.definition none (some (.appl (.const 1) [.const 4, .const 4])))], c.Later := by
  intro c hc
  simp only [List.mem_cons, List.not_mem_nil, or_false] at hc
  rcases hc with rfl | rfl | rfl
  · exact ⟨3, _, rfl, by decide, nofun⟩
  · exact ⟨4, _, rfl, by decide, nofun⟩
  · refine ⟨5, _, rfl, by decide, fun r hr => ?_⟩
    cases List.mem_singleton.1 hr
    exact Tm.freeBelow_iff.1 (by decide)

/-- Peirce's law is refused, whatever the proof -/
theorem Example.peirce_unprovable : ¬ Proves ∅ Example.peirce := by
  intro h
  have h1 := Example.Forced.sound h false (fun γ hγ => hγ.elim)
  have h2 := h1 false id fun w' _ h3 => ?_
  · exact absurd h2.1 (by decide)
  · cases w' with
    | true => exact ⟨rfl, rfl⟩
    | false => exact absurd (h3 true nofun ⟨rfl, rfl⟩).2 (by decide)

example (A t : LTerm) (hA : A.den = foStatement Example.peirce 2) : ∃ k res, res ≠ .ok () ∧ res ≠ .timeout ∧ ∀ m, k ≤ m →
    (inferChecksSeq (Kern.std m fun _ => true) ⟨false, none, false⟩ (GCtx.start false) ((foCmds ++ [Cmd.intro 3 (.theorem_ A t)]).map .ok)).2 = res :=
  C72_fo_refuses _ ⟨false, none, false⟩ rfl rfl 2 _ Example.peirce_unprovable 3 (by decide) A t hA

/-- a constant whose type is computed: `prf` itself belongs to what its type is read as -/
example : Fine foR (.const 2) (.pi (.const 0) .type) := prf_fine (fo_rules (more := []) (by simp) (post := []) rfl) foR_confluent

#print axioms C72_normalising
#print axioms C72_session
#print axioms C72_fo_normalising
#print axioms C72_fo_ends
#print axioms C72_fo_decides
#print axioms C72_fo_refuses
#print axioms C72_magic_normalising
#print axioms C72_magic_ends
#print axioms C72_magic_decides

end Kontroli
