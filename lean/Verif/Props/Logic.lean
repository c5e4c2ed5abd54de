import Verif.Proofs.Logic
import Verif.Props.Arith

/-!
# C71: what is proved is true

Types are read as sets of terms.  If every constant of a theory belongs to what its type is read as, then so does every typed term; so a type that is read as the empty set
has no closed terms.  With this, what is proved in the logic of `/repo/examples/fo_imp.dk` is exactly what is provable in minimal logic.
-/

namespace Kontroli

/-- C71 (readings): if types can be read such that every constant belongs to its type, then every closed term belongs to its type, in every world. -/
theorem C71_belongs (T : Theory) (cr : T.Church) (hS : T.Sorted) (W : Type) [SemilatticeSup W] (B : Tm → Sem W → Prop) (hB : Reading T B) (t A : Tm)
    (h : Strict T [] t A) (w : W) : Belongs T B w t A := by
  have := h.belongs hB cr hS (w := w) (σ := .var) (fun n A hn => by cases hn)
  rwa [Tm.sub_var, Tm.sub_var] at this

/-- C71 (types are read in one way): so what a term of a type belongs to is what the type is read as. -/
theorem C71_unique (T : Theory) (cr : T.Church) (W : Type) [SemilatticeSup W] (B : Tm → Sem W → Prop) (hB : Reading T B) (t A : Tm) (w : W) (P : Sem W)
    (hA : Reads T B A P) (h : Belongs T B w t A) : P w t := by
  obtain ⟨Q, h1, h2⟩ := h
  rwa [h1.unique (hB.kindsBasis cr) cr hA.toTypes.toKinds] at h2

/-- C71 (consistency): a type that is read as the empty set, in some world, has no closed term. -/
theorem C71_empty (T : Theory) (cr : T.Church) (hS : T.Sorted) (W : Type) [SemilatticeSup W] (B : Tm → Sem W → Prop) (hB : Reading T B) (A : Tm) (w : W) (P : Sem W)
    (hA : Reads T B A P) (hP : ∀ t, ¬ P w t) (t : Tm) : ¬ Strict T [] t A :=
  fun h => hP t (C71_unique T cr W B hB t A w P hA (C71_belongs T cr hS W B hB t A h w))

set_option maxRecDepth 100000 in
/-- C71 (fo_imp.dk): the file, as it stands in the repository, is read as the commands `foCmds` and the theorem `foRefl`. -/
theorem C71_fo_text : Example.cmdsOf "fo_imp" foText = (foCmds ++ [Cmd.intro 3 foRefl]).map .ok := cmdsAre_sound _ _ (by decide +kernel)

/-- C71 (soundness of fo_imp.dk): if theorems after the declarations of fo_imp.dk are accepted, with whatever proofs, then their formulas are provable in minimal logic. -/
theorem C71_fo_sound (k : Kern) (hk : k.Real) (opt : Opt) (ho : opt.omitted = none) (he : opt.eta = false) (more : List Cmd) (hm : ∀ c ∈ more, ∃ n φ, c.States n φ)
    (gc : GCtx) (h : inferChecksSeq k opt (GCtx.start opt.eta) ((foCmds ++ more).map .ok) = (gc, .ok ())) (c : Cmd) (hc : c ∈ more) (n : Nat) (φ : Fml)
    (hs : c.States n φ) : Proves ∅ φ := by
  rw [inferChecksSeq_all ho, he] at h
  exact (fo_session hm (fo_accepted hk (by simp [Opt.omits, ho]) hm h)).2 c hc n φ hs

set_option maxRecDepth 100000 in
theorem Example.fo_says : Example.says foCmds = ((Example.says foCmds).1, .ok ()) := Example.says_ok (by decide +kernel)

/-- the declarations of fo_imp.dk are right by the textbook -/
theorem Example.fo_session : Session foCmds (Example.says foCmds).1.theory := by
  have := fo_accepted (more := []) (Kern.std_exact 200 fun _ => true).real (opt := ⟨false, none, false⟩) rfl (by simp) (gc := (Example.says foCmds).1) (by
    have := Example.fo_says
    rw [Example.says, inferChecksSeq_all rfl] at this
    rw [List.append_nil]
    exact this)
  rwa [List.append_nil] at this

/-- C71 (completeness of fo_imp.dk, by the textbook): a formula has a proof that is right by the textbook exactly if it is provable in minimal logic. -/
theorem C71_fo_exact (n : Nat) (φ : Fml) (hn : φ.Below n) (s : Sym) (hs : 2 < s) :
    (∃ T A t, A.den = foStatement φ n ∧ Session (foCmds ++ [Cmd.intro s (.theorem_ A t)]) T) ↔ Proves ∅ φ := by
  constructor
  · rintro ⟨T, A, t, hA, h⟩
    have hst : (Cmd.intro s (.theorem_ A t)).States n φ := ⟨s, A, t, rfl, hA⟩
    exact (Kontroli.fo_session (by simpa using ⟨n, φ, hst⟩) h).2 _ (List.mem_singleton.2 rfl) n φ hst
  · intro h
    have h0 := Example.fo_session
    obtain ⟨h1, t, -, h2⟩ := (foCmds_theory h0).complete hn h
    have e1 := Tm.toL_den h1.noKind
    have e2 := Tm.toL_den h2.noKind
    exact ⟨_, (foStatement φ n).toL, t.toL, e1, .intro h0 (fresh hs) (.proved ⟨.type, .type, by rwa [e1]⟩ (by rwa [e1, e2]))⟩
where
  fresh {s : Nat} (hs : 2 < s) : (Example.says foCmds).1.theory.ty s = none := by
    cases h : (Example.says foCmds).1.theory.ty s with
    | none => rfl
    | some A =>
      obtain ⟨it, hi⟩ := Example.fo_session.ty_introduced h
      have h0 : s ≠ 0 := by omega
      have h1 : s ≠ 1 := by omega
      have h2 : s ≠ 2 := by omega
      simp only [foCmds, List.mem_cons, Cmd.intro.injEq, reduceCtorEq, List.not_mem_nil, or_false] at hi
      rcases hi with ⟨e, -⟩ | ⟨e, -⟩ | ⟨e, -⟩
      · exact absurd e h0
      · exact absurd e h1
      · exact absurd e h2

/-- C71 (completeness of fo_imp.dk): a formula that is provable in minimal logic has a proof that is accepted — unless the checker does not come to an end. -/
theorem C71_fo_complete (n : Nat) (φ : Fml) (hn : φ.Below n) (h : Proves ∅ φ) (s : Sym) (hs : 2 < s) :
    ∃ A t : LTerm, A.den = foStatement φ n ∧ ∀ (k : Kern) (_ : k.Exact) (opt : Opt) (_ : opt.omitted = none) (_ : opt.eta = false),
      (inferChecksSeq k opt (GCtx.start opt.eta) ((foCmds ++ [Cmd.intro s (.theorem_ A t)]).map .ok)).2 = .ok () ∨
        (inferChecksSeq k opt (GCtx.start opt.eta) ((foCmds ++ [Cmd.intro s (.theorem_ A t)]).map .ok)).2 = .timeout := by
  have h0 := Example.fo_session
  obtain ⟨h1, t, ha, h2⟩ := (foCmds_theory h0).complete hn h
  have e1 := Tm.toL_den h1.noKind
  have e2 := Tm.toL_den h2.noKind
  refine ⟨(foStatement φ n).toL, t.toL, e1, fun k hk opt ho he => ?_⟩
  rw [inferChecksSeq_all ho, he]
  have hst : (Cmd.intro s (.theorem_ (foStatement φ n).toL t.toL)).States n φ := ⟨s, _, _, rfl, e1⟩
  refine C49_session_complete k hk opt (by simp [Opt.omits, ho]) _ ?_ ?_ (fo_orthogonal (by simpa using ⟨n, φ, hst⟩)) _
    (.intro h0 (C71_fo_exact.fresh hs) (.proved ⟨.type, .type, by rwa [e1]⟩ (by rwa [e1, e2])))
  · intro c hc
    rcases List.mem_append.1 hc with hc | hc
    · refine C49_session_known Example.kern (Kern.std_exact _ _).real ⟨false, none, false⟩ rfl foCmds ?_ _ (by
        have := Example.fo_says
        rwa [Example.says, inferChecksSeq_all rfl] at this) c hc
      intro rs hrs r hr
      obtain ⟨i, hi⟩ := List.mem_iff_getElem?.1 hrs
      obtain ⟨-, rfl⟩ := fo_rules_mem (more := []) (by simp) (i := i) (by rwa [List.append_nil])
      cases List.mem_singleton.1 hr
      exact foRule_full
    · cases List.mem_singleton.1 hc
      refine ⟨?_, ?_⟩
      · rintro A ⟨⟩
        rw [e1]
        exact (statementAnnotated φ n).known _
      · rintro t ⟨⟩
        rw [e2]
        exact ha.known _
  · intro c hc
    rcases List.mem_append.1 hc with hc | hc
    · simp only [foCmds, List.mem_cons, List.not_mem_nil, or_false] at hc
      rcases hc with rfl | rfl | rfl | rfl <;>
        simp [Cmd.Proper, Intro.Proper, Rule.Proper, foRule, LTerm.Proper, LTerm.ProperOpt, LTerm.arrow, LTerm.appl, LComb.Proper, LTerm.ProperList]
      rintro a b (⟨-, rfl⟩ | ⟨-, rfl⟩) <;> simp [LTerm.ProperOpt, LTerm.Proper]
    · cases List.mem_singleton.1 hc
      exact ⟨Tm.toL_proper _, Tm.toL_proper _⟩
where
  statementAnnotated (φ : Fml) (n : Nat) : (foStatement φ n).Annotated := by
    induction n with
    | zero =>
      have := φ.annotated id
      rw [show φ.tm.ren id = φ.tm from Tm.ren_id _] at this
      exact ⟨trivial, this⟩
    | succ n ih => exact ⟨trivial, ih⟩

/-! ## Examples -/

set_option maxRecDepth 100000 in
/-- The whole file is accepted; so `x → x` is provable. -/
example : Proves ∅ (.imp (.atom 0) (.atom 0)) := by
  refine C71_fo_sound Example.kern (Kern.std_exact _ _).real ⟨false, none, false⟩ rfl rfl [.intro 3 foRefl] ?_ _ (Example.says_ok (by decide +kernel)) _
    (List.mem_singleton.2 rfl) 1 _ ⟨3, _, _, rfl, rfl⟩
  intro c hc
  cases List.mem_singleton.1 hc
  exact ⟨1, .imp (.atom 0) (.atom 0), 3, _, _, rfl, rfl⟩

/-- in the worlds `false` and `true`, where the atom 0 becomes true in `true` -/
def Example.Forced : Bool → Fml → Prop
  | w, .atom i => w = true ∧ i = 0
  | w, .imp φ ψ => ∀ w', (w = true → w' = true) → Example.Forced w' φ → Example.Forced w' ψ

theorem Example.Forced.later {φ : Fml} {w w' : Bool} (hw : w = true → w' = true) (h : Example.Forced w φ) : Example.Forced w' φ := by
  cases φ with
  | atom i => exact ⟨hw h.1, h.2⟩
  | imp φ ψ => exact fun w'' h' => h w'' fun e => h' (hw e)

theorem Example.Forced.sound {Γ : Set Fml} {φ : Fml} (h : Proves Γ φ) (w : Bool) (hΓ : ∀ γ ∈ Γ, Example.Forced w γ) : Example.Forced w φ := by
  induction h generalizing w with
  | hyp h => exact hΓ _ h
  | intro _ ih =>
    intro w' hw hφ
    refine ih w' fun γ hγ => ?_
    rcases hγ with rfl | hγ
    · exact hφ
    · exact (hΓ γ hγ).later hw
  | elim _ _ ih1 ih2 => exact ih1 w hΓ w id (ih2 w hΓ)

/-- Peirce's law -/
abbrev Example.peirce : Fml := .imp (.imp (.imp (.atom 0) (.atom 1)) (.atom 0)) (.atom 0)

/-- Peirce's law is not provable in minimal logic; so no proof of it is accepted after fo_imp.dk, although it is true classically. -/
example (k : Kern) (hk : k.Real) (A t : LTerm) (hA : A.den = foStatement Example.peirce 2) :
    (inferChecksSeq k ⟨false, none, false⟩ (GCtx.start false) ((foCmds ++ [Cmd.intro 3 (.theorem_ A t)]).map .ok)).2 ≠ .ok () := by
  intro h
  have hst : (Cmd.intro 3 (.theorem_ A t)).States 2 Example.peirce := ⟨3, A, t, rfl, hA⟩
  have := C71_fo_sound k hk ⟨false, none, false⟩ rfl rfl [Cmd.intro 3 (.theorem_ A t)] (by simpa using ⟨2, _, hst⟩) _ (Prod.ext rfl h) _
    (List.mem_singleton.2 rfl) 2 _ hst
  have h1 := Example.Forced.sound this false (fun γ hγ => hγ.elim)
  have h2 := h1 false id fun w' _ h3 => ?_
  · exact absurd h2.1 (by decide)
  · cases w' with
    | true => exact ⟨rfl, rfl⟩
    | false =>
      have := h3 true (fun _ => rfl) ⟨rfl, rfl⟩
      exact absurd this.2 (by decide)

/-- There is an accepted proof of `(x → y) → x → y` — the checker comes to an end, as for every theorem of the file; here by the textbook. -/
example : ∃ T A t, A.den = foStatement (.imp (.imp (.atom 1) (.atom 0)) (.imp (.atom 1) (.atom 0))) 2 ∧ Session (foCmds ++ [Cmd.intro 3 (.theorem_ A t)]) T :=
  (C71_fo_exact 2 (.imp (.imp (.atom 1) (.atom 0)) (.imp (.atom 1) (.atom 0))) ⟨⟨by simp [Fml.Below], by simp [Fml.Below]⟩, by simp [Fml.Below], by simp [Fml.Below]⟩ 3 (by decide)).2 (.intro (.hyp (Set.mem_insert _ _)))

#print axioms C71_belongs
#print axioms C71_unique
#print axioms C71_empty
#print axioms C71_fo_text
#print axioms C71_fo_sound
#print axioms C71_fo_exact
#print axioms C71_fo_complete

end Kontroli
