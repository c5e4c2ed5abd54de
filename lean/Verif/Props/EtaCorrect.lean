import Verif.Proofs.StaticText
import Verif.Props.Terminate

/-!
# C66: programs checked with eta

The theorems about programs, with or without eta, are in `Props/Correct.lean` (`C66_static` is the one without conditions on rules); here are programs
that tell the two apart.
-/

namespace Kontroli

/-- `c` and `x : A => c x` are equal only with eta -/
def Example.etaText : Str :=
  str "A : Type. B : Type. c : A -> B. P : (A -> B) -> Type. p : P c. thm q : P (x : A => c x) := p."

/-- the same with a definition that must be unfolded, and two arguments -/
def Example.etaText2 : Str :=
  str "A : Type. c : A -> A -> A. def d : A -> A -> A := x : A => c x. P : (A -> A -> A) -> Type. p : P c. thm q : P (x : A => y : A => d x y) := p."

/-- equal neither with eta nor without -/
def Example.etaText3 : Str :=
  str "A : Type. c : A -> A -> A. P : (A -> A -> A) -> Type. p : P c. thm q : P (x : A => y : A => c y x) := p."

/-- **C66.** There are programs that are correct with eta only: correctness with eta is not correctness without. -/
theorem C66_differs : ∃ text, CorrectTextIn true text ∧ ¬ CorrectTextIn false text :=
  ⟨Example.etaText, correctText_of (by decide +kernel) (by decide +kernel),
    not_correctText_of (staticText_sound (by decide +kernel) _) (by decide +kernel)⟩

example : CorrectTextIn true Example.etaText2 ∧ ¬ CorrectTextIn false Example.etaText2 :=
  ⟨correctText_of (by decide +kernel) (by decide +kernel), not_correctText_of (staticText_sound (by decide +kernel) _) (by decide +kernel)⟩

example : ¬ CorrectTextIn true Example.etaText3 ∧ ¬ CorrectTextIn false Example.etaText3 :=
  ⟨not_correctText_of (staticText_sound (by decide +kernel) _) (by decide +kernel),
    not_correctText_of (staticText_sound (by decide +kernel) _) (by decide +kernel)⟩

/-- the theory with eta -/
def Theory.withEta (T : Theory) : Theory := ⟨T.ty, T.rules, true⟩

theorem Strict.withEta {T : Theory} {Γ : List Tm} {t A : Tm} (h : Strict T Γ t A) : Strict T.withEta Γ t A := by
  induction h with
  | type => exact .type
  | const hc => exact .const hc
  | var hv => exact .var hv
  | app _ _ ih1 ih2 => exact .app ih1 ih2
  | lam _ _ _ hs ih1 ih2 ih3 => exact .lam ih1 ih2 ih3 hs
  | dlam _ _ _ hs ih1 ih2 ih3 => exact .dlam ih1 ih2 ih3 hs
  | pi _ _ hs ih1 ih2 => exact .pi ih1 ih2 hs
  | conv _ hc _ hs ih1 ih2 =>
    refine .conv ih1 ?_ ih2 hs
    unfold Theory.Conv at *
    cases he : T.eta with
    | true => rw [he] at hc; exact hc
    | false => rw [he] at hc; exact Conv.toEta hc

theorem Theory.IsType.withEta {T : Theory} {A : Tm} (h : T.IsType A) : T.withEta.IsType A := by
  obtain ⟨s, hs, h⟩ := h
  exact ⟨s, hs, h.withEta⟩

theorem WfCtx.withEta {T : Theory} {Γ : List Tm} (h : WfCtx T Γ) : WfCtx T.withEta Γ := by
  induction h with
  | nil => exact .nil
  | cons _ h ih => exact ih.cons h.withEta

theorem SessionIn.withEta {eta : Bool} {cmds : List Cmd} {T : Theory} (h : SessionIn eta cmds T) : SessionIn true cmds T.withEta := by
  induction h with
  | nil => exact .nil
  | intro _ hs hI ih =>
    refine SessionIn.intro ih hs ?_
    cases hI with
    | declared h => exact .declared h.withEta
    | injective h => exact .injective h.withEta
    | definable h => exact .definable h.withEta
    | defined h h' => exact .defined h.withEta h'.withEta
    | inferred h h' => exact .inferred h.withEta h'.withEta
    | proved h h' => exact .proved h.withEta h'.withEta
  | rules _ hr ih =>
    refine SessionIn.rules ih fun r hm => ⟨(hr r hm).1, ?_⟩
    obtain ⟨Γ, l, u, hc, hw, A, s, hs, h1, h2, h3⟩ := (hr r hm).2
    exact ⟨Γ, l, u, hc, hw.withEta, A, s, hs, h1.withEta, h2.withEta, h3.withEta⟩

/-- **C66.** What is correct without eta is correct with eta, for any program. -/
theorem C66_more (es : List Entry) (T : Theory) (h : CorrectIn false es T) : ∃ T', CorrectIn true es T' ∧ T'.ty = T.ty ∧ T'.rules = T.rules := by
  obtain ⟨cmds, h1, h2⟩ := h
  exact ⟨_, ⟨cmds, h1, h2.withEta⟩, rfl, rfl⟩

/-- **C66.** Turning eta on does no harm to programs without rewrite rules: if a run without eta accepts, the run with eta accepts, or lacks fuel. -/
theorem C66_turn_on (k : Kern) (hk : k.Exact) (opt : Opt) (ho : opt.omitted = none) (hj : opt.jobs = false) (fs : FileSystem) (stdin : Str)
    (paths : List Str) (hR : ∀ srcs es, Sources fs stdin paths srcs → ProgramOf srcs es → ∀ e ∈ es, ∀ rs, e.cmd ≠ .rules rs)
    (gc gc' : GCtx) (res : Out Unit) (h : RunPaths k { opt with eta := false } fs stdin paths gc (.ok ()))
    (h' : RunPaths k { opt with eta := true } fs stdin paths gc' res) : res = .ok () ∨ res = .timeout := by
  obtain ⟨srcs, es, h1, h2, h3, h4⟩ := C66_sound k hk.real { opt with eta := false } ho fs stdin paths (fun srcs es h1 h2 => .static (hR srcs es h1 h2)) gc h
  obtain ⟨T', h5, -⟩ := C66_more es _ h3
  exact C66_complete k hk { opt with eta := true } ho hj fs stdin paths srcs es T' h1 h2 (.static (hR _ _ h1 h2)) h5 h4 gc' res h'

/-- **C66.** If no text contains the arrow of rewrite rules and the steps suffice, what is accepted without eta is accepted with eta: both runs come to
an end. -/
theorem C66_turn_on_ends (rc : Nat → Bool) (opt : Opt) (ho : opt.omitted = none) (hj : opt.jobs = false) (fs : FileSystem)
    (stdin : Str) (paths : List Str) (hi : ¬ str "-->" <:+: stdin) (hs : ∀ p ∈ paths, ∀ text, fs p = some text → ¬ str "-->" <:+: text) :
    ∃ n, ∀ m, n ≤ m → ∃ gc gc' res res', (∀ g r, RunPaths (Kern.std m rc) { opt with eta := false } fs stdin paths g r ↔ g = gc ∧ r = res) ∧
      (∀ g r, RunPaths (Kern.std m rc) { opt with eta := true } fs stdin paths g r ↔ g = gc' ∧ r = res') ∧ res ≠ .timeout ∧ res' ≠ .timeout ∧
      (res = .ok () → res' = .ok ()) := by
  obtain ⟨n, gc, res, h1, h2⟩ := C52_ends rc { opt with eta := false } ho hj fs stdin paths hi hs
  obtain ⟨n', gc', res', h1', h2'⟩ := C52_ends rc { opt with eta := true } ho hj fs stdin paths hi hs
  refine ⟨max n n', fun m hm => ⟨gc, gc', res, res', h2 m (le_trans (le_max_left _ _) hm), h2' m (le_trans (le_max_right _ _) hm), h1, h1', ?_⟩⟩
  rintro rfl
  refine (C66_turn_on (Kern.std m rc) (Kern.std_exact m rc) opt ho hj fs stdin paths ?_ gc gc' res'
    ((h2 m (le_trans (le_max_left _ _) hm) _ _).2 ⟨rfl, rfl⟩) ((h2' m (le_trans (le_max_right _ _) hm) _ _).2 ⟨rfl, rfl⟩)).resolve_right h1'
  intro srcs es k1 k2
  refine k2.static fun s hs' => ?_
  rcases k1.readable s hs' with h | h | ⟨p, hp, h⟩
  · rw [h]; exact hi
  · rw [h]; intro h; exact absurd (List.IsInfix.length_le h) (by decide)
  · exact hs p hp _ h

set_option maxRecDepth 100000 in
/-- The hypotheses of `C52_decides` and `C66_turn_on_ends` are met, with eta, by the texts above. -/
example (text : Str) (h : text = Example.etaText ∨ text = Example.etaText2 ∨ text = Example.etaText3) : ∃ n res, res ≠ .timeout ∧
    (res = .ok () ↔ ∃ srcs es T, Sources (Example.oneFile text) [] [str "a.dk"] srcs ∧ ProgramOf srcs es ∧ CorrectIn true es T ∧ Directed es) ∧
    ∀ m, n ≤ m → ∀ res', (∃ gc, RunPaths (Kern.std m fun _ => true) ⟨true, none, false⟩ (Example.oneFile text) [] [str "a.dk"] gc res') ↔ res' = res := by
  refine C52_decides (fun _ => true) ⟨true, none, false⟩ rfl rfl _ _ _ (by decide) ?_
  intro p _ t ht
  unfold Example.oneFile at ht
  split at ht
  · cases ht
    rcases h with rfl | rfl | rfl <;> decide +kernel
  · cases ht

#print axioms C66_differs
#print axioms C66_more
#print axioms C66_turn_on
#print axioms C66_turn_on_ends

end Kontroli
