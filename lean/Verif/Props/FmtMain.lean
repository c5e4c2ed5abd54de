import Verif.Proofs.FmtMain
import Verif.Props.Grammar
import Verif.Spec.Web

/-!
# C63: the formatter as a program
-/

namespace Kontroli

/-- C63. What the formatter prints for a text: every command on a line of its own, with a space between two tokens except after opening brackets and
before closing brackets, commas and dots.  It fails exactly if there is a lexical error. -/
theorem C63_layout (text out : Str) : kofmt text = some out ↔ .error ∉ lex text ∧ LayoutFor (lex text) out := by
  unfold kofmt printTokens
  constructor
  · intro h
    have he : .error ∉ lex text := by
      intro he
      rw [printTokens_error he] at h
      cases h
    obtain ⟨s, hs⟩ := exists_layout _ (Nat.le_refl _) he
    rw [printTokens_layout hs] at h
    cases h
    exact ⟨he, hs⟩
  · rintro ⟨-, h⟩
    exact printTokens_layout h

/-- A file is fine for the formatter: it is parsed, if this is asked for, and otherwise it is without lexical errors or nothing is to be printed. -/
def FmtFine (opt : FmtOpt) (text : Str) : Prop :=
  match opt.parse with
  | none => opt.quiet = true ∨ .error ∉ lex text
  | some true => ∃ cs, TextOf text cs
  | some false => ∃ cs, WholeTextOf text cs

theorem fmtFile_fine (opt : FmtOpt) (text : Str) : (fmtFile opt text).2 = true ↔ FmtFine opt text := by
  unfold FmtFine
  cases hp : opt.parse with
  | none =>
    rw [fmtFile_lex opt hp]
    simp only
    cases hq : opt.quiet with
    | true => simp [fmtTokens_quiet]
    | false =>
      simp only [Bool.false_eq_true, false_or]
      constructor
      · intro h
        exact ((C63_layout text _).1 (fmtTokens_true.1 (Prod.ext rfl h))).1
      · intro h
        obtain ⟨s, hs⟩ := exists_layout _ (Nat.le_refl _) h
        rw [fmtTokens_true.2 (printTokens_layout hs)]
  | some lazy =>
    rw [fmtFile_parse opt hp]
    have := kofmtParse_ends lazy opt.scope text
    cases lazy
    · simp only [Bool.false_eq_true, if_false, C47_strict] at this ⊢
      refine Iff.trans ?_ this
      split <;> rfl
    · simp only [if_true] at this ⊢
      rw [← this]
      split <;> rfl

/-- C63. The formatter comes to its end if and only if all files are there and are fine. -/
theorem C63_done (opt : FmtOpt) (fs : FileSystem) (paths : List Str) :
    (fmtMain opt fs paths).2 = .done ↔ ∀ p ∈ paths, ∃ text, fs p = some text ∧ FmtFine opt text := by
  induction paths with
  | nil => simp [fmtMain]
  | cons p paths ih =>
    rw [List.forall_mem_cons, ← ih, fmtMain]
    cases hf : fs p with
    | none => simp
    | some text =>
      simp only [Option.some.injEq, exists_eq_left', ← fmtFile_fine]
      cases h : fmtFile opt text with
      | mk s b => cases b <;> simp

/-- C63. With `--quiet`, nothing is printed, whatever happens. -/
theorem C63_quiet (opt : FmtOpt) (hq : opt.quiet = true) (fs : FileSystem) (paths : List Str) : (fmtMain opt fs paths).1 = [] := by
  have hfile : ∀ text, (fmtFile opt text).1 = [] := by
    intro text
    cases hp : opt.parse with
    | none => rw [fmtFile_lex opt hp, hq, fmtTokens_quiet]
    | some lazy => rw [fmtFile_parse opt hp, if_pos hq]
  induction paths with
  | nil => rfl
  | cons p paths ih =>
    rw [fmtMain]
    cases fs p with
    | none => rfl
    | some text =>
      have := hfile text
      simp only
      cases h : fmtFile opt text with
      | mk s b =>
        rw [h] at this
        simp only at this
        subst this
        cases b
        · rfl
        · simpa using ih

/-- C63. What is printed: the files one after the other, up to the first that is not there or not fine. -/
theorem C63_files (opt : FmtOpt) (fs : FileSystem) (pre : List (Str × Str)) (hpre : ∀ a ∈ pre, fs a.1 = some a.2 ∧ FmtFine opt a.2) :
    fmtMain opt fs (pre.map Prod.fst) = (pre.flatMap fun a => (fmtFile opt a.2).1, .done) ∧
    (∀ p post, fs p = none → fmtMain opt fs (pre.map Prod.fst ++ p :: post) = (pre.flatMap fun a => (fmtFile opt a.2).1, .io)) ∧
    ∀ p text post, fs p = some text → ¬ FmtFine opt text →
      fmtMain opt fs (pre.map Prod.fst ++ p :: post) = ((pre.flatMap fun a => (fmtFile opt a.2).1) ++ (fmtFile opt text).1, .panic) := by
  induction pre with
  | nil =>
    refine ⟨rfl, fun p post h => ?_, fun p text post h hn => ?_⟩
    · simp only [List.map_nil, List.nil_append, fmtMain, h, List.flatMap_nil]
    · rw [← fmtFile_fine] at hn
      simp only [List.map_nil, List.nil_append, fmtMain, h, List.flatMap_nil]
      cases hx : fmtFile opt text with
      | mk s b =>
        rw [hx] at hn
        cases b with
        | false => rfl
        | true => exact absurd rfl hn
  | cons a pre ih =>
    obtain ⟨p, text⟩ := a
    rw [List.forall_mem_cons] at hpre
    obtain ⟨⟨h1, h2⟩, h3⟩ := hpre
    simp only at h1 h2
    obtain ⟨i1, i2, i3⟩ := ih h3
    have hstep : ∀ paths, fmtMain opt fs (p :: paths) = ((fmtFile opt text).1 ++ (fmtMain opt fs paths).1, (fmtMain opt fs paths).2) := by
      intro paths
      rw [← fmtFile_fine] at h2
      rw [fmtMain, h1]
      simp only
      cases hx : fmtFile opt text with
      | mk s b =>
        rw [hx] at h2
        simp only at h2
        subst h2
        rfl
    refine ⟨?_, fun q post h => ?_, fun q t post h hn => ?_⟩
    · simp only [List.map_cons, hstep, i1, List.flatMap_cons]
    · simp only [List.map_cons, List.cons_append, hstep, i2 q post h, List.flatMap_cons]
    · simp only [List.map_cons, List.cons_append, hstep, i3 q t post h hn, List.flatMap_cons, List.append_assoc]

/-- C63. What is printed of one file without `--parse`: the layout of its tokens, or, if there is a lexical error, the layout of the tokens before it,
and perhaps a space. -/
theorem C63_tokens (opt : FmtOpt) (hp : opt.parse = none) (hq : opt.quiet = false) (text : Str) :
    (.error ∉ lex text → LayoutFor (lex text) (fmtFile opt text).1) ∧
    ∀ ts rest, lex text = ts ++ .error :: rest → .error ∉ ts → ∃ s e, LayoutFor ts s ∧ (fmtFile opt text).1 = s ++ e ∧ (e = [] ∨ e = str " ") := by
  rw [fmtFile_lex opt hp, hq]
  refine ⟨fun he => ?_, fun ts rest h he => ?_⟩
  · obtain ⟨s, hs⟩ := exists_layout _ (Nat.le_refl _) he
    rw [fmtTokens_true.2 (printTokens_layout hs)]
    exact hs
  · obtain ⟨s, e, h1, h2, h3⟩ := fmtTokens_error (space := false) (rest := rest) he
    obtain ⟨s', hs⟩ := exists_layout _ (Nat.le_refl _) he
    rw [printTokens_layout hs] at h1
    cases h1
    exact ⟨_, e, hs, by rw [h, h2], h3⟩

/-- C63. What is printed of one file with `--parse`: its commands if it is fine (see C22), with indices for variables if `--scope` is given. -/
theorem C63_parsed (opt : FmtOpt) (lazy : Bool) (hp : opt.parse = some lazy) (hq : opt.quiet = false) (text : Str)
    (cs : List (PCmd (PTerm PSymb))) (h : if lazy then TextOf text cs else WholeTextOf text cs) :
    (fmtFile opt text).1 = cs.flatMap fun c => if opt.scope then c.scope.display (PTerm.display Atom.display) else c.show := by
  rw [fmtFile_parse opt hp, hq]
  simp only [Bool.false_eq_true, if_false]
  cases lazy <;> cases hs : opt.scope <;> simp only [Bool.false_eq_true, if_false, if_true] at h ⊢
  · rw [(C22_kofmt text _).2 ⟨cs, (C47_strict text cs).2 h, rfl⟩]
  · rw [(C22_kofmt_scope text _).2 ⟨cs, (C47_strict text cs).2 h, rfl⟩]
  · rw [(C22_kofmt_lazy text _).2 ⟨cs, h, rfl⟩]
  · rw [(C22_kofmt_lazy_scope text _).2 ⟨cs, h, rfl⟩]

/-! ## Examples -/

/-- the layout of a text -/
example : LayoutFor (lex (str "a:b. def  x:=( f [y])")) (str "a : b.\ndef x := (f [y])") :=
  ((C63_layout (str "a:b. def  x:=( f [y])") _).1 (by decide +kernel)).2

/-- two files, the second of which has a lexical error; a third one is not there -/
def Example.fmtFiles : FileSystem := fun p => if p = str "x" then some (str "a:b.") else if p = str "y" then some (str "c : d $ .") else none

example : fmtMain ⟨none, false, false, false⟩ Example.fmtFiles [str "x", str "y", str "z"] = (str "a : b.\nc : d ", .panic) ∧
    fmtMain ⟨none, false, false, true⟩ Example.fmtFiles [str "x", str "y", str "z"] = ([], .io) ∧
    fmtMain ⟨some true, false, false, true⟩ Example.fmtFiles [str "x", str "y"] = ([], .panic) ∧
    fmtMain ⟨some false, true, true, false⟩ Example.fmtFiles [str "x", str "x"] = (str "a : ba : b", .done) := by
  decide +kernel

#print axioms C63_layout
#print axioms C63_done
#print axioms C63_quiet
#print axioms C63_files
#print axioms C63_tokens
#print axioms C63_parsed

end Kontroli
