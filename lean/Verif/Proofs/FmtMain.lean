import Verif.Model.FmtMain
import Verif.Spec.Layout
import Verif.Props.Reprint

/-!
# The formatter as a program: proofs
-/

namespace Kontroli

theorem noSpaceAfter_iff {t : Token} (h : t ≠ .dot) : noSpaceAfter t = true ↔ t ∈ [Token.lbrk, .lpar] := by
  cases t <;> simp [noSpaceAfter] at h ⊢

theorem noSpaceBefore_iff {t : Token} (h : t ≠ .dot) : noSpaceBefore t = true ↔ t ∈ [Token.rbrk, .rpar, .comma] := by
  cases t <;> simp [noSpaceBefore] at h ⊢

/-- the space before a token, given the flag -/
def spaceBefore (space : Bool) : List Token → Str
  | [] => []
  | t :: _ => if space && !noSpaceBefore t then str " " else []

theorem gap_eq {a b : Token} (ha : a ≠ .dot) (hb : b ≠ .dot) : gap a b = if !noSpaceAfter a && !noSpaceBefore b then str " " else [] := by
  unfold gap
  have h1 := noSpaceAfter_iff ha
  have h2 := noSpaceBefore_iff hb
  by_cases c1 : noSpaceAfter a = true
  · rw [if_pos (.inl (h1.1 c1)), c1]; rfl
  · by_cases c2 : noSpaceBefore b = true
    · rw [if_pos (.inr (h2.1 c2)), c2]; simp
    · rw [if_neg (by rw [← h1, ← h2]; simp [c1, c2])]
      simp [c1, c2]

/-- the flag after some tokens without dot -/
def flagAfter (space : Bool) : List Token → Bool
  | [] => space
  | t :: ts => flagAfter (!noSpaceAfter t) ts

theorem printTokens_line {ts : List Token} {s : Str} (h : LineFor ts s) (hd : Token.dot ∉ ts) (space : Bool) (rest : List Token) :
    printTokensFrom space (ts ++ rest) = (printTokensFrom (flagAfter space ts) rest).map fun r => spaceBefore space ts ++ s ++ r := by
  induction h generalizing space with
  | nil => simp [spaceBefore, flagAfter]
  | @one t w hw =>
    have ht : t ≠ .dot := fun e => hd (by simp [e])
    simp only [List.cons_append, List.nil_append, printTokensFrom, printToken, hw, Option.map_some, if_neg ht, flagAfter, spaceBefore]
    cases printTokensFrom (!noSpaceAfter t) rest <;> simp
  | @cons a b ts w s hw hs ih =>
    have ha : a ≠ .dot := fun e => hd (by simp [e])
    have hb : b ≠ .dot := fun e => hd (by simp [e])
    have hd' : Token.dot ∉ b :: ts := fun e => hd (List.mem_cons_of_mem _ e)
    rw [List.cons_append, printTokensFrom, ih hd', gap_eq ha hb]
    simp only [printToken, hw, Option.map_some, if_neg ha, flagAfter, spaceBefore]
    cases printTokensFrom (flagAfter (!noSpaceAfter b) ts) rest <;> simp

theorem exists_line {ts : List Token} (h : Token.error ∉ ts) : ∃ s, LineFor ts s := by
  have hw : ∀ t : Token, t ≠ .error → ∃ w, t.display = some w := by
    intro t ht
    cases t <;> first | exact ⟨_, rfl⟩ | exact absurd rfl ht
  induction ts with
  | nil => exact ⟨[], .nil⟩
  | cons a ts ih =>
    simp only [List.mem_cons, not_or] at h
    obtain ⟨w, hw'⟩ := hw a (fun e => h.1 e.symm)
    obtain ⟨s, hs⟩ := ih h.2
    cases ts with
    | nil => exact ⟨w, .one hw'⟩
    | cons b ts => exact ⟨_, .cons hw' hs⟩

theorem split_dot (ts : List Token) : (Token.dot ∉ ts) ∨ ∃ a b, ts = a ++ .dot :: b ∧ Token.dot ∉ a := by
  induction ts with
  | nil => exact .inl (by simp)
  | cons t ts ih =>
    by_cases h : t = .dot
    · exact .inr ⟨[], ts, by rw [h]; rfl, by simp⟩
    · rcases ih with h' | ⟨a, b, rfl, h'⟩
      · exact .inl (by simp [h', Ne.symm h])
      · exact .inr ⟨t :: a, b, rfl, by simp [h', Ne.symm h]⟩

theorem exists_layout (n : Nat) : ∀ {ts : List Token}, ts.length ≤ n → Token.error ∉ ts → ∃ s, LayoutFor ts s := by
  induction n with
  | zero =>
    intro ts hl _
    rw [List.length_eq_zero_iff.1 (Nat.le_zero.1 hl)]
    exact ⟨[], .rest (by simp) .nil⟩
  | succ n ih =>
    intro ts hl he
    rcases split_dot ts with h | ⟨a, b, rfl, h⟩
    · obtain ⟨s, hs⟩ := exists_line he
      exact ⟨s, .rest h hs⟩
    · simp only [List.mem_append, List.mem_cons, not_or] at he
      simp only [List.length_append, List.length_cons] at hl
      obtain ⟨s, hs⟩ := exists_line he.1
      obtain ⟨s', hs'⟩ := ih (ts := b) (by omega) he.2.2
      exact ⟨_, .command h hs hs'⟩

theorem spaceBefore_false (ts : List Token) : spaceBefore false ts = [] := by
  cases ts <;> simp [spaceBefore]

theorem printTokens_layout {ts : List Token} {s : Str} (h : LayoutFor ts s) : printTokensFrom false ts = some s := by
  induction h with
  | rest hd hl =>
    have := printTokens_line hl hd false []
    rw [List.append_nil] at this
    rw [this, spaceBefore_false]
    simp [printTokensFrom]
  | @command ts ts' s s' hd hl _ ih =>
    rw [printTokens_line hl hd false, spaceBefore_false]
    have hdot : ∀ b, printToken .dot b = (some (str ".\n"), false) := by
      intro b
      cases b <;> rfl
    rw [printTokensFrom, hdot]
    simp only [ih]
    simp

theorem printTokens_error {ts : List Token} : Token.error ∈ ts → ∀ space, printTokensFrom space ts = none := by
  induction ts with
  | nil => intro h; cases h
  | cons t ts ih =>
    intro h b
    rcases List.mem_cons.1 h with rfl | h
    · rfl
    · rw [printTokensFrom, ih h]
      cases (printToken t b).1 <;> rfl

/-! ## The program -/

theorem fmtTokens_true {space : Bool} {ts : List Token} {s : Str} : fmtTokens false space ts = (s, true) ↔ printTokensFrom space ts = some s := by
  induction ts generalizing space s with
  | nil => simp [fmtTokens, printTokensFrom, eq_comm]
  | cons t ts ih =>
    rw [fmtTokens, printTokensFrom]
    simp only [Bool.false_eq_true, if_false]
    cases hp : printToken t space with
    | mk o space' =>
      cases o with
      | none => simp
      | some w =>
        simp only [Prod.mk.injEq]
        cases hr : printTokensFrom space' ts with
        | none =>
          simp only [reduceCtorEq, iff_false, not_and]
          intro _ hb
          have := ih (space := space').1 (Prod.ext rfl hb)
          rw [hr] at this
          cases this
        | some r =>
          have := ih.2 hr
          rw [this]
          simp

theorem fmtTokens_quiet (space : Bool) (ts : List Token) : fmtTokens true space ts = ([], true) := by
  induction ts with
  | nil => rfl
  | cons t ts ih => rw [fmtTokens, if_pos rfl, ih]

/-- What is printed before an error token: the tokens before it, and perhaps a space. -/
theorem fmtTokens_error {space : Bool} {ts rest : List Token} (he : Token.error ∉ ts) :
    ∃ s e, printTokensFrom space ts = some s ∧ fmtTokens false space (ts ++ .error :: rest) = (s ++ e, false) ∧ (e = [] ∨ e = str " ") := by
  induction ts generalizing space with
  | nil =>
    refine ⟨[], if space && !noSpaceBefore .error then str " " else [], rfl, rfl, ?_⟩
    split
    · exact .inr rfl
    · exact .inl rfl
  | cons t ts ih =>
    simp only [List.mem_cons, not_or] at he
    have hw : ∃ w, (printToken t space).1 = some w := by
      have : ∃ w, t.display = some w := by cases t <;> first | exact ⟨_, rfl⟩ | exact absurd rfl he.1
      obtain ⟨w, hw⟩ := this
      exact ⟨_, by rw [printToken, hw]; rfl⟩
    obtain ⟨w, hw⟩ := hw
    obtain ⟨s, e, h1, h2, h3⟩ := ih (space := (printToken t space).2) he.2
    refine ⟨w ++ s, e, by rw [printTokensFrom, hw, h1], ?_, h3⟩
    rw [List.cons_append, fmtTokens]
    simp only [Bool.false_eq_true, if_false]
    rw [show printToken t space = (some w, (printToken t space).2) from Prod.ext hw rfl]
    simp only [h2, List.append_assoc]

theorem fmtCmds_loud {A : Type} (da : A → Str) (l : List (POut ParseError (PCmd (PTerm A)))) : fmtCmds false da l = printParsed da l := by
  induction l with
  | nil => rfl
  | cons c l ih =>
    cases c with
    | ok c => simp only [fmtCmds, printParsed, ih, Bool.false_eq_true, if_false]
    | err e => rfl
    | panic => rfl

theorem fmtCmds_quiet {A : Type} (da : A → Str) (l : List (POut ParseError (PCmd (PTerm A)))) : fmtCmds true da l = ([], (printParsed da l).2) := by
  induction l with
  | nil => rfl
  | cons c l ih =>
    cases c with
    | ok c => simp only [fmtCmds, printParsed, ih, if_true, List.append_nil]
    | err e => rfl
    | panic => rfl

theorem fmtFile_parse (opt : FmtOpt) {lazy : Bool} (hp : opt.parse = some lazy) (text : Str) :
    fmtFile opt text = if opt.quiet then ([], (kofmtParse lazy opt.scope text).2) else kofmtParse lazy opt.scope text := by
  obtain ⟨p, sc, sh, q⟩ := opt
  simp only at hp
  subst hp
  cases lazy <;> cases sc <;> cases sh <;> cases q <;> simp [fmtFile, kofmtParse, fmtCmds_loud, fmtCmds_quiet]

theorem fmtFile_lex (opt : FmtOpt) (hp : opt.parse = none) (text : Str) : fmtFile opt text = fmtTokens opt.quiet false (lex text) := by
  rw [fmtFile, hp]

/-- whether the parser comes to the end does not depend on `--scope` -/
theorem kofmtParse_ends (lazy scope : Bool) (text : Str) : (kofmtParse lazy scope text).2 = true ↔
    ∃ cs : List (PCmd (PTerm PSymb)), if lazy then TextOf text cs else strict scopeSymb text = cs.map .ok := by
  have hx : ∀ p : Str × Bool, p.2 = true ↔ ∃ s, p = (s, true) := fun p => ⟨fun h => ⟨p.1, Prod.ext rfl h⟩, fun ⟨s, h⟩ => h ▸ rfl⟩
  rw [hx]
  cases lazy <;> cases scope
  · simp only [C22_kofmt, Bool.false_eq_true, if_false]
    exact ⟨fun ⟨s, cs, h, _⟩ => ⟨cs, h⟩, fun ⟨cs, h⟩ => ⟨_, cs, h, rfl⟩⟩
  · simp only [C22_kofmt_scope, Bool.false_eq_true, if_false]
    exact ⟨fun ⟨s, cs, h, _⟩ => ⟨cs, h⟩, fun ⟨cs, h⟩ => ⟨_, cs, h, rfl⟩⟩
  · simp only [C22_kofmt_lazy, if_true]
    exact ⟨fun ⟨s, cs, h, _⟩ => ⟨cs, h⟩, fun ⟨cs, h⟩ => ⟨_, cs, h, rfl⟩⟩
  · simp only [C22_kofmt_lazy_scope, if_true]
    exact ⟨fun ⟨s, cs, h, _⟩ => ⟨cs, h⟩, fun ⟨cs, h⟩ => ⟨_, cs, h, rfl⟩⟩

end Kontroli
