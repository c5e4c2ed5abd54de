import Verif.Proofs.Print

/-!
# C22, C26: printing

`t.show` and `c.show` are the texts that terms and commands without scopes are printed as.  `kofmt text` is what the formatter prints
for a text when it does not parse, where `none` is a panic.
-/

namespace Kontroli

/-! ## C22 -/

/-- C22. A printed term whose names are valid is parsed back to the term, up to the dot after it. -/
theorem C22_term (t : PTerm PSymb) (h : t.Valid) :
    pTerm scopeSymb .init PCtx.new (lex (t.show ++ str ".")) = (.ok (.aterm none t, some .dot), PCtx.new, []) := by
  rw [PTerm.lex_show t h (str ".") trivial, pTerm_eq]
  exact ((PTerm.core t).init PCtx.new (tok := .dot) ⟨rfl, by simp, by simp⟩ []).trans rfl

/-- C22. Printed commands, each followed by a dot and the end of the line, are parsed back to the commands.  `PCmd.Valid` asks for valid
names, for a type or a term in a definition and for a rule in a list of rules. -/
theorem C22_commands (cs : List (PCmd (PTerm PSymb))) (h : ∀ c ∈ cs, c.Valid) :
    strict scopeSymb (cs.flatMap fun c => c.show ++ str ".\n") = cs.map .ok := by
  rw [strict_eq]
  exact printCmds_parse cs h

/-- C22 is false for a definition that has neither type nor term, which is printed as text that is rejected; the parser does not yield
such definitions. -/
theorem C22_false : (PCmd.intro (str "d") [] (.definition (none : Option (PTerm PSymb)) none)).show = str "def d" ∧
    strict scopeSymb (str "def d.\n") = [.err (.command .expectedColonOrColonEq)] := by
  constructor <;> rfl

/-- an abstraction applied to a product, below a binder whose name is written in braces -/
def exTerm : PTerm PSymb := .app (.abst (str "{|x y|}") (some (.new (.atom ⟨[str "m"], str "t"⟩)))
  (.new (.prod none (.new (.atom ⟨[], str "{|x y|}"⟩)) (.new (.atom ⟨[], str "Type"⟩)))))
  [.new (.prod (some (str "z")) (.app (.atom ⟨[], str "f"⟩) [.new (.atom ⟨[], str "a"⟩)]) (.new (.atom ⟨[], str "b'"⟩)))]

theorem isIdent_of (c : Str) (h : match c with
    | [] => False
    | a :: r => identHead a = true ∧ r.all identTail = true) : IsIdent c := by
  cases c with
  | nil => exact h.elim
  | cons a r => exact (isIdent_iff _).2 ⟨a, r, rfl, h.1, fun d hd => List.all_eq_true.1 h.2 d hd⟩

theorem exTerm_valid : exTerm.Valid := by
  have hm : IsMoustache (str "{|x y|}") := by
    refine ⟨str "x y", rfl, fun x y h => ?_⟩
    rcases x with _ | ⟨a, _ | ⟨b, _ | ⟨c, _ | ⟨d, x⟩⟩⟩⟩
    all_goals simp [str] at h
    · exact h.2.2.2
    · obtain ⟨_, _, _, _, h⟩ := h
      rcases x with _ | ⟨e, _ | ⟨f, x⟩⟩ <;> simp at h
  have hi : ∀ c : Str, (match c with
    | [] => False
    | a :: r => identHead a = true ∧ r.all identTail = true) → c ∉ keywords → ValidSymb ⟨[], c⟩ :=
    fun c h hk => ⟨by simp, .inl (isIdent_of c h), fun d hd => by simp at hd; exact hd ▸ hk⟩
  have hm' : ValidName (str "{|x y|}") := ⟨.inr hm, by decide⟩
  refine ⟨⟨hm', ⟨⟨?_, .inl (isIdent_of _ ⟨by decide, by decide⟩), ?_⟩, trivial⟩, ⟨⟨⟨hm'.symb, trivial⟩, hi _ ⟨by decide, by decide⟩ (by decide), trivial⟩, trivial⟩⟩,
    ⟨⟨⟨.inl (isIdent_of _ ⟨by decide, by decide⟩), by decide⟩, ⟨hi _ ⟨by decide, by decide⟩ (by decide), ⟨hi _ ⟨by decide, by decide⟩ (by decide), trivial⟩,
      trivial⟩, hi _ ⟨by decide, by decide⟩ (by decide), trivial⟩, trivial⟩, trivial⟩
  · intro c hc
    simp at hc
    exact hc ▸ .inl (isIdent_of _ ⟨by decide, by decide⟩)
  · intro c hc
    simp at hc
    subst hc
    decide

/-- C22 on a rewrite rule and a theorem about this term -/
example : exTerm.show = str "(({|x y|} : m.t => ({|x y|} -> Type)) (z : (f a) -> b'))" := by rfl
example : strict scopeSymb (str "[{|x y|}, z: m.t] (f z) --> (({|x y|} : m.t => ({|x y|} -> Type)) (z : (f a) -> b')).\n") =
    [.ok (.rules [⟨[(str "{|x y|}", none), (str "z", some (.new (.atom ⟨[str "m"], str "t"⟩)))],
      .app (.atom ⟨[], str "f"⟩) [.new (.atom ⟨[], str "z"⟩)], exTerm⟩])] := by rfl
example : strict scopeSymb ((PCmd.intro (str "c") [(str "y", exTerm)] (.theorem_ exTerm exTerm)).show ++ str ".\n") =
    [.ok (.intro (str "c") [(str "y", exTerm)] (.theorem_ exTerm exTerm))] := by
  have hv : ∀ c : Str, (match c with
    | [] => False
    | a :: r => identHead a = true ∧ r.all identTail = true) → c ∉ keywords → ValidName c :=
    fun c h hk => ⟨.inl (isIdent_of c h), hk⟩
  have := C22_commands [.intro (str "c") [(str "y", exTerm)] (.theorem_ exTerm exTerm)] fun c hc => by
    simp only [List.mem_singleton] at hc
    subst hc
    refine ⟨hv _ ⟨by decide, by decide⟩ (by decide), fun a ha => ?_, exTerm_valid, exTerm_valid⟩
    simp only [List.mem_singleton] at ha
    subst ha
    exact ⟨hv _ ⟨by decide, by decide⟩ (by decide), exTerm_valid⟩
  simpa using this

/-! ## C26 -/

theorem lex_tokens_valid {text : Str} (he : .error ∉ lex text) (hc : ∀ o, .comment o ∉ lex text) : ∀ t ∈ lex text, t.Valid := by
  intro t ht
  cases t with
  | symb s => exact lex_valid ht
  | comment o => exact hc o ht
  | error => exact he ht
  | _ => trivial

/-- C26. What the formatter prints for a text without lexical errors and unclosed comments has the same tokens as the text. -/
theorem C26_tokens (text : Str) (he : .error ∉ lex text) (hc : ∀ o, .comment o ∉ lex text) : ∃ out, kofmt text = some out ∧ lex out = lex text := by
  obtain ⟨out, h1, h2, _⟩ := printTokens_lex (lex text) false (lex_tokens_valid he hc)
  exact ⟨out, h1, h2⟩

/-- C26. Formatting twice is formatting once. -/
theorem C26_idempotent (text out : Str) (hc : ∀ o, .comment o ∉ lex text) (h : kofmt text = some out) : kofmt out = some out := by
  have hn : ∀ (ts : List Token) (b : Bool), .error ∈ ts → printTokensFrom b ts = none := by
    intro ts
    induction ts with
    | nil => intro b h; cases h
    | cons t ts ih =>
      intro b h
      rcases List.mem_cons.1 h with rfl | h
      · rfl
      · simp only [printTokensFrom, ih _ h]
        cases (printToken t b).1 <;> rfl
  have he : .error ∉ lex text := fun he => by
    rw [kofmt, printTokens, hn _ _ he] at h
    cases h
  obtain ⟨out', h1, h2⟩ := C26_tokens text he hc
  rw [h1] at h
  cases h
  rw [kofmt, h2]
  exact h1

/-- C26 is false for unclosed comments, which are dropped, and the formatter panics at lexical errors. -/
theorem C26_false : kofmt (str "a (; b") = some (str "a  ") ∧ lex (str "a  ") ≠ lex (str "a (; b") ∧ kofmt (str "a $") = none := by
  refine ⟨by decide +kernel, by decide +kernel, by decide +kernel⟩

/-- commands that are written closely are spread over lines -/
example : kofmt (str "a:b. def   m.{|x|}:=(x=>x)(; comment ;).[x]f x-->(g)a.#REQUIRE m .") =
    some (str "a : b.\ndef m.{|x|} := (x => x).\n[x] f x --> (g) a.\n# REQUIRE m.\n") := by decide +kernel
example : .error ∉ lex (str "a:b. def   m.{|x|}:=(x=>x)(; comment ;).") ∧ ∀ o ≤ 3, .comment o ∉ lex (str "a:b. def   m.{|x|}:=(x=>x)(; comment ;).") := by
  decide +kernel

#print axioms C22_term
#print axioms C22_commands
#print axioms C22_false
#print axioms C26_tokens
#print axioms C26_idempotent
#print axioms C26_false

end Kontroli
