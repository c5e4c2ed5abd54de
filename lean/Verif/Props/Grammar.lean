import Verif.Proofs.StrictGrammar

/-!
# C47, C48: the parser and the grammar, the lexer and its words
-/

namespace Kontroli

/-! ## C47 -/

/-- C47. The lazy parser yields some commands and no error if and only if these are what the tokens of the lines mean by the grammar. -/
theorem C47_lazy (lines : List Str) (cs : List (PCmd (PTerm PSymb))) :
    (∀ n, (LazyP.new lines).items scopeSymb n = (cs.map .ok).take n) ↔ ∃ ts, LexesLines 0 lines ts ∧ GText ts cs := by
  rw [← lazyRun_iff]
  refine ⟨lazy_ok, fun h n => ?_⟩
  have := items_run scopeSymb lines n 0 PState.new PCtx.new PState.new_open
  rw [h] at this
  exact this

/-- C47. The lazy parser yields an error if and only if the lines are not in the grammar. -/
theorem C47_lazy_error (lines : List Str) : (∃ n e, .err e ∈ (LazyP.new lines).items scopeSymb n) ↔
    ¬ ∃ ts cs, LexesLines 0 lines ts ∧ GText ts cs := by
  constructor
  · rintro ⟨n, e, h⟩ ⟨ts, cs, h1⟩
    rw [(C47_lazy lines cs).2 ⟨ts, h1⟩] at h
    exact err_notin (List.mem_of_mem_take h)
  · intro h
    cases hr : lazyRun scopeSymb lines 0 PState.new PCtx.new with
    | mk cs e =>
      cases e with
      | none => exact absurd ((lazyRun_iff _ _).1 hr) fun ⟨ts, h1⟩ => h ⟨ts, cs, h1⟩
      | some e =>
        have h2 := items_run scopeSymb lines (cs.length + 1) 0 PState.new PCtx.new PState.new_open
        rw [hr] at h2
        simp only at h2
        rw [List.take_of_length_le (l := _ ++ _) (by simp)] at h2
        have hm : failOut e ∈ (LazyP.new lines).items scopeSymb (cs.length + 1) :=
          List.mem_of_mem_take (i := cs.length + 1) (by
            show _ ∈ (LazyP.items scopeSymb (cs.length + 1) ⟨lines, 0, PState.new, PCtx.new, []⟩).take _
            rw [h2]; simp)
        cases e with
        | some e => exact ⟨_, e, hm⟩
        | none => exact absurd hm (C21_lazy_no_panic _ _ _)

/-- C47. The strict parser yields some commands and no error if and only if these are what the tokens of the text mean by the grammar, where
comments are closed and there is no pragma at the end. -/
theorem C47_strict (text : Str) (cs : List (PCmd (PTerm PSymb))) :
    strict scopeSymb text = cs.map .ok ↔ ∃ ts, Lexes text ts 0 ∧ GStrict ts cs := by
  constructor
  · intro h
    obtain ⟨ctx, hr, ho, hs⟩ := strict_ok h
    have hp := lex_parts text
    rw [ho, if_pos rfl, List.append_nil] at hp
    have h1 : GText (lex text) cs := hp ▸ (pRun_iff _ _).1 ⟨_, _, hr, rfl⟩
    refine ⟨lex text, (lexes_iff _ _ _).2 ⟨hp, ho.symm⟩, (h1.seen (fun t ht => ?_) _ hs).1⟩
    rw [hp] at ht
    exact (List.mem_filter.1 ht).2
  · rintro ⟨ts, h1, h2⟩
    obtain ⟨rfl, ho⟩ := (lexes_iff _ _ _).1 h1
    have hp := lex_parts text
    rw [← ho, if_pos rfl, List.append_nil] at hp
    have hr := text_run h2.text
    have hs := h2.seen (fun t ht => (List.mem_filter.1 ht).2) false fun _ => rfl
    rw [← hp] at hr hs
    have := pItems_run scopeSymb false PState.new PCtx.new (lex text) (lex_commentLast _) fun o ho => lex_comment_pos ho
    rw [hr] at this
    simp only [hs] at this
    rw [strict_eq, this]
    simp

/-- C47. The grammar is not ambiguous: a sequence of tokens means at most one sequence of commands. -/
theorem C47_unambiguous (ts : List Token) (cs cs' : List (PCmd (PTerm PSymb))) (h : GText ts cs) (h' : GText ts cs') : cs = cs' := by
  have := (text_run h).symm.trans (text_run h')
  cases this
  rfl

/-- C47. A sequence of tokens means at most one term. -/
theorem C47_term_unambiguous (ts : List Token) (t t' : PTerm PSymb) (h : GTerm ts t) (h' : GTerm ts t') : t = t' := by
  have := C47_unambiguous _ _ _ (.cmd (.decl (x := []) .nil h) .nil) (.cmd (.decl (x := []) .nil h') .nil)
  cases this
  rfl

/-- `def f (x : A) : B x := y : A => f x (g y). #NAME m.`, by the grammar -/
example : GText ([.def_, nameTok (str "f"), .lpar, nameTok (str "x"), .colon, nameTok (str "A"), .rpar, .colon, nameTok (str "B"), nameTok (str "x"),
      .colonEq, nameTok (str "y"), .colon, nameTok (str "A"), .fatArrow, nameTok (str "f"), nameTok (str "x"), .lpar, nameTok (str "g"),
      nameTok (str "y"), .rpar, .dot, .hash, nameTok (str "NAME"), nameTok (str "m"), .dot])
    [.intro (str "f") [(str "x", symbTerm ⟨[], str "A"⟩)] (.definition
      (some (.app (.atom ⟨[], str "B"⟩) [symbTerm ⟨[], str "x"⟩]))
      (some (.app (.abst (str "y") (some (symbTerm ⟨[], str "A"⟩)) (.app (.atom ⟨[], str "f"⟩) [symbTerm ⟨[], str "x"⟩,
        .app (.atom ⟨[], str "g"⟩) [symbTerm ⟨[], str "y"⟩]])) [])))] :=
  .cmd (.defBoth (.cons (.app .symb) .nil) (.app (.symbArg .symb))
      (.abstTy (t := symbTerm ⟨[], str "A"⟩) .symb (.app (.parArg (.symbArg .symb) (.app (.symbArg .symb))))))
    (.pragma (ps := [nameTok (str "NAME"), nameTok (str "m")]) (by simp [nameTok]) .nil)

/-- lines of which the lazy parser yields a command, so that they are in the grammar; the comment and the command extend over lines -/
example : ∃ ts, LexesLines 0 [str "(; a", str "(; ;) ;) thm p", str ": a.b -> {|c d|} := x => x."] ts ∧
    GText ts [.intro (str "p") [] (.theorem_ (.app (.prod none (symbTerm ⟨[str "a"], str "b"⟩) (symbTerm ⟨[], str "{|c d|}"⟩)) [])
      (.app (.abst (str "x") none (symbTerm ⟨[], str "x"⟩)) []))] := by
  refine (lazyRun_iff _ _).1 ?_
  rfl

/-- not in the grammar: nothing after an arrow -/
example : ¬ ∃ ts cs, LexesLines 0 [str "a : b ->", str "."] ts ∧ GText ts cs := by
  refine (C47_lazy_error _).1 ⟨1, .term .expectedIdentOrLPar, ?_⟩
  rw [show (LazyP.new [str "a : b ->", str "."]).items scopeSymb 1 = [.err (.term .expectedIdentOrLPar)] from rfl]
  exact .head _

/-- The strict parser refuses a pragma at the end, as it yields an error, whereas the lazy parser accepts it (see C23). -/
example : ¬ (∃ ts cs, Lexes (str "# a.") ts 0 ∧ GStrict ts cs) ∧ ∃ ts, LexesLines 0 [str "# a."] ts ∧ GText ts [] := by
  refine ⟨?_, (lazyRun_iff _ _).1 rfl⟩
  rintro ⟨ts, cs, h⟩
  have h1 := (C47_strict _ _).2 ⟨ts, h⟩
  rw [show strict scopeSymb (str "# a.") = [.err .expectedInput] from rfl] at h1
  cases cs <;> cases h1

/-! ## C48 -/

/-- C48. The lexer yields the tokens of a text, where each word is the longest possible one; and finally the number of comments that are not
closed, if there are any. -/
theorem C48_lex (text : Str) (ts : List Token) (n : Nat) :
    Lexes text ts n ↔ (∀ t ∈ ts, ∀ m, t ≠ .comment m) ∧ lex text = ts ++ if n = 0 then [] else [.comment n] := by
  rw [lexes_iff]
  constructor
  · rintro ⟨rfl, rfl⟩
    refine ⟨fun t ht m e => ?_, lex_parts text⟩
    subst e
    cases (List.mem_filter.1 ht).2
  · rintro ⟨h, e⟩
    have hp : ∀ t ∈ ts, t.plain = true := by
      intro t ht
      rcases hp : t.plain with _ | _
      · obtain ⟨o, rfl⟩ := Token.not_plain hp
        exact absurd rfl (h _ ht o)
      · rfl
    rw [e, List.filter_append, List.filter_eq_self.2 hp, openOf_append _ _ hp]
    split
    · next h0 => subst h0; exact ⟨by simp, rfl⟩
    · exact ⟨by simp [Token.plain], rfl⟩

/-- C48. A text has exactly one sequence of tokens. -/
theorem C48_unique (text : Str) : ∃ ts n, Lexes text ts n ∧ ∀ ts' n', Lexes text ts' n' → ts' = ts ∧ n' = n :=
  ⟨_, _, lex_lexes text, fun _ _ h => h.unique (lex_lexes text)⟩

/-- C48. The lines of a text. -/
theorem C48_lines (text : Str) (lines : List Str) : LinesOf text lines ↔ splitLines [] text = lines :=
  (linesOf_iff _ _).trans eq_comm

/-- the longest words: a keyword is not the beginning of a name, but a name may follow it -/
example : Lexes (str "define(;;)->--> def.x a.b{|c.|}.:=(; (;")
    [.symb ⟨[], str "define"⟩, .arrow, .longArrow, .def_, .dot, .symb ⟨[], str "x"⟩, .symb ⟨[str "a"], str "b"⟩, .symb ⟨[], str "{|c.|}"⟩, .dot,
      .colonEq] 2 := by
  refine (C48_lex _ _ _).2 ⟨by simp, by decide +kernel⟩

/-- errors: an unclosed `{|`, also in a path, and a character that begins no word -/
example : Lexes (str "a.{|b $-") [.error, .dot, .error, .symb ⟨[], str "b"⟩, .error, .error] 0 := by
  refine (C48_lex _ _ _).2 ⟨by simp, by decide +kernel⟩

/-- lines -/
example : LinesOf (str "a\r\n\r\nb\rc\nd") [str "a", str "", str "b\rc", str "d"] := by
  refine (C48_lines _ _).2 (by decide +kernel)

#print axioms C47_lazy
#print axioms C47_lazy_error
#print axioms C47_strict
#print axioms C47_unambiguous
#print axioms C47_term_unambiguous
#print axioms C48_lex
#print axioms C48_unique
#print axioms C48_lines

end Kontroli
