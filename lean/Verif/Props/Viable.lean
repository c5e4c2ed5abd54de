import Verif.Props.Grammar
import Verif.Proofs.ViableText

/-!
# C60: errors of the parser
-/

namespace Kontroli

/-- C60. The first error of the strict parser is the first error of the text, that is: everything before some token can be continued to a
text, but not with this token, and the kind of the error is given by the tokens that could have followed in its place
(`Explains`).  If there is no such token, then input is expected if the text can only be a part of a text. -/
theorem C60_strict (text : Str) (ts : List Token) (n : Nat) (h : Lexes text ts n) (e : ParseError) :
    (∃ cs rest, strict scopeSymb text = List.map POut.ok cs ++ POut.err e :: rest) ↔
      FirstError ts e ∨ e = .expectedInput ∧ Viable ts ∧ (n ≠ 0 ∨ ¬ ∃ cs, GStrict ts cs) := by
  obtain ⟨hts, hn⟩ := (lexes_iff _ _ _).1 h
  have hp : ts.filter Token.plain = ts := by rw [hts, List.filter_filter]; simp
  have hr : pRun scopeSymb PState.new PCtx.new ts = pRun scopeSymb PState.new PCtx.new (lex text) := by rw [hts, pRun_filter]
  have hi := pItems_run scopeSymb false PState.new PCtx.new (lex text) (lex_commentLast _) fun o ho => lex_comment_pos ho
  have hs := pRun_safe scopeSymb PState.new PCtx.new ts (PState.new_safe _)
  have hE := fun e => (pRun_err hp e)
  have hC := C47_strict text
  rw [strict_eq] at hC ⊢
  rw [hr] at hs hE
  cases hx : pRun scopeSymb PState.new PCtx.new (lex text) with
  | mk cs r =>
  rw [hx] at hi hs hE
  cases r with
  | panic ctx => exact hs.elim
  | err e' ctx =>
    obtain ⟨rest, hi⟩ := hi
    have hf : FirstError ts e' := (hE e').1 ⟨_, _, rfl⟩
    constructor
    · rintro ⟨cs', rest', h'⟩
      have := first_err (x := .err e') (cs' := cs) (k := cs.length + 1) (fun c hc => nomatch hc) h' (by
        rw [hi, List.take_of_length_le (l := _ ++ [_]) (by simp), List.append_cons, List.take_left' (by simp)])
      cases this
      exact .inl hf
    · rintro (hf' | ⟨_, hv, _⟩)
      · cases firstError_unique hp hf hf'
        exact ⟨cs, rest, hi⟩
      · exact absurd ⟨e', hf⟩ ((viable_or_error hp).1 hv)
  | more st ctx =>
    simp only at hi
    have hv : Viable ts := (viable_iff hp).2 (by simp [goes, hr, hx])
    have hnf : ¬ FirstError ts e := fun hf => (viable_or_error hp).1 hv ⟨e, hf⟩
    have hgood : (pSeen scopeSymb false PState.new PCtx.new (lex text) = false) ↔ ¬ (n ≠ 0 ∨ ¬ ∃ cs, GStrict ts cs) := by
      constructor
      · intro hs'
        rw [hs'] at hi
        obtain ⟨ts', h1, h2⟩ := (hC cs).1 (by rw [hi]; simp)
        obtain ⟨rfl, rfl⟩ := h1.unique h
        exact fun hh => hh.elim (fun h0 => h0 rfl) fun hh => hh ⟨cs, h2⟩
      · intro hh
        simp only [not_or, ne_eq, Classical.not_not] at hh
        obtain ⟨rfl, cs', hg⟩ := hh
        have := (hC cs').2 ⟨ts, h, hg⟩
        cases hb : pSeen scopeSymb false PState.new PCtx.new (lex text) with
        | false => rfl
        | true =>
          rw [hb, if_pos rfl] at hi
          rw [hi] at this
          have hm : (POut.err ParseError.expectedInput : POut ParseError (PCmd (PTerm PSymb))) ∈ cs'.map POut.ok := this ▸ by simp
          simp at hm
    cases hb : pSeen scopeSymb false PState.new PCtx.new (lex text) with
    | false =>
      rw [hb] at hi
      rw [hi]
      constructor
      · rintro ⟨cs', rest', h'⟩
        have hm : (POut.err e : POut ParseError (PCmd (PTerm PSymb))) ∈ cs.map POut.ok := by
          have : (POut.err e : POut ParseError (PCmd (PTerm PSymb))) ∈ List.map POut.ok cs' ++ POut.err e :: rest' := by simp
          rw [← h'] at this
          simpa using this
        simp at hm
      · rintro (hf | ⟨_, _, hh⟩)
        · exact absurd hf hnf
        · exact absurd hh (hgood.1 hb)
    | true =>
      rw [hb, if_pos rfl] at hi
      rw [hi]
      have hh : n ≠ 0 ∨ ¬ ∃ cs, GStrict ts cs := Classical.byContradiction fun hh => by
        rw [hgood.2 hh] at hb
        cases hb
      constructor
      · rintro ⟨cs', rest', h'⟩
        have := first_err (x := .err .expectedInput) (cs' := cs) (k := cs.length + 1) (fun c hc => nomatch hc) h' rfl
        cases this
        exact .inr ⟨rfl, hv, hh⟩
      · rintro (hf | ⟨rfl, _, _⟩)
        · exact absurd hf hnf
        · exact ⟨cs, [], rfl⟩

/-- C60. The same for the lazy parser; a text may end in a pragma. -/
theorem C60_lazy (lines : List Str) (ts : List Token) (n : Nat) (h : LexesOpen 0 lines ts n) (e : ParseError) :
    (∃ k cs rest, (LazyP.new lines).items scopeSymb k = List.map POut.ok cs ++ POut.err e :: rest) ↔
      FirstError ts e ∨ e = .expectedInput ∧ Viable ts ∧ (n ≠ 0 ∨ ¬ ∃ cs, GText ts cs) := by
  have hp := h.plain
  have hi := fun k => items_run scopeSymb lines k 0 PState.new PCtx.new PState.new_open
  have ho := lazyRun_open h PState.new PCtx.new
  have hs := pRun_safe scopeSymb PState.new PCtx.new ts (PState.new_safe _)
  have hE := fun e => (pRun_err hp e)
  have hG := pRun_iff ts
  rw [hp] at hG
  have fails (cs : List (PCmd (PTerm PSymb))) (e' : ParseError) (hx : lazyRun scopeSymb lines 0 PState.new PCtx.new = (cs, some (some e'))) :
      (∃ k cs rest, (LazyP.new lines).items scopeSymb k = List.map POut.ok cs ++ POut.err e :: rest) ↔ e = e' := by
    simp only [hx] at hi
    constructor
    · rintro ⟨k, cs', rest, h'⟩
      have := first_err (x := failOut (some e')) (cs' := cs) (fun c hc => nomatch hc) h' (hi k)
      cases this
      rfl
    · rintro rfl
      refine ⟨cs.length + 1, cs, ((LazyP.new lines).items scopeSymb (cs.length + 1)).drop (cs.length + 1), ?_⟩
      have := hi (cs.length + 1)
      rw [List.take_of_length_le (l := _ ++ _) (by simp)] at this
      conv => lhs; rw [← List.take_append_drop (cs.length + 1) ((LazyP.new lines).items scopeSymb (cs.length + 1))]
      rw [show List.take (cs.length + 1) ((LazyP.new lines).items scopeSymb (cs.length + 1)) = _ from this]
      simp [failOut]
  cases hx : pRun scopeSymb PState.new PCtx.new ts with
  | mk cs r =>
  rw [hx] at ho hs hE hG
  cases r with
  | panic ctx => exact hs.elim
  | err e' ctx =>
    obtain ⟨cs', ho⟩ := ho
    have hf : FirstError ts e' := (hE e').1 ⟨_, _, rfl⟩
    rw [fails cs' e' ho]
    constructor
    · rintro rfl; exact .inl hf
    · rintro (hf' | ⟨_, hv, _⟩)
      · exact firstError_unique hp hf' hf
      · exact absurd ⟨e', hf⟩ ((viable_or_error hp).1 hv)
  | more st ctx =>
    simp only at ho
    have hv : Viable ts := (viable_iff hp).2 (by simp [goes, hx])
    have hnf : ¬ FirstError ts e := fun hf => (viable_or_error hp).1 hv ⟨e, hf⟩
    have hgood : st.cmd = .init ↔ ∃ cs, GText ts cs := by
      constructor
      · intro hi; exact ⟨cs, (hG cs).1 ⟨st, ctx, rfl, hi⟩⟩
      · rintro ⟨cs', hg⟩
        obtain ⟨st', ctx', h1, h2⟩ := (hG cs').2 hg
        cases h1
        exact h2
    have hend : (n ≠ 0 ∨ ¬ ∃ cs, GText ts cs) → lazyEnd n st = some ParseError.expectedInput := by
      rw [← hgood]
      unfold lazyEnd
      cases st.cmd <;> cases n <;> simp
    have hend' : ¬ (n ≠ 0 ∨ ¬ ∃ cs, GText ts cs) → lazyEnd n st = none := by
      rw [← hgood]
      unfold lazyEnd
      cases st.cmd <;> cases n <;> simp
    by_cases hh : n ≠ 0 ∨ ¬ ∃ cs, GText ts cs
    · rw [hend hh] at ho
      rw [fails cs _ ho]
      constructor
      · rintro rfl; exact .inr ⟨rfl, hv, hh⟩
      · rintro (hf | ⟨rfl, _, _⟩)
        · exact absurd hf hnf
        · rfl
    · rw [hend' hh] at ho
      simp only [ho, Option.map] at hi
      constructor
      · rintro ⟨k, cs', rest, h'⟩
        have hm : (POut.err e : POut ParseError (PCmd (PTerm PSymb))) ∈ (LazyP.new lines).items scopeSymb k := h' ▸ by simp
        rw [show (LazyP.new lines).items scopeSymb k = _ from hi k] at hm
        have := List.mem_of_mem_take hm
        simp at this
      · rintro (hf | ⟨_, _, hh'⟩)
        · exact absurd hf hnf
        · exact absurd hh' hh

/-- C60. The commands that the strict parser yields before its first error are those of the longest text with which the tokens begin. -/
theorem C60_before (text : Str) (ts : List Token) (n : Nat) (h : Lexes text ts n) (e : ParseError) (cs : List (PCmd (PTerm PSymb)))
    (rest : List (POut ParseError (PCmd (PTerm PSymb)))) (hs : strict scopeSymb text = cs.map .ok ++ .err e :: rest) :
    (∃ ts1 ts2, ts = ts1 ++ ts2 ∧ GText ts1 cs) ∧ ∀ ts1 ts2 cs1, ts = ts1 ++ ts2 → GText ts1 cs1 → cs1 <+: cs := by
  obtain ⟨hts, hn⟩ := (lexes_iff _ _ _).1 h
  have hp : ts.filter Token.plain = ts := by rw [hts, List.filter_filter]; simp
  have hr : pRun scopeSymb PState.new PCtx.new ts = pRun scopeSymb PState.new PCtx.new (lex text) := by rw [hts, pRun_filter]
  have hi := pItems_run scopeSymb false PState.new PCtx.new (lex text) (lex_commentLast _) fun o ho => lex_comment_pos ho
  have hsafe := pRun_safe scopeSymb PState.new PCtx.new ts (PState.new_safe _)
  rw [strict_eq] at hs
  rw [← hr] at hi
  cases hx : pRun scopeSymb PState.new PCtx.new ts with
  | mk cs' r =>
  have hb := pRun_before hp hx
  rw [hx] at hi hsafe
  suffices cs = cs' by rw [this]; exact hb
  cases r with
  | panic ctx => exact hsafe.elim
  | err e' ctx =>
    obtain ⟨rest', hi⟩ := hi
    exact (ok_err_inj (hs.symm.trans hi)).1
  | more st ctx =>
    simp only at hi
    rw [hs] at hi
    split at hi
    · exact (ok_err_inj (rest' := []) hi).1
    · have hm : (POut.err e : POut ParseError (PCmd (PTerm PSymb))) ∈ List.map POut.ok cs ++ POut.err e :: rest := by simp
      rw [hi] at hm
      simp at hm

/-- C60. A sequence of tokens (without comments) can be continued to a text unless it has an error; it has at most one first error. -/
theorem C60_viable (ts : List Token) (h : ∀ t ∈ ts, ∀ n, t ≠ .comment n) :
    (Viable ts ↔ ¬ ∃ e, FirstError ts e) ∧ ∀ e e', FirstError ts e → FirstError ts e' → e = e' := by
  have hp : ts.filter Token.plain = ts := List.filter_eq_self.2 fun t ht => by
    rcases hp : t.plain with _ | _
    · obtain ⟨o, rfl⟩ := Token.not_plain hp
      exact absurd rfl (h _ ht o)
    · rfl
  exact ⟨viable_or_error hp, fun _ _ => firstError_unique hp⟩

/-- C60, false of the code: the errors do not always name a token that could have followed.  After `[`, a comma or a bracket is said to be expected, but there is no text that begins with `[,`. -/
theorem C60_comma_false : ¬ ∀ (pre : List Token) (tok : Token), Viable pre → FirstError (pre ++ [tok]) (.command .expectedCommaOrRBrk) →
    Viable (pre ++ [.comma]) := by
  intro h
  have h1 := h [.lbrk] .arrow ((viable_iff rfl).2 rfl) ((pRun_err rfl _).1 ⟨_, _, rfl⟩)
  have := viable_goes h1
  cases this

/-- C60, false of the code: after the type of a variable of a rule, a `.` is said to be in the place of a command, but there is no text that goes on with
a command. -/
theorem C60_cmd_false : ¬ ∀ (pre : List Token) (tok : Token), Viable pre → FirstError (pre ++ [tok]) (.command .expectedCmd) →
    Viable (pre ++ [.hash]) ∨ Viable (pre ++ [.def_]) ∨ Viable (pre ++ [.thm]) := by
  intro h
  have h1 := h [.lbrk, nameTok (str "x"), .colon, nameTok (str "A")] .dot ((viable_iff rfl).2 rfl) ((pRun_err rfl _).1 ⟨_, _, rfl⟩)
  rcases h1 with h1 | h1 | h1 <;> cases viable_goes h1

/-- the test cases `negative` (`dedukti-parse/src/lib.rs` L351-378), which have these errors by the grammar -/
example : ∀ p ∈ ([(str ".", .expectedCmd),
    (str "x ->", .expectedColon),
    (str "def :", .expectedIdent),
    (str "thm ->", .expectedIdent),
    (str "injective (", .expectedIdent),
    (str "def d ->", .expectedColonOrColonEq),
    (str "def d := t := t.", .unexpectedToken),
    (str "thm t := tm.", .expectedColon),
    (str "thm t :  ty.", .expectedColonEq),
    (str "thm t : ty := tm :=", .unexpectedToken),
    (str "thm t (->", .expectedIdent),
    (str "thm t (x ->", .expectedColon),
    (str "thm t (x : a -->", .expectedRPar),
    (str "thm t: ty def", .expectedColonEq),
    (str "injective eta := Type.", .expectedColon),
    (str "injective eta : Type := Type.", .unexpectedToken),
    (str "[->", .expectedCommaOrRBrk),
    (str "[x ->", .expectedCommaOrRBrk),
    (str "[x] l.", .expectedLongArrow)] : List (Str × CmdError)), ∃ ts, FirstError ts (.command p.2) ∧ ∃ n, Lexes p.1 ts n := by
  have h : ∀ p ∈ ([(str ".", .expectedCmd),
    (str "x ->", .expectedColon),
    (str "def :", .expectedIdent),
    (str "thm ->", .expectedIdent),
    (str "injective (", .expectedIdent),
    (str "def d ->", .expectedColonOrColonEq),
    (str "def d := t := t.", .unexpectedToken),
    (str "thm t := tm.", .expectedColon),
    (str "thm t :  ty.", .expectedColonEq),
    (str "thm t : ty := tm :=", .unexpectedToken),
    (str "thm t (->", .expectedIdent),
    (str "thm t (x ->", .expectedColon),
    (str "thm t (x : a -->", .expectedRPar),
    (str "thm t: ty def", .expectedColonEq),
    (str "injective eta := Type.", .expectedColon),
    (str "injective eta : Type := Type.", .unexpectedToken),
    (str "[->", .expectedCommaOrRBrk),
    (str "[x ->", .expectedCommaOrRBrk),
    (str "[x] l.", .expectedLongArrow)] : List (Str × CmdError)), ∃ rest, strict scopeSymb p.1 = .err (.command p.2) :: rest := by
    simp only [List.forall_mem_cons, List.not_mem_nil, false_implies, implies_true, and_true]
    refine ⟨⟨_, rfl⟩, ⟨_, rfl⟩, ⟨_, rfl⟩, ⟨_, rfl⟩, ⟨_, rfl⟩, ⟨_, rfl⟩, ⟨_, rfl⟩, ⟨_, rfl⟩, ⟨_, rfl⟩, ⟨_, rfl⟩, ⟨_, rfl⟩, ⟨_, rfl⟩, ⟨_, rfl⟩, ⟨_, rfl⟩, ⟨_, rfl⟩, ⟨_, rfl⟩, ⟨_, rfl⟩, ⟨_, rfl⟩, ⟨_, rfl⟩⟩
  intro p hp
  obtain ⟨rest, hr⟩ := h p hp
  have hl := (lexes_iff p.1 _ _).2 ⟨rfl, rfl⟩
  refine ⟨_, ((C60_strict _ _ _ hl (.command p.2)).1 ⟨[], rest, hr⟩).resolve_right ?_, _, hl⟩
  rintro ⟨h, _⟩
  cases h

/-- an error in a term, after a command: `a : b. c : (d) => e.`; the text could have gone on with an arrow -/
example : FirstError ([nameTok (str "a"), .colon, nameTok (str "b"), .dot, nameTok (str "c"), .colon, .lpar, nameTok (str "d"), .rpar, .fatArrow,
      nameTok (str "e"), .dot]) (.term .anonymousLambda) ∧
    Viable [nameTok (str "a"), .colon, nameTok (str "b"), .dot, nameTok (str "c"), .colon, .lpar, nameTok (str "d"), .rpar, .arrow] :=
  ⟨(pRun_err rfl _).1 ⟨_, _, rfl⟩, (viable_iff rfl).2 rfl⟩

/-- input is expected: a comment that is not closed, and a command that is not complete -/
example : (∃ cs rest, strict scopeSymb (str "a : b. (; c") = List.map POut.ok cs ++ POut.err .expectedInput :: rest) ∧
    ∃ k cs rest, (LazyP.new [str "a : b.", str "c"]).items scopeSymb k = List.map POut.ok cs ++ POut.err .expectedInput :: rest :=
  ⟨⟨[_], [], rfl⟩, ⟨2, [_], [], rfl⟩⟩

#print axioms C60_strict
#print axioms C60_lazy
#print axioms C60_before
#print axioms C60_viable
#print axioms C60_comma_false
#print axioms C60_cmd_false

end Kontroli
