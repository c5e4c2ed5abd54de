import Verif.Proofs.ParseClean

/-!
# C21, C23, C25, C27, C28: lexing and parsing

`strict sc text` are all items that the strict parser yields for a text; `(LazyP.new lines).items sc n` are the first `n` items that
the lazy parser yields for some lines, or fewer if it answers `None` before.  `sc` is the function that scopes symbols, which is
arbitrary unless stated otherwise.
-/

namespace Kontroli

variable {A : Type}

/-! ## C21 -/

/-- C21. Parsing a whole text does not panic, whatever the text. -/
theorem C21_strict_no_panic (sc : ScopeFn A) (text : Str) : .panic ∉ strict sc text := by
  rw [strict_eq]
  exact pItems_safe sc false PState.new PCtx.new _ (PState.new_safe _)

/-- C21. Parsing line by line does not panic, whatever the lines, also when it goes on after errors. -/
theorem C21_lazy_no_panic (sc : ScopeFn A) (lines : List Str) (n : Nat) : .panic ∉ (LazyP.new lines).items sc n :=
  items_safe sc n _ (PState.new_safe _)

/-- errors and commands alternate -/
example : strict scopeSymb (str "a : b. [x] --> . def d := c. thm") = [
    .ok (.intro (str "a") [] (.declaration false (.new (.atom ⟨[], str "b"⟩)))),
    .err (.term .expectedIdentOrLPar),
    .err (.command .expectedCmd),
    .ok (.intro (str "d") [] (.definition none (some (.new (.atom ⟨[], str "c"⟩))))),
    .err .expectedInput] := by rfl

/-! ## C23 -/

theorem ok_append_inj {cs ds : List (PCmd (PTerm A))} {e e' : ParseError} {r r' : List (POut ParseError (PCmd (PTerm A)))}
    (h : cs.map .ok ++ .err e :: r = ds.map .ok ++ .err e' :: r') : cs = ds ∧ e = e' ∧ r = r' := by
  induction cs generalizing ds with
  | nil =>
    cases ds with
    | nil => simpa using h
    | cons d ds => simp at h
  | cons c cs ih =>
    cases ds with
    | nil => simp at h
    | cons d ds =>
      simp only [List.map_cons, List.cons_append, List.cons.injEq, POut.ok.injEq] at h
      obtain ⟨rfl, h⟩ := h
      obtain ⟨rfl, h'⟩ := ih h
      exact ⟨rfl, h'⟩

theorem ok_inj {cs ds : List (PCmd (PTerm A))} (h : cs.map (POut.ok (ε := ParseError)) = ds.map .ok) : cs = ds :=
  (List.map_inj_right (fun _ _ h => by cases h; rfl)).1 h

theorem err_notin {cs : List (PCmd (PTerm A))} {e : ParseError} : .err e ∉ cs.map (POut.ok (ε := ParseError)) := by
  intro h
  obtain ⟨c, _, hc⟩ := List.mem_map.1 h
  cases hc

/-- what the strict parser accepts, in terms of runs -/
theorem strict_ok {sc : ScopeFn A} {text : Str} {cs : List (PCmd (PTerm A))} (h : strict sc text = cs.map .ok) :
    ∃ ctx, pRun sc PState.new PCtx.new (lex text) = (cs, .more PState.new ctx) ∧ openOf (lex text) = 0 ∧
      pSeen sc false PState.new PCtx.new (lex text) = false := by
  rw [strict_eq] at h
  have h1 := pItems_run sc false PState.new PCtx.new (lex text) (lex_commentLast _) fun o ho => lex_comment_pos ho
  cases hr : pRun sc PState.new PCtx.new (lex text) with
  | mk ds r =>
    rw [hr] at h1
    cases r with
    | err e ctx =>
      obtain ⟨rest, h1⟩ := h1
      rw [h1] at h
      exact absurd (h ▸ by simp) (err_notin (cs := cs) (e := e))
    | panic ctx =>
      have := pRun_safe sc PState.new PCtx.new (lex text) (PState.new_safe _)
      rw [hr] at this
      exact this.elim
    | more st ctx =>
      simp only at h1
      cases hs : pSeen sc false PState.new PCtx.new (lex text) with
      | true =>
        rw [h1, hs] at h
        exact absurd (h ▸ by simp) (err_notin (cs := cs) (e := .expectedInput))
      | false =>
        rw [h1, hs] at h
        obtain ⟨rfl, ho⟩ := pSeen_false sc false PState.new PCtx.new _ (fun _ => rfl) hr hs
        obtain rfl := ok_inj (by simpa using h)
        exact ⟨ctx, rfl, ho, rfl⟩

/-- C23. If all of a text is parsed successfully, then its lines yield the same commands in the same order, and nothing else.
The lines must not contain the beginning of a `{|` that they do not end. -/
theorem C23_same_commands (sc : ScopeFn A) (lines : List Str) (hm : ∀ l ∈ lines, MoustacheClosed l) (cs : List (PCmd (PTerm A)))
    (h : strict sc (unlines lines) = cs.map .ok) (n : Nat) : (LazyP.new lines).items sc n = (cs.map .ok).take n := by
  obtain ⟨ctx, hr, ho, _⟩ := strict_ok h
  have h1 := lazyRun_whole sc lines hm 0 PState.new PCtx.new
  rw [lexFrom_zero, hr] at h1
  simp only [ho] at h1
  have h2 := items_run sc lines n 0 PState.new PCtx.new PState.new_open
  rw [h1] at h2
  exact h2

theorem lazy_ok {sc : ScopeFn A} {lines : List Str} {cs : List (PCmd (PTerm A))}
    (h : ∀ n, (LazyP.new lines).items sc n = (cs.map .ok).take n) : lazyRun sc lines 0 PState.new PCtx.new = (cs, none) := by
  cases hr : lazyRun sc lines 0 PState.new PCtx.new with
  | mk ds e =>
    have h2 := fun n => items_run sc lines n 0 PState.new PCtx.new PState.new_open
    rw [hr] at h2
    cases e with
    | none =>
      simp only at h2
      have := h (cs.length + ds.length)
      rw [show LazyP.new lines = ⟨lines, 0, PState.new, PCtx.new, []⟩ from rfl, h2,
        List.take_of_length_le (by simp), List.take_of_length_le (by simp)] at this
      rw [ok_inj this]
    | some e =>
      have h3 := h2 (ds.length + 1)
      simp only at h3
      rw [show (⟨lines, 0, PState.new, PCtx.new, []⟩ : LazyP A) = LazyP.new lines from rfl, h, List.take_take, Nat.min_self,
        List.take_of_length_le (l := _ ++ _) (by simp)] at h3
      have : failOut e ∈ cs.map (POut.ok (ε := ParseError)) := 
        List.mem_of_mem_take (i := ds.length + 1) (by rw [h3]; simp)
      cases e with
      | some e => exact absurd this err_notin
      | none =>
        obtain ⟨c, _, hc⟩ := List.mem_map.1 this
        cases hc

theorem lazyEnd_seen {sc : ScopeFn A} {text : Str} {ds : List (PCmd (PTerm A))} {st : PState A} {ctx : PCtx A} (hh : .hash ∉ lex text)
    (hr : pRun sc PState.new PCtx.new (lex text) = (ds, .more st ctx)) (hs : pSeen sc false PState.new PCtx.new (lex text) = true) :
    lazyEnd (openOf (lex text)) st = some .expectedInput := by
  rcases pSeen_true sc false PState.new PCtx.new _ (fun h => nomatch h) (fun h => nomatch h) PState.new_open hh (lex_commentLast _)
    (fun o ho => lex_comment_pos ho) hr hs with h3 | h3
  · unfold lazyEnd
    split
    · next h4 => exact absurd h4 h3
    · rfl
  · unfold lazyEnd
    split
    · simp [h3]
    · rfl

/-- C23, conversely: if all lines are parsed successfully, then the whole text yields the same commands.
This assumes that the text contains no pragmas; see `C23_false` for the reason. -/
theorem C23_converse_partial (sc : ScopeFn A) (lines : List Str) (hm : ∀ l ∈ lines, MoustacheClosed l) (cs : List (PCmd (PTerm A)))
    (hh : .hash ∉ lex (unlines lines)) (h : ∀ n, (LazyP.new lines).items sc n = (cs.map .ok).take n) :
    strict sc (unlines lines) = cs.map .ok := by
  have h0 := lazy_ok h
  have h1 := lazyRun_whole sc lines hm 0 PState.new PCtx.new
  have h2 := pItems_run sc false PState.new PCtx.new (lex (unlines lines)) (lex_commentLast _) fun o ho => lex_comment_pos ho
  rw [strict_eq]
  rw [lexFrom_zero] at h1
  cases hr : pRun sc PState.new PCtx.new (lex (unlines lines)) with
  | mk ds r =>
    rw [hr] at h1 h2
    cases r with
    | err e ctx => obtain ⟨_, _, h1⟩ := h1; rw [h0] at h1; cases h1
    | panic ctx => obtain ⟨_, _, h1⟩ := h1; rw [h0] at h1; cases h1
    | more st ctx =>
      simp only [h0, Prod.mk.injEq] at h1 h2
      obtain ⟨rfl, h1⟩ := h1
      cases hs : pSeen sc false PState.new PCtx.new (lex (unlines lines)) with
      | false => rw [h2, hs]; simp
      | true =>
        rw [lazyEnd_seen hh hr hs] at h1
        cases h1

theorem items_err {sc : ScopeFn A} {lines : List Str} {ds : List (PCmd (PTerm A))} {e : ParseError}
    (hd : lazyRun sc lines 0 PState.new PCtx.new = (ds, some (some e))) :
    (LazyP.new lines).items sc (ds.length + 1) = ds.map .ok ++ [.err e] := by
  have h3 := items_run sc lines (ds.length + 1) 0 PState.new PCtx.new PState.new_open
  rw [hd] at h3
  simp only [failOut] at h3
  rw [List.take_of_length_le (l := _ ++ _) (by simp)] at h3
  rw [← h3, List.take_of_length_le]
  · rfl
  · exact items_length _ _ _

/-- C23, for texts with errors: the first error is the same.  Before it, the lazy parser delivers a beginning of the commands that
precede it in the text. -/
theorem C23_first_error (sc : ScopeFn A) (lines : List Str) (hm : ∀ l ∈ lines, MoustacheClosed l) (cs : List (PCmd (PTerm A)))
    (e : ParseError) (rest : List (POut ParseError (PCmd (PTerm A)))) (h : strict sc (unlines lines) = cs.map .ok ++ .err e :: rest)
    (he : e ≠ .expectedInput ∨ .hash ∉ lex (unlines lines)) :
    ∃ ds, ds <+: cs ∧ (LazyP.new lines).items sc (ds.length + 1) = ds.map .ok ++ [.err e] := by
  have h1 := lazyRun_whole sc lines hm 0 PState.new PCtx.new
  have h2 := pItems_run sc false PState.new PCtx.new (lex (unlines lines)) (lex_commentLast _) fun o ho => lex_comment_pos ho
  rw [strict_eq] at h
  rw [lexFrom_zero] at h1
  cases hr : pRun sc PState.new PCtx.new (lex (unlines lines)) with
  | mk ds r =>
    rw [hr] at h1 h2
    cases r with
    | err e' ctx =>
      obtain ⟨es, hes, h1⟩ := h1
      obtain ⟨rest', h2⟩ := h2
      obtain ⟨rfl, rfl, _⟩ := ok_append_inj (h.symm.trans h2)
      exact ⟨es, hes, items_err h1⟩
    | panic ctx =>
      have := pRun_safe sc PState.new PCtx.new (lex (unlines lines)) (PState.new_safe _)
      rw [hr] at this
      exact this.elim
    | more st ctx =>
      simp only at h1 h2
      cases hs : pSeen sc false PState.new PCtx.new (lex (unlines lines)) with
      | false =>
        rw [h2, hs] at h
        exact absurd (show .err e ∈ ds.map (POut.ok (ε := ParseError)) by simp at h; rw [h]; simp) err_notin
      | true =>
        rw [h2, hs] at h
        obtain ⟨rfl, rfl, _⟩ := ok_append_inj h
        refine ⟨_, List.prefix_refl _, items_err ?_⟩
        rw [h1, lazyEnd_seen (he.resolve_left (fun h => h rfl)) hr hs]
        rfl

/-- A pragma at the end of a text is an error for the strict parser, but not for the lazy one. -/
theorem C23_false : ∃ line : Str, MoustacheClosed line ∧ strict scopeSymb (unlines [line]) = [.err .expectedInput] ∧
    ∀ n, (LazyP.new [line]).items scopeSymb n = [] := by
  refine ⟨str "#EVAL a.", ?_, rfl, ?_⟩
  · intro a b h
    exfalso
    have : '{' ∈ str "#EVAL a." := by rw [h]; simp [str]
    revert this; decide
  · intro n
    cases n <;> rfl

/-- The condition on moustaches is necessary: when a `{|` is not closed on its line, the lazy parser sees an error. -/
theorem C23_moustache_false : ∃ lines : List Str, ∃ cs : List (PCmd (PTerm PSymb)), strict scopeSymb (unlines lines) = cs.map .ok ∧
    (LazyP.new lines).items scopeSymb 1 ≠ (cs.map .ok).take 1 := by
  refine ⟨[str "{|a", str "b|} : c."], [.intro (str "{|a\nb|}") [] (.declaration false (.new (.atom ⟨[], str "c"⟩)))], rfl, ?_⟩
  intro h
  have h1 : (LazyP.new [str "{|a", str "b|} : c."]).items scopeSymb 1 = [.err (.command .expectedCmd)] := rfl
  rw [h1] at h
  cases h

/-- commands, comments and definitions that span lines -/
example : (∀ l ∈ [str "a (; x", str "(; ;) ;) : b. def c", str ": d := x => x. {|e f|} : g."], MoustacheClosed l) ∧
    strict scopeAtom (unlines [str "a (; x", str "(; ;) ;) : b. def c", str ": d := x => x. {|e f|} : g."]) = [
      PCmd.intro (str "a") [] (.declaration false (.new (.atom (.const ⟨[], str "b"⟩)))),
      .intro (str "c") [] (.definition (some (.new (.atom (.const ⟨[], str "d"⟩)))) (some (.new (.abst (str "x") none (.new (.atom (.var 0))))))),
      .intro (str "{|e f|}") [] (.declaration false (.new (.atom (.const ⟨[], str "g"⟩))))].map .ok :=
  ⟨fun l hl => moustacheCheck_closed l (by revert l; decide), rfl⟩

/-! ## C25 -/

/-- C25. A comment between tokens is the same as a space. -/
theorem C25_comment_is_space (a w b : Str) (hw : IsComment w) (ha : MoustacheClosed a) (hc : ∀ n, .comment n ∉ lex a) :
    lex (a ++ w ++ b) = lex (a ++ str " " ++ b) := by
  obtain ⟨c, rfl⟩ := hw.eq
  rw [List.append_assoc, lex_append_closed ha hc (u := str "(;" ++ c ++ b) (by rfl), lex_isComment hw, List.append_assoc,
    lex_append_closed ha hc (u := str " " ++ b) (by rfl)]
  rw [show str " " ++ b = ' ' :: b from rfl, lex_space' (by rfl)]

/-- C25. Thus, what is parsed does not change. -/
theorem C25_parse (sc : ScopeFn A) (a w b : Str) (hw : IsComment w) (ha : MoustacheClosed a) (hc : ∀ n, .comment n ∉ lex a) :
    strict sc (a ++ w ++ b) = strict sc (a ++ str " " ++ b) := by
  simp only [strict, C25_comment_is_space a w b hw ha hc]

/-- C25. A comment that is not closed is reported with the number of comments that are open at the end. -/
theorem C25_unclosed (a c : Str) (ha : MoustacheClosed a) (hc : ∀ n, .comment n ∉ lex a) (h : StaysOpen (marks (str "(;" ++ c))) :
    lex (a ++ (str "(;" ++ c)) = lex a ++ [.comment (depth (marks (str "(;" ++ c)))] := by
  rw [lex_append_closed ha hc (by rfl), lex_staysOpen h]

/-- C25, conversely: a report of open comments comes from a comment that is not closed. -/
theorem C25_reported (text : Str) (n : Nat) (h : .comment n ∈ lex text) :
    ∃ a c, text = a ++ (str "(;" ++ c) ∧ StaysOpen (marks (str "(;" ++ c)) ∧ n = depth (marks (str "(;" ++ c)) :=
  lex_open h

/-- a nested comment -/
example : IsComment (str "(; a (; b ;)(;;) c ;)") :=
  ⟨str " a (; b ;)(;;) c ", [.opening, .closing, .opening, .closing], rfl, .wrap .nil (.wrap .nil .nil), rfl⟩

/-- two comments that are not closed -/
example : lex (str "a : b (; (; c ;) (; d") = [.symb ⟨[], str "a"⟩, .colon, .symb ⟨[], str "b"⟩, .comment 2] := rfl

example : depth (marks (str "(; (; c ;) (; d")) = 2 := rfl

/-! ## C27 -/

/-- C27. A text that follows a text of complete commands is parsed as if it was alone. -/
theorem C27_strict (sc : ScopeFn A) (t1 t2 : Str) (w : Char) (hw : isSpace w = true) (hm : MoustacheClosed t1)
    (cs : List (PCmd (PTerm A))) (h : strict sc t1 = cs.map .ok) : strict sc (t1 ++ w :: t2) = cs.map .ok ++ strict sc t2 := by
  obtain ⟨ctx, hr, ho, hs⟩ := strict_ok h
  have hn := openOf_zero (lex_commentLast t1) (fun o ho => lex_comment_pos ho) ho
  have hc := pRun_clean sc _ _ _ PState.new_clean hr
  have hctx : ctx = PCtx.new := by
    obtain ⟨bound, stack⟩ := ctx
    have h1 : bound = [] := hc.1
    have h2 : stack = [] := hc.2 ⟨rfl, rfl⟩
    rw [h1, h2]; rfl
  subst hctx
  rw [strict_eq, strict_eq, lex_append_closed hm hn (by simp [Brk, brkChar, hw]), lex_space' hw, pItems_append _ _ _ _ _ _ _ _ hn _ hr, hs]

/-- C27. The same for lines. -/
theorem C27_lazy (sc : ScopeFn A) (lines1 lines2 : List Str) (cs : List (PCmd (PTerm A)))
    (h : ∀ n, (LazyP.new lines1).items sc n = (cs.map .ok).take n) (n : Nat) :
    (LazyP.new (lines1 ++ lines2)).items sc n = (cs.map .ok).take n ++ (LazyP.new lines2).items sc (n - cs.length) :=
  items_append sc lines1 lines2 n 0 PState.new PCtx.new PState.new_open PState.new_clean (lazy_ok h)

/-! ## C28 -/

/-- C28 is false: the error comes first, and the commands that precede it come after it in reverse order. -/
theorem C28_false : (LazyP.new [str "a : b. c : d. ->"]).items scopeSymb 4 = [
    .err (.command .expectedCmd),
    .ok (.intro (str "c") [] (.declaration false (.new (.atom ⟨[], str "d"⟩)))),
    .ok (.intro (str "a") [] (.declaration false (.new (.atom ⟨[], str "b"⟩))))] := rfl

/-- C28, if each line contains the end of a command only at its end: then all commands that precede the first error
in the text are delivered before it, in order. -/
theorem C28_partial (sc : ScopeFn A) (lines : List Str) (hm : ∀ l ∈ lines, MoustacheClosed l)
    (hd : ∀ l ∈ lines, ∀ n a b, lexFrom n l = a ++ .dot :: b → ∀ t ∈ b, ∃ n, t = .comment n) (cs : List (PCmd (PTerm A)))
    (e : ParseError) (rest : List (POut ParseError (PCmd (PTerm A)))) (h : strict sc (unlines lines) = cs.map .ok ++ .err e :: rest)
    (he : e ≠ .expectedInput ∨ .hash ∉ lex (unlines lines)) :
    (LazyP.new lines).items sc (cs.length + 1) = cs.map .ok ++ [.err e] := by
  have h1 := lazyRun_whole sc lines hm 0 PState.new PCtx.new
  have h2 := pItems_run sc false PState.new PCtx.new (lex (unlines lines)) (lex_commentLast _) fun o ho => lex_comment_pos ho
  rw [strict_eq] at h
  rw [lexFrom_zero] at h1
  cases hr : pRun sc PState.new PCtx.new (lex (unlines lines)) with
  | mk ds r =>
    rw [hr] at h1 h2
    cases r with
    | err e' ctx =>
      obtain ⟨rest', h2⟩ := h2
      obtain ⟨rfl, rfl, _⟩ := ok_append_inj (h.symm.trans h2)
      exact items_err (lazyRun_dots sc lines hm hd 0 PState.new PCtx.new ctx _ _ (by rw [lexFrom_zero]; exact hr))
    | panic ctx =>
      have := pRun_safe sc PState.new PCtx.new (lex (unlines lines)) (PState.new_safe _)
      rw [hr] at this
      exact this.elim
    | more st ctx =>
      simp only at h1 h2
      cases hs : pSeen sc false PState.new PCtx.new (lex (unlines lines)) with
      | false =>
        rw [h2, hs] at h
        exact absurd (show .err e ∈ ds.map (POut.ok (ε := ParseError)) by simp at h; rw [h]; simp) err_notin
      | true =>
        rw [h2, hs] at h
        obtain ⟨rfl, rfl, _⟩ := ok_append_inj h
        refine items_err ?_
        rw [h1, lazyEnd_seen (he.resolve_left (fun h => h rfl)) hr hs]
        rfl

/-- two commands and an error; the last command ends before a comment -/
example : (∀ l ∈ [str "a : b.", str "d. (;", str ";) e f"], MoustacheClosed l) ∧
    (∀ l ∈ [str "a : b.", str "d. (;", str ";) e f"], ∀ n a b, lexFrom n l = a ++ .dot :: b → ∀ t ∈ b, ∃ n, t = .comment n) ∧
    strict scopeSymb (unlines [str "a : b.", str "d. (;", str ";) e f"]) = [
      PCmd.intro (str "a") [] (.declaration false (.new (.atom ⟨[], str "b"⟩)))].map .ok ++ .err (.command .expectedColon) ::
      [.err (.command .unexpectedToken)] := by
  refine ⟨fun l hl => moustacheCheck_closed l (by revert l; decide), ?_, rfl⟩
  have key : ∀ ts : List Token, (∀ i : Fin ts.length, ts[i] = .dot → ∀ t ∈ ts.drop (i + 1), t.plain = false) →
      ∀ a b, ts = a ++ .dot :: b → ∀ t ∈ b, ∃ n, t = .comment n := by
    rintro ts h a b rfl t ht
    have := h ⟨a.length, by simp⟩ (by simp) t (by simpa using ht)
    exact Token.not_plain this
  have single : ∀ n, ∀ i : Fin [Token.comment n].length, [Token.comment n][i] = .dot →
      ∀ t ∈ [Token.comment n].drop (i + 1), t.plain = false := by
    intro n i; simp
  intro l hl n
  simp only [List.mem_cons, List.not_mem_nil, or_false] at hl
  apply key
  rcases hl with rfl | rfl | rfl
  · rcases n with _ | n
    · decide
    · exact single (n + 1)
  · rcases n with _ | n
    · decide
    · exact single (n + 2)
  · rcases n with _ | _ | n
    · decide
    · decide
    · exact single (n + 1)

#print axioms C21_strict_no_panic
#print axioms C21_lazy_no_panic
#print axioms C23_same_commands
#print axioms C23_converse_partial
#print axioms C23_first_error
#print axioms C23_false
#print axioms C23_moustache_false
#print axioms C25_comment_is_space
#print axioms C25_parse
#print axioms C25_unclosed
#print axioms C25_reported
#print axioms C27_strict
#print axioms C27_lazy
#print axioms C28_false
#print axioms C28_partial

end Kontroli
