import Verif.Proofs.Delivery
import Verif.Props.Parse

/-! # C23 and C28, exactly: where the two parsers differ

Both properties are false of the code (see `C23_false` and `C28_false`).  Here is what holds instead, for all lines in which no `{|` is
left open: which commands come after an error that they precede, and which lines are accepted though the whole text is not. -/

namespace Kontroli

variable {A : Type}

theorem ok_ne_append {cs ds : List (PCmd (PTerm A))} {e : ParseError} {r : List (POut ParseError (PCmd (PTerm A)))} :
    cs.map .ok ≠ ds.map .ok ++ .err e :: r :=
  fun h => absurd (h ▸ by simp) (err_notin (cs := cs) (e := e))

/-- the strict parser, in terms of runs -/
theorem strict_run (sc : ScopeFn A) (text : Str) :
    (∃ cs st ctx, pRun sc PState.new PCtx.new (lex text) = (cs, .more st ctx) ∧
      (strict sc text = cs.map .ok ∨ strict sc text = cs.map .ok ++ [.err .expectedInput])) ∨
    ∃ cs e ctx rest, pRun sc PState.new PCtx.new (lex text) = (cs, .err e ctx) ∧ e ≠ .expectedInput ∧ strict sc text = cs.map .ok ++ .err e :: rest := by
  have h2 := pItems_run sc false PState.new PCtx.new (lex text) (lex_commentLast _) fun o ho => lex_comment_pos ho
  rw [← strict_eq] at h2
  cases hr : pRun sc PState.new PCtx.new (lex text) with
  | mk cs r =>
    rw [hr] at h2
    cases r with
    | err e ctx =>
      obtain ⟨rest, h2⟩ := h2
      exact .inr ⟨cs, e, ctx, rest, rfl, pRun_expectedInput _ _ _ _ hr, h2⟩
    | panic ctx =>
      have := pRun_safe sc PState.new PCtx.new (lex text) (PState.new_safe _)
      rw [hr] at this
      exact this.elim
    | more st ctx =>
      refine .inl ⟨cs, st, ctx, rfl, ?_⟩
      simp only at h2
      cases hs : pSeen sc false PState.new PCtx.new (lex text) with
      | false => left; rw [h2, hs]; simp
      | true => right; rw [h2, hs]; simp

/-- C28, exactly.  Let `cs` be the commands of the lines before the one with the first error, and `ds` the commands that are complete on
that line, before the error.  Then the lazy parser delivers `cs` in order, then the error, and then `ds`, the last one first. -/
theorem C28_exact (sc : ScopeFn A) (pre : List Str) (line : Str) (post : List Str) (hm : ∀ l ∈ pre, MoustacheClosed l)
    (cs ds : List (PCmd (PTerm A))) (e : ParseError) (rest : List (POut ParseError (PCmd (PTerm A))))
    (hpre : strict sc (unlines pre) = cs.map .ok ∨ strict sc (unlines pre) = cs.map .ok ++ [.err .expectedInput])
    (hline : strict sc (unlines pre ++ line) = (cs ++ ds).map .ok ++ .err e :: rest) (he : e ≠ .expectedInput) :
    (LazyP.new (pre ++ line :: post)).items sc (cs.length + (1 + ds.length)) = cs.map .ok ++ .err e :: ds.reverse.map .ok := by
  rcases strict_run sc (unlines pre) with ⟨cs', st, ctx, h1, h2⟩ | ⟨cs', e', ctx, rest', h1, h2, h3⟩
  · have hcs : cs' = cs := by
      rcases hpre with hpre | hpre <;> rcases h2 with h2 | h2
      · exact ok_inj (h2.symm.trans hpre)
      · exact absurd (hpre.symm.trans h2) ok_ne_append
      · exact absurd (h2.symm.trans hpre) ok_ne_append
      · exact (ok_append_inj (h2.symm.trans hpre)).1
    subst hcs
    rcases strict_run sc (unlines pre ++ line) with ⟨es, st', ctx', h3, h4⟩ | ⟨es, e', ctx', rest', h3, h4, h5⟩
    · rw [hline] at h4
      rcases h4 with h4 | h4
      · exact absurd h4.symm ok_ne_append
      · exact absurd (ok_append_inj h4).2.1 he
    · obtain ⟨rfl, rfl, _⟩ := ok_append_inj (hline.symm.trans h5)
      have ha := lexFrom_unlines_append 0 pre hm line
      rw [lexFrom_zero, lexFrom_zero] at ha
      rw [ha, pRun_append, pRun_filter, h1] at h3
      simp only [PEnd.andThen, Prod.mk.injEq, List.append_cancel_left_eq] at h3
      have := items_error_line sc pre line post 0 PState.new PCtx.new PState.new_open hm (by rw [lexFrom_zero]; exact h1)
        (by rw [lexFrom_zero]; exact Prod.ext h3.1 h3.2) 0
      simpa [LazyP.items, LazyP.new, Nat.add_assoc] using this
  · rcases hpre with hpre | hpre
    · exact absurd (hpre.symm.trans h3) ok_ne_append
    · exact absurd (ok_append_inj (h3.symm.trans hpre)).2.1 h2

/-- C28, exactly: so, all commands that precede the first error come before it, in order, if and only if none of them is complete on the
line of the error. -/
theorem C28_iff (sc : ScopeFn A) (pre : List Str) (line : Str) (post : List Str) (hm : ∀ l ∈ pre, MoustacheClosed l)
    (cs ds : List (PCmd (PTerm A))) (e : ParseError) (rest : List (POut ParseError (PCmd (PTerm A))))
    (hpre : strict sc (unlines pre) = cs.map .ok ∨ strict sc (unlines pre) = cs.map .ok ++ [.err .expectedInput])
    (hline : strict sc (unlines pre ++ line) = (cs ++ ds).map .ok ++ .err e :: rest) (he : e ≠ .expectedInput) :
    (LazyP.new (pre ++ line :: post)).items sc (cs.length + (1 + ds.length)) = (cs ++ ds).map .ok ++ [.err e] ↔ ds = [] := by
  rw [C28_exact sc pre line post hm cs ds e rest hpre hline he]
  constructor
  · intro h
    cases ds with
    | nil => rfl
    | cons d ds => simp at h
  · rintro rfl
    simp

/-- the command `x : y.` -/
def simpleDecl (x y : String) : PCmd (PTerm PSymb) := .intro (str x) [] (.declaration false (.new (.atom ⟨[], str y⟩)))

/-- Two lines before the error, one of which is not complete; on the line of the error, two commands are complete. -/
example : strict scopeSymb (unlines [str "a : b. c", str ": d. e"]) =
      [simpleDecl "a" "b", simpleDecl "c" "d"].map .ok ++ [.err .expectedInput] ∧
    strict scopeSymb (unlines [str "a : b. c", str ": d. e"] ++ str " : f. g : h. -> i") =
      ([simpleDecl "a" "b", simpleDecl "c" "d"] ++ [simpleDecl "e" "f", simpleDecl "g" "h"]).map .ok ++
      .err (.command .expectedCmd) :: [.err .expectedInput] ∧
    (LazyP.new [str "a : b. c", str ": d. e", str " : f. g : h. -> i", str "j : k."]).items scopeSymb 6 = [
      .ok (simpleDecl "a" "b"), .ok (simpleDecl "c" "d"), .err (.command .expectedCmd), .ok (simpleDecl "g" "h"), .ok (simpleDecl "e" "f"),
      .ok (simpleDecl "j" "k")] := ⟨rfl, rfl, rfl⟩

/-! ## C23 -/

/-- C23, exactly.  The lines are accepted with the commands `cs` if and only if the whole text would be accepted if any text that is
accepted and contains at least one command followed it. -/
theorem C23_exact (sc : ScopeFn A) (lines : List Str) (hm : ∀ l ∈ lines, MoustacheClosed l) (cs : List (PCmd (PTerm A))) :
    (∀ n, (LazyP.new lines).items sc n = (cs.map .ok).take n) ↔
    ∀ (text : Str) (ds : List (PCmd (PTerm A))), ds ≠ [] → strict sc text = ds.map .ok → strict sc (unlines lines ++ text) = (cs ++ ds).map .ok := by
  have ha := fun text => lexFrom_unlines_append 0 lines hm text
  simp only [lexFrom_zero] at ha
  constructor
  · intro h text ds hd ht
    have h0 := lazy_ok h
    have h1 := lazyRun_whole sc lines hm 0 PState.new PCtx.new
    rw [lexFrom_zero] at h1
    cases hr : pRun sc PState.new PCtx.new (lex (unlines lines)) with
    | mk es r =>
      rw [hr] at h1
      cases r with
      | err e ctx => obtain ⟨_, _, h1⟩ := h1; rw [h0] at h1; cases h1
      | panic ctx => obtain ⟨_, _, h1⟩ := h1; rw [h0] at h1; cases h1
      | more st ctx =>
        simp only [h0, Prod.mk.injEq] at h1
        obtain ⟨rfl, h1⟩ := h1
        have h2 : lazyEnd (openOf (lex (unlines lines))) st = none := by
          cases hl : lazyEnd (openOf (lex (unlines lines))) st with
          | none => rfl
          | some e => rw [hl] at h1; cases h1
        obtain ⟨hi, ho⟩ := lazyEnd_none h2
        obtain rfl := PState.eq_new (pRun_open sc _ _ _ PState.new_open hr) hi
        obtain rfl := PCtx.eq_new (pRun_clean sc _ _ _ PState.new_clean hr)
        rw [strict_eq, ha, ho, lexFrom_zero, plain_of_open ho,
          pItems_append _ _ _ _ _ _ _ _ (openOf_zero (lex_commentLast _) (fun o ho => lex_comment_pos ho) ho) _ hr]
        rw [strict_eq] at ht
        have h3 : ∀ seen, pItems sc seen PState.new PCtx.new (lex text) = ds.map .ok := by
          intro seen
          rw [← ht]
          cases hl : lex text with
          | nil =>
            rw [hl] at ht
            cases ds with
            | nil => exact absurd rfl hd
            | cons d ds => cases ht
          | cons t ts => cases t <;> rfl
        rw [h3]
        simp
  · intro h
    have hl : lex (str "a : b.") = [.symb ⟨[], str "a"⟩, .colon, .symb ⟨[], str "b"⟩, .dot] := rfl
    have hl2 : lex (str "#. a : b.") = [.hash, .dot, .symb ⟨[], str "a"⟩, .colon, .symb ⟨[], str "b"⟩, .dot] := rfl
    obtain ⟨d, hd⟩ : ∃ d, strict sc (str "a : b.") = [d].map .ok := ⟨_, rfl⟩
    have hd2 : strict sc (str "#. a : b.") = [d].map .ok := hd
    have hp := h (str "a : b.") [d] (by simp) hd
    have hq := h (str "#. a : b.") [d] (by simp) hd2
    obtain ⟨ctx1, hp1, hp2, hp3⟩ := strict_ok hp
    obtain ⟨ctx2, hq1, hq2, hq3⟩ := strict_ok hq
    rw [ha] at hp1 hp2 hp3 hq1
    have ho : openOf (lex (unlines lines)) = 0 := by
      cases ho : openOf (lex (unlines lines)) with
      | zero => rfl
      | succ n =>
        rw [ho, openOf_append _ _ (fun t ht => (List.mem_filter.1 ht).2)] at hp2
        have : lexFrom (n + 1) (str "a : b.") = [.comment (n + 1)] := rfl
        rw [this] at hp2
        cases hp2
    rw [ho, lexFrom_zero, plain_of_open ho, hl] at hp1 hp3
    rw [ho, lexFrom_zero, plain_of_open ho, hl2, pRun_append] at hq1
    rw [pRun_append] at hp1
    have h1 := lazyRun_whole sc lines hm 0 PState.new PCtx.new
    rw [lexFrom_zero] at h1
    cases hr : pRun sc PState.new PCtx.new (lex (unlines lines)) with
    | mk es r =>
      rw [hr] at h1 hp1 hq1
      cases r with
      | err e ctx => cases hp1
      | panic ctx => cases hp1
      | more st ctx =>
        simp only [PEnd.andThen, ho] at h1 hp1 hq1
        have hopen := pRun_open sc _ _ _ PState.new_open hr
        by_cases hi : st.cmd = .init
        · obtain rfl := PState.eq_new hopen hi
          obtain rfl := PCtx.eq_new (pRun_clean sc _ _ _ PState.new_clean hr)
          have hone : ∃ d' c', pRun sc PState.new PCtx.new [.symb ⟨[], str "a"⟩, .colon, .symb ⟨[], str "b"⟩, .dot] = ([d'], c') := ⟨_, _, rfl⟩
          obtain ⟨d', c', hone⟩ := hone
          rw [hone] at hp1
          simp only [Prod.mk.injEq] at hp1
          have hes : es = cs := (List.append_inj' hp1.1 rfl).1
          subst hes
          intro n
          have h2 := items_run sc lines n 0 PState.new PCtx.new PState.new_open
          rw [h1] at h2
          exact h2
        · by_cases hpr : st.cmd = .pragma
          · exfalso
            have hst : st = ⟨.pragma, .init⟩ := by
              have := hopen.2 (by rw [hpr]; rfl)
              obtain ⟨cmd, trm⟩ := st
              simp only at hpr this
              rw [hpr, this]
            subst hst
            have := pItems_append sc false PState.new _ PCtx.new ctx _ [.symb ⟨[], str "a"⟩, .colon, .symb ⟨[], str "b"⟩, .dot]
              (openOf_zero (lex_commentLast _) (fun o ho => lex_comment_pos ho) ho) _ hr
            rw [strict_eq, ha, ho, lexFrom_zero, plain_of_open ho, hl, this] at hp
            have hx : ∀ seen, pItems sc seen ⟨.pragma, .init⟩ ctx [.symb ⟨[], str "a"⟩, .colon, .symb ⟨[], str "b"⟩, .dot] = [.err .expectedInput] :=
              fun _ => rfl
            rw [hx] at hp
            exact ok_ne_append hp.symm
          · exfalso
            obtain ⟨e, ctx', he⟩ := pstep_hash (sc := sc) (ctx := ctx) hopen hi hpr
            rw [pRun_cons _ _ _ _ _ rfl, he] at hq1
            exact nomatch (Prod.mk.inj hq1).2

/-- The lines of `C23_false`, a pragma, are accepted with no commands: the whole text is accepted if a command follows it. -/
example : (∀ n, (LazyP.new [str "#EVAL a."]).items scopeSymb n = (([] : List (PCmd (PTerm PSymb))).map .ok).take n) ∧
    strict scopeSymb (unlines [str "#EVAL a."]) = [.err .expectedInput] ∧
    strict scopeSymb (str "c : d.") = [simpleDecl "c" "d"].map .ok ∧
    strict scopeSymb (unlines [str "#EVAL a."] ++ str "c : d.") = [simpleDecl "c" "d"].map .ok :=
  ⟨fun n => by cases n <;> rfl, rfl, rfl, rfl⟩

/-- Lines that are not accepted, as their last command is not complete: another command after them does not help. -/
example : (LazyP.new [str "a : b. def"]).items scopeSymb 2 = [.ok (simpleDecl "a" "b"), .err .expectedInput] ∧
    strict scopeSymb (unlines [str "a : b. def"] ++ str "#. c : d.") =
      [.ok (simpleDecl "a" "b"), .err (.command .expectedIdent), .err (.command .expectedCmd), .ok (simpleDecl "c" "d")] := ⟨rfl, rfl⟩

#print axioms C28_exact
#print axioms C28_iff
#print axioms C23_exact

end Kontroli
