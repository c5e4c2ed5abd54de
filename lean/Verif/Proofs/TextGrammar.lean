import Verif.Model.Text
import Verif.Proofs.TokensB
import Verif.Proofs.GrammarComplete

/-! # The commands of a text -/

namespace Kontroli

/-! ## Lines -/

theorem splitLines_append {l : Str} (h : '\n' ∉ l) (acc u : Str) : splitLines acc (l ++ u) = splitLines (acc ++ l) u := by
  induction l generalizing acc with
  | nil => simp
  | cons c l ih =>
    rw [List.cons_append, splitLines, ih fun hm => h (.tail _ hm)]
    · simp
    · rintro rfl; exact h (.head _)

theorem splitLines_last {acc : Str} (h : acc ≠ []) : splitLines acc [] = [acc] := by
  rw [splitLines]
  exact h

theorem LinesOf.eq {text : Str} {lines : List Str} (h : LinesOf text lines) : lines = splitLines [] text := by
  induction h with
  | nil => rfl
  | @last l h1 h2 =>
    have := splitLines_append h2 [] []
    rw [List.append_nil, List.nil_append, splitLines_last h1] at this
    exact this.symm
  | @lf l s ls h1 h2 _ ih =>
    rw [List.append_assoc, splitLines_append h1]
    show _ = splitLines l ('\n' :: s)
    rw [splitLines, if_neg h2, ← ih]
  | @crlf l s ls h1 _ ih =>
    rw [List.append_assoc, splitLines_append h1]
    show _ = splitLines l ('\r' :: '\n' :: s)
    rw [splitLines, splitLines, if_pos (by simp), ← ih]
    · simp
    · simp

theorem splitLines_of (acc s : Str) (h : '\n' ∉ acc) : LinesOf (acc ++ s) (splitLines acc s) := by
  fun_induction splitLines acc s with
  | case1 => exact .nil
  | case2 acc hne => rw [List.append_nil]; exact .last hne h
  | case3 acc s ih =>
    have ih := ih (by simp)
    split
    · next hr =>
      obtain ⟨l, rfl⟩ : ∃ l, acc = l ++ ['\r'] := by
        rcases List.eq_nil_or_concat acc with rfl | ⟨l, b, rfl⟩
        · cases hr
        · rw [List.concat_eq_append] at hr ⊢
          simp at hr
          exact ⟨l, by rw [hr]⟩
      have := LinesOf.crlf (l := l) (fun hm => h (List.mem_append_left _ hm)) ih
      simpa [str] using this
    · next hr =>
      have := LinesOf.lf h hr ih
      simpa [str] using this
  | case4 acc c s hc ih =>
    have := ih (by simp only [List.mem_append, List.mem_singleton, not_or]; exact ⟨h, fun e => hc e.symm⟩)
    simpa using this

theorem linesOf_iff (text : Str) (lines : List Str) : LinesOf text lines ↔ lines = splitLines [] text :=
  ⟨fun h => h.eq, by rintro rfl; exact splitLines_of [] text (by simp)⟩

/-! ## Commands -/

theorem LexesLines.plain {d : Nat} {lines : List Str} {ts : List Token} (h : LexesLines d lines ts) : ts.filter Token.plain = ts := by
  induction h with
  | nil => rfl
  | cons h _ ih => rw [List.filter_append, ih, ((lexesFrom_iff _ _ _ _).1 h).1, List.filter_filter]; simp

theorem lazyRun_lexes (lines : List Str) (d : Nat) (st : PState PSymb) (ctx : PCtx PSymb) (cs : List (PCmd (PTerm PSymb))) :
    lazyRun scopeSymb lines d st ctx = (cs, none) ↔
      ∃ ts, LexesLines d lines ts ∧ ∃ st' ctx', pRun scopeSymb st ctx ts = (cs, .more st' ctx') ∧ st'.cmd = .init := by
  induction lines generalizing d st ctx cs with
  | nil =>
    constructor
    · intro h
      rw [lazyRun] at h
      obtain ⟨cmd, trm⟩ := st
      cases d with
      | zero =>
        cases cmd <;> cases h
        exact ⟨[], .nil, _, _, rfl, rfl⟩
      | succ d => cases cmd <;> cases h
    · rintro ⟨ts, h, st', ctx', h1, h2⟩
      cases h
      cases h1
      rw [lazyRun, lazyEnd, h2]
      rfl
  | cons l lines ih =>
    constructor
    · intro h
      rw [lazyRun] at h
      split at h
      · cases h
      · cases h
      · next cs1 st1 ctx1 hr =>
        cases h2 : lazyRun scopeSymb lines (openOf (lexFrom d l)) st1 ctx1 with
        | mk cs2 e =>
        rw [h2] at h
        cases h
        obtain ⟨ts, h3, st', ctx', h4, h5⟩ := (ih _ _ _ _).1 h2
        refine ⟨_, .cons ((lexesFrom_iff _ _ _ _).2 ⟨rfl, rfl⟩) h3, st', ctx', ?_, h5⟩
        rw [pRun_append, pRun_filter, hr]
        simp only [PEnd.andThen, h4]
    · rintro ⟨ts, h, st', ctx', h1, h2⟩
      cases h with
      | @cons _ e _ _ ts us h3 h4 =>
        obtain ⟨rfl, rfl⟩ := (lexesFrom_iff _ _ _ _).1 h3
        rw [pRun_append, pRun_filter] at h1
        rw [lazyRun]
        cases hr : pRun scopeSymb st ctx (lexFrom d l) with
        | mk cs1 e1 =>
        rw [hr] at h1
        cases e1 with
        | err => cases h1
        | panic => cases h1
        | more st1 ctx1 =>
          cases h5 : pRun scopeSymb st1 ctx1 us with
          | mk cs2 e2 =>
          simp only [PEnd.andThen, h5] at h1
          cases h1
          simp only [(ih _ _ _ _).2 ⟨us, h4, _, _, h5, h2⟩]

/-- the commands of some lines -/
theorem lazyRun_iff (lines : List Str) (cs : List (PCmd (PTerm PSymb))) :
    lazyRun scopeSymb lines 0 PState.new PCtx.new = (cs, none) ↔ ∃ ts, LexesLines 0 lines ts ∧ GText ts cs := by
  rw [lazyRun_lexes]
  refine exists_congr fun ts => and_congr_right fun h => ?_
  rw [pRun_iff, h.plain]

end Kontroli
