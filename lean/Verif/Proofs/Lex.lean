import Verif.Proofs.ParseAuto

/-! # Lemmas about the lexer -/

namespace Kontroli

theorem splitClose_eq {s a b : Str} (h : splitClose s = some (a, b)) : s = a ++ b := by
  fun_induction splitClose s generalizing a b with
  | case1 => simp at h
  | case2 => simp only [Option.some.injEq, Prod.mk.injEq] at h; obtain ⟨rfl, rfl⟩ := h; rfl
  | case3 => simp at h
  | case4 c s _ a' b' hs ih =>
    simp only [Option.some.injEq, Prod.mk.injEq] at h
    obtain ⟨rfl, rfl⟩ := h
    rw [ih hs]; rfl

theorem splitClose_append {s a b : Str} (u : Str) (h : splitClose s = some (a, b)) : splitClose (s ++ u) = some (a, b ++ u) := by
  fun_induction splitClose s generalizing a b with
  | case1 => simp at h
  | case2 => simp only [Option.some.injEq, Prod.mk.injEq] at h; obtain ⟨rfl, rfl⟩ := h; rfl
  | case3 => simp at h
  | case4 c s hne a' b' hs ih =>
    simp only [Option.some.injEq, Prod.mk.injEq] at h
    obtain ⟨rfl, rfl⟩ := h
    rw [List.cons_append, splitClose, ih hs]
    · intro s' hc hs'
      subst hc
      cases s with
      | nil => simp [splitClose] at hs
      | cons d s =>
        simp only [List.cons_append, List.cons.injEq] at hs'
        obtain ⟨rfl, _⟩ := hs'
        exact hne s rfl rfl

theorem comment_length (n : Nat) (s : Str) : (comment n s).2.length ≤ s.length := by
  fun_induction comment n s <;> simp_all <;> omega

theorem comment_open {n m : Nat} {s r : Str} (h : comment n s = (m + 1, r)) : r = [] := by
  fun_induction comment n s <;> simp_all

theorem dotted_length (n : Nat) (y : PSymb) (s : Str) : (dotted n y s).2.length ≤ s.length := by
  induction n generalizing y s with
  | zero => exact Nat.le_refl _
  | succ n ih =>
    unfold dotted
    split
    · split
      · split
        · exact Nat.le_refl _
        · next am _ _ _ hs =>
          refine Nat.le_trans (ih _ _) ?_
          rw [splitClose_eq hs]
          simp only [List.length_cons, List.length_append]
          omega
      · next c tail _ =>
        split
        · refine Nat.le_trans (ih _ _) ?_
          have := (List.dropWhile_sublist identTail (l := tail)).length_le
          simp only [List.length_cons]
          omega
        · exact Nat.le_refl _
      · exact Nat.le_refl _
    · exact Nat.le_refl _

theorem lexSymb_length (x s : Str) : (lexSymb x s).2.length ≤ s.length := by
  have := dotted_length s.length (PSymb.new x) s
  revert this
  unfold lexSymb
  generalize dotted s.length (PSymb.new x) s = r
  obtain ⟨_ | _, r⟩ := r <;> exact id

theorem lexIdent_length (x s : Str) : (lexIdent x s).2.length ≤ s.length := by
  unfold lexIdent
  repeat' split
  all_goals first | exact Nat.le_refl _ | exact lexSymb_length _ _

theorem comment1_length (s : Str) : (comment1 s).2.length ≤ s.length := by
  have := comment_length 1 s
  unfold comment1
  split <;> next hc => rw [hc] at this; exact this

theorem moustache_length (s : Str) : (moustache s).2.length ≤ s.length := by
  unfold moustache
  split
  · exact Nat.le_refl _
  · next a b hs =>
    have := lexSymb_length ('{' :: '|' :: a) b
    rw [splitClose_eq hs]
    simp only [List.length_append]
    omega

theorem lexOther_length (c : Char) (s : Str) : (lexOther c s).2.length ≤ s.length := by
  have h1 := (List.dropWhile_sublist isSpace (l := s)).length_le
  have h2 := (List.dropWhile_sublist identTail (l := s)).length_le
  have h3 := lexIdent_length (c :: s.takeWhile identTail) (s.dropWhile identTail)
  unfold lexOther
  split
  · exact h1
  · split
    · exact Nat.le_trans h3 h2
    · exact Nat.le_refl _

/-- every match consumes a character -/
theorem lexStep_length {s r : Str} {o : Option Token} (h : lexStep s = some (o, r)) : r.length < s.length := by
  unfold lexStep at h
  split at h
  case h_1 => simp at h
  case h_5 =>
    have := comment1_length
    simp only [Option.some.injEq] at h
    simp only [List.length_cons]
    have := h ▸ this _
    simp only at this
    omega
  case h_15 =>
    have := moustache_length
    simp only [Option.some.injEq] at h
    simp only [List.length_cons]
    have := h ▸ this _
    simp only at this
    omega
  case h_16 =>
    have := lexOther_length
    simp only [Option.some.injEq] at h
    simp only [List.length_cons]
    have := h ▸ this _ _
    simp only at this
    omega
  all_goals
    simp only [Option.some.injEq, Prod.mk.injEq] at h
    rw [← h.2]
    simp only [List.length_cons]
    omega

theorem lexN_fuel {n m : Nat} {s : Str} (hn : s.length ≤ n) (hm : s.length ≤ m) : lexN n s = lexN m s := by
  induction n generalizing m s with
  | zero =>
    obtain rfl := List.length_eq_zero_iff.1 (Nat.le_zero.1 hn)
    cases m <;> rfl
  | succ n ih =>
    cases m with
    | zero =>
      obtain rfl := List.length_eq_zero_iff.1 (Nat.le_zero.1 hm)
      rfl
    | succ m =>
      simp only [lexN]
      cases hs : lexStep s with
      | none => rfl
      | some p =>
        obtain ⟨o, r⟩ := p
        have := lexStep_length hs
        cases o with
        | none => exact ih (by omega) (by omega)
        | some t => simp only; rw [ih (m := m) (by omega) (by omega)]

/-- the lexer as a recursive function without fuel -/
theorem lex_eq (s : Str) : lex s = match lexStep s with
    | none => []
    | some (none, r) => lex r
    | some (some t, r) => t :: lex r := by
  unfold lex
  rw [lexN_fuel (m := s.length + 1) (Nat.le_refl _) (Nat.le_succ _), lexN]
  cases hs : lexStep s with
  | none => rfl
  | some p =>
    obtain ⟨o, r⟩ := p
    have := lexStep_length hs
    cases o with
    | none => exact lexN_fuel (by omega) (Nat.le_refl _)
    | some t => simp only; rw [lexN_fuel (m := r.length) (by omega) (Nat.le_refl _)]

theorem lex_nil : lex [] = [] := rfl

theorem lexSymb_plain (x s : Str) : (lexSymb x s).1.plain = true := by
  unfold lexSymb
  split <;> rfl

theorem lexIdent_plain (x s : Str) : (lexIdent x s).1.plain = true := by
  unfold lexIdent
  repeat' split
  all_goals first | rfl | exact lexSymb_plain _ _

/-- a comment token is only made at the end of the text, and has at least one open comment -/
theorem lexStep_comment {s r : Str} {o : Nat} (h : lexStep s = some (some (.comment o), r)) : r = [] ∧ 0 < o := by
  have h1 : ∀ s, comment1 s = (some (.comment o), r) → r = [] ∧ 0 < o := by
    intro s h
    unfold comment1 at h
    split at h
    · simp at h
    · next hc =>
      simp only [Option.some.injEq, Prod.mk.injEq, Token.comment.injEq] at h
      rw [← h.2, ← h.1]
      exact ⟨comment_open hc, Nat.succ_pos _⟩
  have h2 : ∀ s, moustache s = (some (.comment o), r) → r = [] ∧ 0 < o := by
    intro s h
    unfold moustache at h
    split at h
    · simp at h
    · next a b hs =>
      have := lexSymb_plain ('{' :: '|' :: a) b
      simp only [Option.some.injEq, Prod.mk.injEq] at h
      rw [h.1] at this
      simp [Token.plain] at this
  have h3 : ∀ c s, lexOther c s = (some (.comment o), r) → r = [] ∧ 0 < o := by
    intro c s h
    unfold lexOther at h
    have h3 := lexIdent_plain (c :: s.takeWhile identTail) (s.dropWhile identTail)
    split at h
    · simp at h
    · split at h
      · simp only [Option.some.injEq, Prod.mk.injEq] at h
        rw [h.1] at h3
        simp [Token.plain] at h3
      · simp at h
  unfold lexStep at h
  split at h
  case h_1 => simp at h
  case h_5 => exact h1 _ (Option.some.inj h)
  case h_15 => exact h2 _ (Option.some.inj h)
  case h_16 => exact h3 _ _ (Option.some.inj h)
  all_goals simp at h

theorem lex_induct {P : Str → Prop} (step : ∀ s, (∀ o r, lexStep s = some (o, r) → P r) → P s) (s : Str) : P s := by
  induction hn : s.length using Nat.strongRecOn generalizing s with
  | _ n ih =>
    subst hn
    exact step s fun o r h => ih _ (lexStep_length h) r rfl

theorem lex_commentLast (s : Str) : CommentLast (lex s) := by
  refine lex_induct (P := fun s => CommentLast (lex s)) ?_ s
  intro s ih
  rw [lex_eq]
  cases hs : lexStep s with
  | none => trivial
  | some p =>
    obtain ⟨_ | t, r⟩ := p
    · exact ih _ _ hs
    · cases t with
      | comment o =>
        obtain ⟨rfl, _⟩ := lexStep_comment hs
        exact lex_nil
      | _ => exact ih _ _ hs

/-- comment tokens count at least one open comment -/
theorem lex_comment_pos {s : Str} {o : Nat} (h : .comment o ∈ lex s) : 0 < o := by
  revert h
  refine lex_induct (P := fun s => .comment o ∈ lex s → 0 < o) ?_ s
  intro s ih
  rw [lex_eq]
  cases hs : lexStep s with
  | none => simp
  | some p =>
    obtain ⟨_ | t, r⟩ := p
    · exact ih _ _ hs
    · intro h
      rcases List.mem_cons.1 h with h | h
      · subst h
        exact (lexStep_comment hs).2
      · exact ih _ _ hs h

end Kontroli
