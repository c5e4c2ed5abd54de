import Verif.Proofs.Lex
import Verif.Spec.Lex
import Mathlib.Tactic.Tauto

/-! # Lexing concatenated texts -/

namespace Kontroli

/-- a character that ends every token -/
def brkChar (c : Char) : Bool := isSpace c || c == '('

/-- a text that starts with a character that ends every token -/
def Brk : Str → Prop
  | [] => False
  | c :: _ => brkChar c = true

theorem brkChar_cases {c : Char} (h : brkChar c = true) : c = ' ' ∨ c = '\t' ∨ c = '\n' ∨ c = '\x0c' ∨ c = '(' := by
  simp only [brkChar, isSpace, Bool.or_eq_true, beq_iff_eq] at h
  tauto

theorem Brk.cases {u : Str} (h : Brk u) : ∃ c v, u = c :: v ∧ (c = ' ' ∨ c = '\t' ∨ c = '\n' ∨ c = '\x0c' ∨ c = '(') := by
  cases u with
  | nil => exact h.elim
  | cons c v => exact ⟨c, v, rfl, brkChar_cases h⟩

/-! ## Comments -/

theorem comment_append_closed {n : Nat} {s r : Str} (u : Str) (h : comment n s = (0, r)) : comment n (s ++ u) = (0, r ++ u) := by
  fun_induction comment n s with
  | case1 => simp only [Prod.mk.injEq, true_and] at h; rw [h, comment]
  | case2 => simp at h
  | case3 n s ih => exact ih h
  | case4 n s ih => exact ih h
  | case5 n c s h1 h2 ih =>
    rw [List.cons_append, comment]
    · exact ih h
    · intro s' hc hs
      cases s with
      | nil => simp [comment] at h
      | cons d s =>
        simp only [List.cons_append, List.cons.injEq] at hs
        exact h1 s hc (by rw [hs.1])
    · intro s' hc hs
      cases s with
      | nil => simp [comment] at h
      | cons d s =>
        simp only [List.cons_append, List.cons.injEq] at hs
        exact h2 s hc (by rw [hs.1])

theorem comment_append_open {n m : Nat} {s r u : Str} (hu : Brk u) (h : comment n s = (m + 1, r)) :
    comment n (s ++ u) = comment (m + 1) u := by
  obtain ⟨d, v, rfl, hd⟩ := hu.cases
  fun_induction comment n s with
  | case1 => simp at h
  | case2 n => simp only [Prod.mk.injEq] at h; obtain rfl : n = m := Nat.succ.inj h.1; rfl
  | case3 n s ih => exact ih h
  | case4 n s ih => exact ih h
  | case5 n c s h1 h2 ih =>
    rw [List.cons_append, comment]
    · exact ih h
    · intro s' hc hs
      cases s with
      | nil =>
        simp only [List.nil_append, List.cons.injEq] at hs
        obtain ⟨rfl, _⟩ := hs
        simp at hd
      | cons d s =>
        simp only [List.cons_append, List.cons.injEq] at hs
        exact h1 s hc (by rw [hs.1])
    · intro s' hc hs
      cases s with
      | nil =>
        simp only [List.nil_append, List.cons.injEq] at hs
        obtain ⟨rfl, _⟩ := hs
        simp at hd
      | cons d s =>
        simp only [List.cons_append, List.cons.injEq] at hs
        exact h2 s hc (by rw [hs.1])

/-! ## Suffixes -/

theorem splitClose_suffix {s a b : Str} (h : splitClose s = some (a, b)) : b <:+ s := ⟨a, (splitClose_eq h).symm⟩

theorem comment_suffix (n : Nat) (s : Str) : (comment n s).2 <:+ s := by
  fun_induction comment n s with
  | case1 => exact List.suffix_refl _
  | case2 => exact List.suffix_refl _
  | case3 n s ih => exact ih.trans ⟨['(', ';'], rfl⟩
  | case4 n s ih => exact ih.trans ⟨[';', ')'], rfl⟩
  | case5 n c s h1 h2 ih => exact ih.trans (List.suffix_cons _ _)

theorem dotted_suffix (n : Nat) (y : PSymb) (s : Str) : (dotted n y s).2 <:+ s := by
  induction n generalizing y s with
  | zero => exact List.suffix_refl _
  | succ n ih =>
    unfold dotted
    split
    · split
      · split
        · exact List.suffix_refl _
        · next hs => exact (ih _ _).trans ((splitClose_suffix hs).trans ⟨['.', '{', '|'], rfl⟩)
      · next c tail _ =>
        split
        · exact (ih _ _).trans ((List.dropWhile_suffix _).trans ⟨['.', c], rfl⟩)
        · exact List.suffix_refl _
      · exact List.suffix_refl _
    · exact List.suffix_refl _

theorem lexSymb_suffix (x s : Str) : (lexSymb x s).2 <:+ s := by
  have := dotted_suffix s.length (PSymb.new x) s
  revert this
  unfold lexSymb
  generalize dotted s.length (PSymb.new x) s = r
  obtain ⟨_ | _, r⟩ := r <;> exact id

theorem lexIdent_suffix (x s : Str) : (lexIdent x s).2 <:+ s := by
  unfold lexIdent
  repeat' split
  all_goals first | exact List.suffix_refl _ | exact lexSymb_suffix _ _

theorem lexStep_suffix {s r : Str} {o : Option Token} (h : lexStep s = some (o, r)) : r <:+ s := by
  have h1 : ∀ s : Str, comment1 s = (o, r) → r <:+ s := by
    intro s h
    have := comment_suffix 1 s
    unfold comment1 at h
    split at h <;> next hc => rw [hc] at this; cases h; exact this
  have h2 : ∀ s : Str, moustache s = (o, r) → r <:+ s := by
    intro s h
    unfold moustache at h
    split at h
    · cases h; exact List.suffix_refl _
    · next hs => cases h; exact (lexSymb_suffix _ _).trans (splitClose_suffix hs)
  have h3 : ∀ (c : Char) (s : Str), lexOther c s = (o, r) → r <:+ s := by
    intro c s h
    unfold lexOther at h
    split at h
    · cases h; exact List.dropWhile_suffix _
    · split at h
      · cases h; exact (lexIdent_suffix _ _).trans (List.dropWhile_suffix _)
      · cases h; exact List.suffix_refl _
  unfold lexStep at h
  split at h
  case h_1 => simp at h
  case h_5 => exact (h1 _ (Option.some.inj h)).trans ⟨['(', ';'], rfl⟩
  case h_15 => exact (h2 _ (Option.some.inj h)).trans ⟨['{', '|'], rfl⟩
  case h_16 => exact (h3 _ _ (Option.some.inj h)).trans (List.suffix_cons _ _)
  all_goals
    simp only [Option.some.injEq, Prod.mk.injEq] at h
    rw [← h.2]
    first
    | exact List.suffix_cons _ _
    | exact ⟨[_, _], rfl⟩
    | exact ⟨[_, _, _], rfl⟩

theorem MoustacheClosed.suffix {s r : Str} (h : MoustacheClosed s) (hr : r <:+ s) : MoustacheClosed r := by
  obtain ⟨p, rfl⟩ := hr
  intro a b hab
  exact h (p ++ a) b (by rw [hab]; simp)

theorem splitClose_some {c d : Str} : splitClose (c ++ str "|}" ++ d) ≠ none := by
  induction c with
  | nil => exact fun h => nomatch (show some _ = none from h)
  | cons e c ih =>
    intro h
    unfold splitClose at h
    split at h
    · next heq => simp at heq
    · simp at h
    · next heq =>
      simp only [List.cons_append, List.cons.injEq] at heq
      obtain ⟨rfl, rfl⟩ := heq
      split at h
      · next hn => exact ih hn
      · simp at h

theorem MoustacheClosed.split {s : Str} (h : MoustacheClosed ('{' :: '|' :: s)) : ∃ a b, splitClose s = some (a, b) := by
  obtain ⟨c, d, rfl⟩ := h [] s rfl
  cases hs : splitClose (c ++ str "|}" ++ d) with
  | none => exact absurd hs splitClose_some
  | some p => exact ⟨p.1, p.2, rfl⟩

/-! ## Symbols -/

theorem dotted_fuel {n m : Nat} {y : PSymb} {s : Str} (hn : s.length ≤ n) (hm : s.length ≤ m) : dotted n y s = dotted m y s := by
  induction n generalizing m y s with
  | zero =>
    obtain rfl := List.length_eq_zero_iff.1 (Nat.le_zero.1 hn)
    cases m <;> rfl
  | succ n ih =>
    cases m with
    | zero =>
      obtain rfl := List.length_eq_zero_iff.1 (Nat.le_zero.1 hm)
      rfl
    | succ m =>
      unfold dotted
      split
      · split
        · split
          · rfl
          · next hs =>
            have := (splitClose_suffix hs).length_le
            simp only [List.length_cons] at hn hm
            exact ih (by omega) (by omega)
        · next c tail _ =>
          have := (List.dropWhile_suffix identTail (l := tail)).length_le
          simp only [List.length_cons] at hn hm
          rw [ih (m := m) (by omega) (by omega)]
        · rfl
      · rfl

/-- what may follow a symbol without changing it -/
def EndsSymb : Str → Prop
  | [] => True
  | '.' :: v => match v with
    | [] => True
    | c :: _ => identHead c = false ∧ c ≠ '{'
  | c :: _ => identTail c = false ∧ c ≠ '{' ∧ c ≠ '|'

theorem identTail_of_head {c : Char} (h : identHead c = true) : identTail c = true := by simp [identTail, h]

theorem EndsSymb.not_tail {c : Char} {u : Str} (h : EndsSymb (c :: u)) : identTail c = false ∧ c ≠ '{' ∧ c ≠ '|' := by
  unfold EndsSymb at h
  split at h
  · next h' => cases h'
  · next h' => cases h'; decide
  · next h' => cases h'; exact h

theorem takeWhile_append_ends {s u : Str} (h : EndsSymb u) : (s ++ u).takeWhile identTail = s.takeWhile identTail := by
  rw [List.takeWhile_append]
  split
  · next hl =>
    have := (List.takeWhile_prefix identTail (l := s)).eq_of_length hl
    cases u with
    | nil => simp [this]
    | cons c u =>
      rw [List.takeWhile_cons_of_neg (by simp [h.not_tail.1])]
      simp [this]
  · rfl

theorem dropWhile_append_ends {s u : Str} (h : EndsSymb u) : (s ++ u).dropWhile identTail = s.dropWhile identTail ++ u := by
  rw [List.dropWhile_append]
  split
  · next hl =>
    rw [List.isEmpty_iff.1 hl]
    cases u with
    | nil => simp
    | cons c u => rw [List.dropWhile_cons_of_neg (by simp [h.not_tail.1])]; rfl
  · rfl

theorem dotted_end {n : Nat} {y : PSymb} {u : Str} (h : EndsSymb u) : dotted n y u = (some y, u) := by
  cases n with
  | zero => rfl
  | succ n =>
    unfold dotted
    split
    · next v =>
      split
      · exact absurd rfl h.2
      · next c tail _ =>
        have : identHead c = false := h.1
        simp [this]
      · rfl
    · rfl

theorem dotted_dot {y : PSymb} {d : Char} {k : Nat} {t : Str} (ht : ∀ t', d = '{' → t = '|' :: t' → False) :
    dotted (k + 1) y ('.' :: d :: t) = if identHead d then
      dotted k (y.push (d :: t.takeWhile identTail)) (t.dropWhile identTail) else (some y, '.' :: d :: t) := by
  rw [dotted]
  exact ht

theorem dotted_append {n m : Nat} {y y' : PSymb} {s r u : Str} (hu : EndsSymb u) (hn : s.length ≤ n) (hm : (s ++ u).length ≤ m)
    (h : dotted n y s = (some y', r)) : dotted m y (s ++ u) = (some y', r ++ u) := by
  induction n generalizing m y s with
  | zero =>
    obtain rfl := List.length_eq_zero_iff.1 (Nat.le_zero.1 hn)
    simp only [dotted, Prod.mk.injEq, Option.some.injEq] at h
    rw [← h.1, ← h.2]
    exact dotted_end hu
  | succ n ih =>
    cases s with
    | nil =>
      simp only [dotted, Prod.mk.injEq, Option.some.injEq] at h
      rw [← h.1, ← h.2]
      exact dotted_end hu
    | cons c s =>
      cases m with
      | zero => simp at hm
      | succ m =>
        simp only [List.length_cons, List.cons_append] at hn hm
        by_cases hc : c = '.'
        · subst hc
          cases s with
          | nil =>
            simp only [dotted, Prod.mk.injEq, Option.some.injEq] at h
            rw [← h.1, ← h.2]
            cases u with
            | nil => rfl
            | cons d u =>
              have hd := hu.not_tail
              have hid : identHead d = false := by
                cases hc : identHead d with
                | false => rfl
                | true => rw [identTail_of_head hc] at hd; simp at hd
              simp only [List.cons_append, List.nil_append]
              rw [dotted_dot (fun _ h _ => hd.2.1 h), if_neg (by simp [hid])]
          | cons d s =>
            have key : ∀ s', s = '|' :: s' → d = '{' → dotted (m + 1) y ('.' :: '{' :: '|' :: (s' ++ u)) = (some y', r ++ u) := by
              rintro s' rfl rfl
              simp only [dotted] at h ⊢
              cases hs : splitClose s' with
              | none => rw [hs] at h; simp at h
              | some p =>
                obtain ⟨a, b⟩ := p
                rw [hs] at h
                rw [splitClose_append u hs]
                have := (splitClose_suffix hs).length_le
                simp only [List.length_cons, List.length_append] at hn hm
                exact ih (by omega) (by simp only [List.length_append]; omega) h
            by_cases hd : d = '{' ∧ ∃ s', s = '|' :: s'
            · obtain ⟨rfl, s', rfl⟩ := hd
              exact key _ rfl rfl
            · rw [dotted_dot (by
                intro t' h1 h2
                exact hd ⟨h1, t', h2⟩)] at h
              simp only [List.cons_append]
              rw [dotted_dot (by
                intro t' h1 h2
                cases s with
                | nil =>
                  cases u with
                  | nil => simp at h2
                  | cons c u =>
                    simp only [List.nil_append, List.cons.injEq] at h2
                    exact hu.not_tail.2.2 h2.1
                | cons e s =>
                  simp only [List.cons_append, List.cons.injEq] at h2
                  exact hd ⟨h1, s, by rw [h2.1]⟩)]
              split at h
              · next hid =>
                rw [if_pos hid, takeWhile_append_ends hu, dropWhile_append_ends hu]
                have := (List.dropWhile_suffix identTail (l := s)).length_le
                simp only [List.length_cons, List.length_append] at hn hm
                exact ih (by omega) (by simp only [List.length_append]; omega) h
              · next hid =>
                rw [if_neg hid]
                simp only [Prod.mk.injEq, Option.some.injEq] at h
                rw [← h.1, ← h.2]
                rfl
        · have e1 : ∀ (k : Nat) (t : Str), dotted (k + 1) y (c :: t) = (some y, c :: t) := by
            intro k t
            rw [dotted]
            intro after h
            cases h
            exact hc rfl
          rw [e1] at h
          rw [List.cons_append, e1]
          simp only [Prod.mk.injEq, Option.some.injEq] at h
          rw [← h.1, ← h.2]
          rfl

theorem lexSymb_append {x s r u : Str} {y : PSymb} (hu : EndsSymb u) (h : lexSymb x s = (.symb y, r)) :
    lexSymb x (s ++ u) = (.symb y, r ++ u) := by
  unfold lexSymb at h ⊢
  cases hd : dotted s.length (PSymb.new x) s with
  | mk o r' =>
    rw [hd] at h
    cases o with
    | none => simp at h
    | some y' =>
      simp only [Prod.mk.injEq, Token.symb.injEq] at h
      obtain ⟨rfl, rfl⟩ := h
      rw [dotted_append hu (Nat.le_refl _) (Nat.le_refl _) hd]

/-! ## Whole texts -/

theorem lex_space {c : Char} {s : Str} (h : isSpace c = true) : lex (c :: s) = lex (s.dropWhile isSpace) := by
  have hc : c = ' ' ∨ c = '\t' ∨ c = '\n' ∨ c = '\x0c' := by
    simp only [isSpace, Bool.or_eq_true, beq_iff_eq] at h
    tauto
  rw [lex_eq]
  rcases hc with rfl | rfl | rfl | rfl <;> rfl

theorem lex_dropSpace (s : Str) : lex (s.dropWhile isSpace) = lex s := by
  cases s with
  | nil => rfl
  | cons c s =>
    rw [List.dropWhile_cons]
    split
    · next h => exact (lex_space h).symm
    · rfl

theorem lex_dropSpace_append (s u : Str) : lex (s.dropWhile isSpace ++ u) = lex (s ++ u) := by
  induction s with
  | nil => rfl
  | cons c s ih =>
    rw [List.dropWhile_cons]
    split
    · next h => rw [ih, List.cons_append, lex_space h, lex_dropSpace]
    · rfl

theorem lex_space' {c : Char} {s : Str} (h : isSpace c = true) : lex (c :: s) = lex s := by
  rw [lex_space h, lex_dropSpace]

/-- the tokens of a text of which the beginning lies in `n` open comments -/
def lexFrom (n : Nat) (s : Str) : List Token :=
  match comment n s with
  | (0, r) => lex r
  | (m + 1, _) => [.comment (m + 1)]

theorem lexFrom_zero (s : Str) : lexFrom 0 s = lex s := by
  simp [lexFrom, comment]

theorem Brk.not_head {u : Str} (hu : Brk u) {c : Char} (hc : brkChar c = false) {s : Str} (h : ∀ t, s = c :: t → False) :
    ∀ t, s ++ u = c :: t → False := by
  intro t ht
  cases s with
  | nil =>
    cases u with
    | nil => exact hu
    | cons d u =>
      simp only [List.nil_append, List.cons.injEq] at ht
      rw [← ht.1] at hc
      exact absurd (show brkChar d = true from hu) (by simp [hc])
  | cons d s =>
    simp only [List.cons_append, List.cons.injEq] at ht
    exact h s (by rw [ht.1])

theorem Brk.not_head2 {u : Str} (hu : Brk u) {c d : Char} (hc : brkChar c = false) (hd : brkChar d = false) {s : Str}
    (h : ∀ t, s = c :: d :: t → False) : ∀ t, s ++ u = c :: d :: t → False := by
  intro t ht
  cases s with
  | nil =>
    cases u with
    | nil => exact hu
    | cons d u =>
      simp only [List.nil_append, List.cons.injEq] at ht
      rw [← ht.1] at hc
      exact absurd (show brkChar d = true from hu) (by simp [hc])
  | cons e s =>
    simp only [List.cons_append, List.cons.injEq] at ht
    exact hu.not_head hd (fun t h' => h t (by rw [ht.1, h'])) t ht.2

theorem Brk.endsSymb {u : Str} (hu : Brk u) : EndsSymb u := by
  obtain ⟨c, v, rfl, h⟩ := hu.cases
  rcases h with rfl | rfl | rfl | rfl | rfl <;> exact ⟨by decide, by decide, by decide⟩

theorem dotted_some {n : Nat} {y : PSymb} {s : Str} (hm : MoustacheClosed s) : ∃ y' r, dotted n y s = (some y', r) := by
  induction n generalizing y s with
  | zero => exact ⟨_, _, rfl⟩
  | succ n ih =>
    unfold dotted
    split
    · split
      · next am =>
        obtain ⟨a, b, hs⟩ := (hm.suffix (r := '{' :: '|' :: am) ⟨['.'], rfl⟩).split
        simp only [hs]
        exact ih (hm.suffix ((splitClose_suffix hs).trans ⟨['.', '{', '|'], rfl⟩))
      · next c tail _ =>
        split
        · exact ih (hm.suffix ((List.dropWhile_suffix _).trans ⟨['.', c], rfl⟩))
        · exact ⟨_, _, rfl⟩
      · exact ⟨_, _, rfl⟩
    · exact ⟨_, _, rfl⟩

theorem lexSymb_some {x s : Str} (hm : MoustacheClosed s) : ∃ y r, lexSymb x s = (.symb y, r) := by
  obtain ⟨y, r, h⟩ := dotted_some (n := s.length) (y := PSymb.new x) hm
  exact ⟨y, r, by rw [lexSymb, h]⟩

/-- the tokens of a text followed by another one, from the first match -/
def lexAfter (u : Str) : Option (Option Token × Str) → List Token
  | none => lex u
  | some (none, r) => lex (r ++ u)
  | some (some (.comment n), _) => lexFrom n u
  | some (some t, r) => t :: lex (r ++ u)

theorem lexOther_append {c : Char} {s u : Str} (hm : MoustacheClosed s) (hu : Brk u) :
    lexOther c (s ++ u) = (lexOther c s).map id (fun r => r ++ u) ∨
      isSpace c = true ∧ lexOther c (s ++ u) = (none, (s ++ u).dropWhile isSpace) := by
  unfold lexOther
  split
  · next h => exact .inr ⟨h, rfl⟩
  · left
    split
    · rw [takeWhile_append_ends hu.endsSymb, dropWhile_append_ends hu.endsSymb]
      simp only [lexIdent]
      split
      · rfl
      · split
        · rfl
        · split
          · rfl
          · obtain ⟨y, r, h⟩ := lexSymb_some (x := c :: s.takeWhile identTail) (hm.suffix (List.dropWhile_suffix identTail))
            rw [lexSymb_append hu.endsSymb h, h]
            rfl
    · rfl

theorem lexOther_plain {c : Char} {s r : Str} {n : Nat} (h : lexOther c s = (some (.comment n), r)) : False := by
  unfold lexOther at h
  split at h
  · simp at h
  · split at h
    · have := lexIdent_plain (c :: s.takeWhile identTail) (s.dropWhile identTail)
      simp only [Prod.mk.injEq, Option.some.injEq] at h
      rw [h.1] at this
      simp [Token.plain] at this
    · simp at h

/-- The tokens of a text followed by a character that ends every token, from the first match. -/
theorem lex_step_append {s u : Str} (hm : MoustacheClosed s) (hu : Brk u) : lex (s ++ u) = lexAfter u (lexStep s) := by
  unfold lexStep
  split
  case h_1 => rfl
  case h_5 s =>
    rw [List.cons_append, List.cons_append, lex_eq, lexStep]
    simp only [comment1]
    cases hc : comment 1 s with
    | mk n r =>
      cases n with
      | zero => rw [comment_append_closed u hc]; rfl
      | succ n =>
        rw [comment_append_open hu hc]
        simp only [lexFrom, lexAfter]
        cases hc' : comment (n + 1) u with
        | mk n r =>
          cases n with
          | zero => rfl
          | succ n =>
            simp only
            rw [comment_open hc', lex_nil]
  case h_15 s =>
    obtain ⟨a, b, hs⟩ := hm.split
    rw [List.cons_append, List.cons_append, lex_eq, lexStep]
    simp only [moustache, hs, splitClose_append u hs]
    obtain ⟨y, r, h⟩ := lexSymb_some (x := '{' :: '|' :: a) (hm.suffix ((splitClose_suffix hs).trans ⟨['{', '|'], rfl⟩))
    rw [lexSymb_append hu.endsSymb h, h]
    rfl
  case h_16 c s a1 a2 a3 a4 a5 a6 a7 a8 a9 a10 a11 a12 a13 a14 =>
    rw [List.cons_append, lex_eq, lexStep]
    · rcases lexOther_append (c := c) (hm.suffix (List.suffix_cons c s)) hu with h | ⟨hc, h⟩
      · rw [h]
        cases hr : lexOther c s with
        | mk o r =>
          cases o with
          | none => rfl
          | some t =>
            cases t with
            | comment n => exact (lexOther_plain hr).elim
            | _ => rfl
      · rw [h]
        have : lexOther c s = (none, s.dropWhile isSpace) := by simp [lexOther, hc]
        rw [this]
        simp only [lexAfter, lex_dropSpace, lex_dropSpace_append]
    all_goals first
      | assumption
      | exact fun t hc => hu.not_head (by decide) (fun t' => a4 t' hc) t
      | exact fun t hc => hu.not_head (by decide) (fun t' => a7 t' hc) t
      | exact fun t hc => hu.not_head2 (by decide) (by decide) (fun t' => a9 t' hc) t
      | exact fun t hc => hu.not_head (by decide) (fun t' => a10 t' hc) t
      | exact fun t hc => hu.not_head (by decide) (fun t' => a11 t' hc) t
      | exact fun t hc => hu.not_head (by decide) (fun t' => a14 t' hc) t
  case h_6 s h =>
    rw [List.cons_append, lex_eq, lexStep]
    · rfl
    · exact hu.not_head (by decide) h
  case h_9 s h =>
    rw [List.cons_append, lex_eq, lexStep]
    · rfl
    · exact hu.not_head (by decide) h
  all_goals
    simp only [List.cons_append]
    rw [lex_eq]
    rfl

/-- Lexing a text followed by a character that ends every token: the tokens of the first text, and then those of the second one,
of which the beginning may lie in a comment. -/
theorem lex_append {s u : Str} (hm : MoustacheClosed s) (hu : Brk u) :
    lex (s ++ u) = (lex s).filter Token.plain ++ lexFrom (openOf (lex s)) u := by
  revert hm
  refine lex_induct (P := fun s => MoustacheClosed s →
    lex (s ++ u) = (lex s).filter Token.plain ++ lexFrom (openOf (lex s)) u) ?_ s
  intro s ih hm
  rw [lex_step_append hm hu, lex_eq s]
  cases hs : lexStep s with
  | none => simp [lexAfter, openOf, lexFrom_zero]
  | some p =>
    obtain ⟨o, r⟩ := p
    have ih := ih o r hs (hm.suffix (lexStep_suffix hs))
    cases o with
    | none => simpa [lexAfter] using ih
    | some t =>
      cases t with
      | comment n =>
        obtain ⟨rfl, _⟩ := lexStep_comment hs
        simp [lexAfter, lex_nil, openOf, Token.plain]
      | _ => simp only [lexAfter, ih, openOf]; rw [List.filter_cons_of_pos (by rfl)]; rfl

theorem lexFrom_append {n : Nat} {s u : Str} (hm : MoustacheClosed s) (hu : Brk u) :
    lexFrom n (s ++ u) = (lexFrom n s).filter Token.plain ++ lexFrom (openOf (lexFrom n s)) u := by
  cases hc : comment n s with
  | mk m r =>
    cases m with
    | zero =>
      have := comment_suffix n s
      rw [hc] at this
      simp only [lexFrom, hc, comment_append_closed u hc]
      exact lex_append (hm.suffix this) hu
    | succ m =>
      simp only [lexFrom, hc, comment_append_open hu hc]
      rfl

theorem lexFrom_space {n : Nat} {c : Char} {s : Str} (h : isSpace c = true) : lexFrom n (c :: s) = lexFrom n s := by
  cases n with
  | zero => rw [lexFrom_zero, lexFrom_zero, lex_space' h]
  | succ n =>
    unfold lexFrom
    have : comment (n + 1) (c :: s) = comment (n + 1) s := by
      rw [comment]
      · rintro s' rfl; simp [isSpace] at h
      · rintro s' rfl; simp [isSpace] at h
    rw [this]

theorem lexFrom_commentLast (n : Nat) (s : Str) : CommentLast (lexFrom n s) := by
  unfold lexFrom
  split
  · exact lex_commentLast _
  · rfl

end Kontroli
