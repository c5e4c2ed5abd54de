import Verif.Spec.Tokens
import Verif.Proofs.LexSymb

/-! # The lexer and the words of a text -/

namespace Kontroli

/-! ## Comments -/

theorem prefix_concat {α : Type} {p m : List α} {a : α} (h : p <+: m ++ [a]) : p <+: m ∨ p = m ++ [a] := by
  obtain ⟨t, ht⟩ := h
  rcases List.eq_nil_or_concat t with rfl | ⟨t', b, rfl⟩
  · exact .inr (by simpa using ht)
  · refine .inl ⟨t', ?_⟩
    rw [List.concat_eq_append, ← List.append_assoc] at ht
    exact (List.append_inj' ht rfl).1

/-- comments that are closed at the end of a text -/
theorem ClosesAt.comment {d : Nat} {c : Str} (h : ClosesAt (d + 1) c) (b : Str) : comment (d + 1) (c ++ b) = (0, b) := by
  obtain ⟨⟨e, rfl⟩, m, hm, hp, hc⟩ := h
  have hl := lvl_open m (d + 1) hp
  rw [hm] at hc
  have := hp m (List.prefix_refl _)
  simp only [List.count_append, List.count_cons, List.count_nil, beq_self_eq_true, if_true] at hc
  simp at hc
  have h1 : lvl (d + 1) m = 1 := by rw [hl]; omega
  have := comment_append_closed b (comment_closed _ e (Nat.le_refl _) d m hm h1)
  simpa using this

theorem comment_closes {d : Nat} {s r : Str} (h : comment (d + 1) s = (0, r)) : ∃ c, s = c ++ r ∧ ClosesAt (d + 1) c := by
  generalize hn : d + 1 = n at h
  fun_induction comment n s generalizing d with
  | case1 => omega
  | case2 => simp at h
  | case3 n s ih =>
    obtain ⟨c, rfl, ⟨e, rfl⟩, m, hm, hp, hc⟩ := ih rfl h
    refine ⟨str "(;" ++ (e ++ str ";)"), rfl, ⟨str "(;" ++ e, by simp⟩, .opening :: m, ?_, ?_, ?_⟩
    · show Mark.opening :: marks (e ++ str ";)") = _
      rw [hm]; rfl
    · intro p hp'
      cases p with
      | nil => simp
      | cons a p =>
        obtain ⟨rfl, hp2⟩ := List.cons_prefix_cons.1 hp'
        have := hp p hp2
        simp at this ⊢
        omega
    · show (Mark.opening :: marks _).count _ = _ + (Mark.opening :: marks _).count _
      simp only [List.count_cons]
      simp
      omega
  | case4 n s ih =>
    cases n with
    | zero =>
      rw [Kontroli.comment] at h
      cases h
      refine ⟨str ";)", rfl, ⟨[], rfl⟩, [], rfl, ?_, ?_⟩
      · intro p hp; rw [List.prefix_nil.1 hp]; simp
      · rw [show marks (str ";)") = [.closing] from rfl]; simp
    | succ n =>
      obtain ⟨c, rfl, ⟨e, rfl⟩, m, hm, hp, hc⟩ := ih rfl h
      refine ⟨str ";)" ++ (e ++ str ";)"), rfl, ⟨str ";)" ++ e, by simp⟩, .closing :: m, ?_, ?_, ?_⟩
      · show Mark.closing :: marks (e ++ str ";)") = _
        rw [hm]; rfl
      · intro p hp'
        cases p with
        | nil => simp
        | cons a p =>
          obtain ⟨rfl, hp2⟩ := List.cons_prefix_cons.1 hp'
          have := hp p hp2
          simp at this ⊢
          omega
      · show (Mark.closing :: marks _).count _ = _ + (Mark.closing :: marks _).count _
        simp only [List.count_cons]
        simp
        omega
  | case5 n c s h1 h2 ih =>
    obtain ⟨c', rfl, ⟨e, he⟩, m, hm, hp, hc⟩ := ih hn h
    have hne : c' ≠ [] := by rintro rfl; simp [str] at he
    have hmk : marks (c :: c') = marks c' := by
      refine marks_other (fun t hc' ht => ?_) fun t hc' ht => ?_
      · exact h1 (t ++ r) hc' (by rw [ht]; rfl)
      · exact h2 (t ++ r) hc' (by rw [ht]; rfl)
    refine ⟨c :: c', rfl, ⟨c :: e, by rw [he]; rfl⟩, m, ?_, hp, ?_⟩
    · rw [hmk, hm]
    · rw [hmk, hc]

theorem comment_rest {d n : Nat} {s r : Str} (h : comment d s = (n + 1, r)) : r = [] := by
  fun_induction comment d s with
  | case1 => simp at h
  | case2 => simp only [Prod.mk.injEq] at h; exact h.2.symm
  | case3 _ _ ih => exact ih h
  | case4 _ _ ih => exact ih h
  | case5 _ _ _ _ _ ih => exact ih h

theorem comment_openAt {d n : Nat} {s r : Str} (h : comment d s = (n + 1, r)) : r = [] ∧ OpenAt d s (n + 1) := by
  refine ⟨comment_rest h, ?_⟩
  have h1 := comment_lvl d s
  rw [h] at h1
  simp only at h1
  have h2 := lvl_stays (marks s) d (by omega)
  refine ⟨h2, ?_⟩
  have h3 := lvl_open _ _ h2
  have h4 := h2 _ (List.prefix_refl _)
  omega

theorem OpenAt.comment {d n : Nat} {s : Str} (h : OpenAt d s n) : 0 < n ∧ comment d s = (n, []) := by
  have h3 := lvl_open _ _ h.1
  have h4 := h.1 _ (List.prefix_refl _)
  have h5 := h.2
  have hn : 0 < n := by omega
  have h1 := comment_lvl d s
  obtain ⟨m, rfl⟩ : ∃ m, n = m + 1 := ⟨n - 1, by omega⟩
  refine ⟨hn, ?_⟩
  cases hc : Kontroli.comment d s with
  | mk a r =>
    rw [hc] at h1
    simp only at h1
    have : a = m + 1 := by omega
    subst this
    rw [comment_rest hc]

/-! ## Words -/

theorem symbText_comps (s : PSymb) : ∃ c cs, symbText s = c ++ dots cs ∧ comps s = c :: cs ∧ cs.foldl PSymb.push (PSymb.new c) = s := by
  have key : ∀ (cs : List Str) (c : Str), (str ".").intercalate (c :: cs) = c ++ dots cs := by
    intro cs
    induction cs with
    | nil => intro c; simp [List.intercalate, dots]
    | cons d cs ih =>
      intro c
      have := ih d
      simp only [List.intercalate, dots] at this ⊢
      rw [List.intersperse_cons_cons, List.flatten_cons, List.flatten_cons, this]
      simp [str]
  obtain ⟨c, cs, _, h2, h3⟩ := display_dots s
  exact ⟨c, cs, by rw [symbText, h2, key], h2, h3⟩

theorem symbText_eq (s : PSymb) : symbText s = s.display := by
  obtain ⟨c, cs, h1, h2, _⟩ := symbText_comps s
  obtain ⟨c', cs', h1', h2', _⟩ := display_dots s
  have : c :: cs = c' :: cs' := h2.symm.trans h2'
  cases this
  rw [h1, h1']

theorem symbText_push (s : PSymb) (c : Str) : symbText (s.push c) = symbText s ++ '.' :: c := by
  obtain ⟨a, as, h1, h2, _⟩ := symbText_comps s
  obtain ⟨b, bs, h3, h4, _⟩ := symbText_comps (s.push c)
  have : comps (s.push c) = comps s ++ [c] := rfl
  rw [this, h2] at h4
  cases h4
  rw [h1, h3]
  simp [dots]

theorem ValidSymb.comps {s : PSymb} (h : ValidSymb s) : ∀ c ∈ Kontroli.comps s, IsComp c := by
  intro c hc
  rcases List.mem_append.1 hc with hc | hc
  · exact h.1 c hc
  · simp at hc; exact hc ▸ h.2.1

theorem validSymb_of {s : PSymb} (h : ∀ c ∈ comps s, IsComp c) {c : Str} (hc : (comps s).head? = some c) (hk : c ∉ keywords) : ValidSymb s := by
  refine ⟨fun d hd => h d (List.mem_append_left _ hd), h _ (List.mem_append_right _ (.head _)), fun d hd => ?_⟩
  have : (comps s).head? = some d := hd
  rw [hc] at this
  cases this
  exact hk

/-- a word is lexed to its token -/
theorem Lexeme.lex {w : Str} {k : Option Token} (h : Lexeme w k) : lex w = match k with
    | some t => [t]
    | none => [.comment 1] := by
  cases h with
  | sign h =>
    simp only [signs, List.mem_cons, Prod.mk.injEq, List.not_mem_nil, or_false] at h
    rcases h with ⟨rfl, rfl⟩ | ⟨rfl, rfl⟩ | ⟨rfl, rfl⟩ | ⟨rfl, rfl⟩ | ⟨rfl, rfl⟩ | ⟨rfl, rfl⟩ | ⟨rfl, rfl⟩ | ⟨rfl, rfl⟩ | ⟨rfl, rfl⟩ |
      ⟨rfl, rfl⟩ | ⟨rfl, rfl⟩ | ⟨rfl, rfl⟩ | ⟨rfl, rfl⟩ | ⟨rfl, rfl⟩ | ⟨rfl, rfl⟩ <;> rfl
  | symb h =>
    have := lex_symb h (u := []) trivial
    rw [List.append_nil, ← symbText_eq] at this
    exact this
  | comment => rfl

theorem Lexeme.plain {w : Str} {t : Token} (h : Lexeme w (some t)) : t.plain = true := by
  cases h with
  | sign h =>
    simp only [signs, List.mem_cons, Prod.mk.injEq, List.not_mem_nil, or_false] at h
    rcases h with ⟨rfl, rfl⟩ | ⟨rfl, rfl⟩ | ⟨rfl, rfl⟩ | ⟨rfl, rfl⟩ | ⟨rfl, rfl⟩ | ⟨rfl, rfl⟩ | ⟨rfl, rfl⟩ | ⟨rfl, rfl⟩ | ⟨rfl, rfl⟩ |
      ⟨rfl, rfl⟩ | ⟨rfl, rfl⟩ | ⟨rfl, rfl⟩ | ⟨rfl, rfl⟩ | ⟨rfl, rfl⟩ | ⟨rfl, rfl⟩ <;> rfl
  | symb h => rfl

/-- a word has one token -/
theorem Lexeme.unique {w : Str} {k k' : Option Token} (h : Lexeme w k) (h' : Lexeme w k') : k = k' := by
  have h1 := h.lex
  rw [h'.lex] at h1
  cases k with
  | none =>
    cases k' with
    | none => rfl
    | some t =>
      have := h'.plain
      simp only [List.cons.injEq, and_true] at h1
      rw [h1] at this
      cases this
  | some t =>
    cases k' with
    | none =>
      have := h.plain
      simp only [List.cons.injEq, and_true] at h1
      rw [← h1] at this
      cases this
    | some t' =>
      simp only [List.cons.injEq, and_true] at h1
      rw [h1]

theorem Longest.unique {s w w' : Str} {k k' : Option Token} (h : Longest s w k) (h' : Longest s w' k') : w = w' ∧ k = k' := by
  have hl : w.length = w'.length := Nat.le_antisymm (h'.2.2 _ _ h.1 h.2.1) (h.2.2 _ _ h'.1 h'.2.1)
  have : w = w' := by
    rw [List.prefix_iff_eq_take.1 h.2.1, List.prefix_iff_eq_take.1 h'.2.1, hl]
  subst this
  exact ⟨rfl, h.1.unique h'.1⟩

/-- the words that begin neither like an identifier nor with `{` -/
def signs' : List (Str × Option Token) :=
  [(str "[", some .lbrk), (str "]", some .rbrk), (str "#", some .hash), (str "(", some .lpar), (str ")", some .rpar),
    (str ":=", some .colonEq), (str ":", some .colon), (str "-->", some .longArrow), (str "->", some .arrow), (str "=>", some .fatArrow),
    (str ",", some .comma), (str ".", some .dot), (str "(;", none)]

theorem comp_head' {c : Str} (h : IsComp c) : ∃ a r, c = a :: r ∧ (identHead a = true ∨ (a = '{' ∧ ∃ r', r = '|' :: r')) := by
  rcases h with h | h
  · obtain ⟨a, r, rfl, ha, _⟩ := (isIdent_iff _).1 h
    exact ⟨a, r, rfl, .inl ha⟩
  · obtain ⟨b, rfl, _⟩ := h
    exact ⟨'{', _, rfl, .inr ⟨rfl, _, rfl⟩⟩

theorem Lexeme.cases {w : Str} {k : Option Token} (h : Lexeme w k) : (w, k) ∈ signs' ∨
    (∃ t, k = some t ∧ (w, t) ∈ [(str "def", Token.def_), (str "thm", .thm), (str "injective", .inj)]) ∨ ∃ s, k = some (.symb s) ∧ w = symbText s ∧ ValidSymb s := by
  cases h with
  | sign h =>
    simp only [signs, List.mem_cons, Prod.mk.injEq, List.not_mem_nil, or_false] at h
    rcases h with ⟨rfl, rfl⟩ | ⟨rfl, rfl⟩ | ⟨rfl, rfl⟩ | ⟨rfl, rfl⟩ | ⟨rfl, rfl⟩ | ⟨rfl, rfl⟩ | ⟨rfl, rfl⟩ | ⟨rfl, rfl⟩ | ⟨rfl, rfl⟩ |
      ⟨rfl, rfl⟩ | ⟨rfl, rfl⟩ | ⟨rfl, rfl⟩ | ⟨rfl, rfl⟩ | ⟨rfl, rfl⟩ | ⟨rfl, rfl⟩ <;> first
      | exact .inr (.inl ⟨_, rfl, by decide⟩)
      | exact .inl (by decide)
  | symb h => exact .inr (.inr ⟨_, rfl, rfl, h⟩)
  | comment => exact .inl (by simp [signs'])

theorem signs'_lexeme {w : Str} {k : Option Token} (h : (w, k) ∈ signs') : Lexeme w k := by
  simp only [signs', List.mem_cons, Prod.mk.injEq, List.not_mem_nil, or_false] at h
  rcases h with ⟨rfl, rfl⟩ | ⟨rfl, rfl⟩ | ⟨rfl, rfl⟩ | ⟨rfl, rfl⟩ | ⟨rfl, rfl⟩ | ⟨rfl, rfl⟩ | ⟨rfl, rfl⟩ | ⟨rfl, rfl⟩ | ⟨rfl, rfl⟩ |
    ⟨rfl, rfl⟩ | ⟨rfl, rfl⟩ | ⟨rfl, rfl⟩ | ⟨rfl, rfl⟩ <;> first
    | exact .sign (by simp [signs])
    | exact .comment

theorem signs'_head {c : Char} {w s : Str} {k : Option Token} (h : (w, k) ∈ signs') (hp : w <+: c :: s) : identHead c = false ∧ c ≠ '{' := by
  simp only [signs', List.mem_cons, Prod.mk.injEq, List.not_mem_nil, or_false] at h
  rcases h with ⟨rfl, rfl⟩ | ⟨rfl, rfl⟩ | ⟨rfl, rfl⟩ | ⟨rfl, rfl⟩ | ⟨rfl, rfl⟩ | ⟨rfl, rfl⟩ | ⟨rfl, rfl⟩ | ⟨rfl, rfl⟩ | ⟨rfl, rfl⟩ |
    ⟨rfl, rfl⟩ | ⟨rfl, rfl⟩ | ⟨rfl, rfl⟩ | ⟨rfl, rfl⟩ <;>
  · obtain ⟨rfl, _⟩ := List.cons_prefix_cons.1 hp
    decide

theorem symbText_head {s : PSymb} (h : ValidSymb s) : ∃ a r, symbText s = a :: r ∧ (identHead a = true ∨ (a = '{' ∧ ∃ r', r = '|' :: r')) := by
  obtain ⟨c, cs, h1, h2, _⟩ := symbText_comps s
  obtain ⟨a, r, rfl, hr⟩ := comp_head' (h.comps c (h2 ▸ .head _))
  refine ⟨a, r ++ dots cs, h1, ?_⟩
  rcases hr with hr | ⟨rfl, r', rfl⟩
  · exact .inl hr
  · exact .inr ⟨rfl, _, rfl⟩

theorem keyword_head {w : Str} {t : Token} (h : (w, t) ∈ [(str "def", Token.def_), (str "thm", .thm), (str "injective", .inj)]) :
    w ∈ keywords ∧ ∃ a r, w = a :: r ∧ identHead a = true ∧ ∀ d ∈ r, identTail d = true := by
  simp only [List.mem_cons, Prod.mk.injEq, List.not_mem_nil, or_false] at h
  rcases h with ⟨rfl, rfl⟩ | ⟨rfl, rfl⟩ | ⟨rfl, rfl⟩
  · exact ⟨by decide, 'd', str "ef", rfl, by decide, by decide⟩
  · exact ⟨by decide, 't', str "hm", rfl, by decide, by decide⟩
  · exact ⟨by decide, 'i', str "njective", rfl, by decide, by decide⟩

/-- the words at the beginning of a text that begins neither like an identifier nor with `{|` -/
theorem prefix_sign {c : Char} {s w : Str} {k : Option Token} (h : Lexeme w k) (hp : w <+: c :: s) (h1 : identHead c = false)
    (h2 : c = '{' → ∀ t, s = '|' :: t → False) : (w, k) ∈ signs' := by
  rcases h.cases with h | ⟨t, rfl, h'⟩ | ⟨y, rfl, rfl, h'⟩
  · exact h
  · obtain ⟨_, a, r, rfl, ha, _⟩ := keyword_head h'
    obtain ⟨rfl, _⟩ := List.cons_prefix_cons.1 hp
    rw [h1] at ha
    cases ha
  · obtain ⟨a, r, he, ha⟩ := symbText_head h'
    rw [he] at hp
    obtain ⟨rfl, hp2⟩ := List.cons_prefix_cons.1 hp
    rcases ha with ha | ⟨rfl, r', rfl⟩
    · rw [h1] at ha; cases ha
    · obtain ⟨t, rfl⟩ := hp2
      exact absurd rfl (fun e => h2 rfl _ e)

/-! ## Names -/

/-- The first component of the name at the beginning of a text: every other one is part of it. -/
structure FirstComp (s word rest : Str) : Prop where
  eq : s = word ++ rest
  comp : IsComp word
  max : ∀ c z, IsComp c → c ++ z = s → c.length ≤ word.length ∧ (NotTail z → c = word ∧ z = rest)

theorem dropWhile_notTail (s : Str) : NotTail (s.dropWhile identTail) := by
  induction s with
  | nil => trivial
  | cons c s ih =>
    rw [List.dropWhile_cons]
    split
    · exact ih
    · next h => simpa [NotTail] using h

theorem takeWhile_max {t z : Str} (h : ∀ d ∈ t, identTail d = true) : t.length ≤ ((t ++ z).takeWhile identTail).length := by
  induction t with
  | nil => simp
  | cons c t ih =>
    rw [List.cons_append, List.takeWhile_cons, if_pos (h c (.head _))]
    have := ih fun d hd => h d (.tail _ hd)
    simp only [List.length_cons]
    omega

theorem firstComp_ident {c : Char} (s : Str) (h : identHead c = true) :
    FirstComp (c :: s) (c :: s.takeWhile identTail) (s.dropWhile identTail) := by
  refine ⟨by simp, .inl (takeWhile_isIdent s h), ?_⟩
  intro c' z hc he
  rcases hc with hc | hc
  · obtain ⟨a, r, rfl, ha, hr⟩ := (isIdent_iff _).1 hc
    rw [List.cons_append] at he
    cases he
    refine ⟨?_, fun hz => ?_⟩
    · have := takeWhile_max (z := z) hr
      simp only [List.length_cons]
      omega
    · obtain ⟨h1, h2⟩ := takeWhile_ident hr hz
      rw [h1, h2]
      exact ⟨rfl, rfl⟩
  · obtain ⟨m, rfl, _⟩ := hc
    cases he
    cases h

theorem firstComp_moustache {s a b : Str} (h : splitClose s = some (a, b)) :
    FirstComp ('{' :: '|' :: s) ('{' :: '|' :: a) b := by
  refine ⟨by rw [splitClose_eq h]; rfl, .inr (splitClose_isMoustache h), ?_⟩
  intro c' z hc he
  rcases hc with hc | hc
  · obtain ⟨d, r, rfl, hd, hr⟩ := (isIdent_iff _).1 hc
    rw [List.cons_append] at he
    injection he with h1 h2
    subst h1
    cases hd
  · obtain ⟨m, rfl, hm⟩ := hc.split z
    simp only [List.cons_append, List.cons.injEq, true_and] at he
    subst he
    rw [hm] at h
    cases h
    exact ⟨Nat.le_refl _, fun _ => ⟨rfl, rfl⟩⟩

/-- what follows the first component is read as far as possible -/
theorem dotted_max {n : Nat} {y : PSymb} {rest : Str} (hn : rest.length ≤ n) {cs : List Str} (hcs : ∀ c ∈ cs, IsComp c) (hp : dots cs <+: rest) :
    (dotted n y rest).2.length + (dots cs).length ≤ rest.length := by
  induction n generalizing y rest cs with
  | zero =>
    obtain rfl := List.length_eq_zero_iff.1 (Nat.le_zero.1 hn)
    rw [List.prefix_nil.1 hp]
    simp [dotted]
  | succ n ih =>
    cases cs with
    | nil =>
      have := (dotted_suffix (n + 1) y rest).length_le
      simpa [dots] using this
    | cons c cs =>
      obtain ⟨z, rfl⟩ := hp
      have e : dots (c :: cs) ++ z = '.' :: (c ++ (dots cs ++ z)) := by simp [dots]
      have e2 : (dots (c :: cs)).length = 1 + c.length + (dots cs).length := by simp [dots]; omega
      rw [e] at hn ⊢
      rw [e2]
      simp only [List.length_cons, List.length_append] at hn ⊢
      rcases hcs c (.head _) with hc | hc
      · obtain ⟨d, t, rfl, hd, ht⟩ := (isIdent_iff _).1 hc
        rw [List.cons_append, dotted_dot (by rintro t' rfl; simp [identHead] at hd), if_pos hd]
        cases cs with
        | nil =>
          have h1 := (dotted_suffix n (y.push (d :: (t ++ (dots [] ++ z)).takeWhile identTail)) ((t ++ (dots [] ++ z)).dropWhile identTail)).length_le
          have h2 := takeWhile_max (z := dots [] ++ z) ht
          have h3 : ((t ++ (dots [] ++ z)).takeWhile identTail).length + ((t ++ (dots [] ++ z)).dropWhile identTail).length = (t ++ (dots [] ++ z)).length := by
            rw [← List.length_append, List.takeWhile_append_dropWhile]
          simp only [List.length_append, List.length_cons] at h3 ⊢
          have h4 : (dots ([] : List Str)).length = 0 := rfl
          omega
        | cons c' cs =>
          have hnt : NotTail (dots (c' :: cs) ++ z) := by show identTail '.' = false; decide
          obtain ⟨h1, h2⟩ := takeWhile_ident ht hnt
          rw [h1, h2]
          have := ih (y := y.push (d :: t)) (rest := dots (c' :: cs) ++ z) (cs := c' :: cs)
            (by simp only [List.length_append, List.length_cons] at hn ⊢; omega) (fun c hc => hcs c (.tail _ hc)) ⟨z, rfl⟩
          simp only [List.length_append, List.length_cons] at this ⊢
          omega
      · obtain ⟨b, rfl, hb⟩ := hc.split (dots cs ++ z)
        simp only [List.cons_append, dotted, hb]
        have := ih (y := y.push ('{' :: '|' :: b)) (rest := dots cs ++ z) (cs := cs)
          (by simp only [List.length_append, List.length_cons] at hn ⊢; omega) (fun c hc => hcs c (.tail _ hc)) ⟨z, rfl⟩
        simp only [List.length_append, List.length_cons] at this ⊢
        omega

/-- what is read, and what stops the reading -/
theorem dotted_text {n : Nat} {y : PSymb} {rest r : Str} {o : Option PSymb} (hn : rest.length ≤ n) (hy : ∀ c ∈ comps y, IsComp c)
    (h : dotted n y rest = (o, r)) : ∃ y1, (∀ c ∈ comps y1, IsComp c) ∧ (comps y1).head? = (comps y).head? ∧
      symbText y1 ++ r = symbText y ++ rest ∧ ((o = some y1 ∧ ¬ str ".{|" <+: r) ∨ (o = none ∧ str ".{|" <+: r)) := by
  have hpush : ∀ (y : PSymb) c, (∀ c ∈ comps y, IsComp c) → IsComp c →
      (∀ d ∈ comps (y.push c), IsComp d) ∧ (comps (y.push c)).head? = (comps y).head? := by
    intro y c hy hc
    have : comps (y.push c) = comps y ++ [c] := rfl
    rw [this]
    refine ⟨fun d hd => ?_, ?_⟩
    · rcases List.mem_append.1 hd with hd | hd
      · exact hy d hd
      · simp at hd; exact hd ▸ hc
    · cases hy : comps y with
      | nil => simp [comps] at hy
      | cons a l => rfl
  induction n generalizing y rest with
  | zero =>
    obtain rfl := List.length_eq_zero_iff.1 (Nat.le_zero.1 hn)
    cases h
    exact ⟨y, hy, rfl, rfl, .inl ⟨rfl, by simp [str]⟩⟩
  | succ n ih =>
    unfold dotted at h
    split at h
    · next after =>
      split at h
      · next am =>
        split at h
        · cases h
          exact ⟨y, hy, rfl, rfl, .inr ⟨rfl, ⟨am, rfl⟩⟩⟩
        · next a b hs =>
          have h1 := hpush y _ hy (.inr (splitClose_isMoustache hs))
          have he := splitClose_eq hs
          obtain ⟨y1, h2, h3, h4, h5⟩ := ih (by rw [he] at hn; simp only [List.length_cons, List.length_append] at hn; omega) h1.1 h
          refine ⟨y1, h2, h3.trans h1.2, ?_, h5⟩
          rw [h4, symbText_push, he]
          simp
      · next c tail hc' =>
        split at h
        · next hc =>
          have h1 := hpush y _ hy (.inl (takeWhile_isIdent tail hc))
          have hl := (List.dropWhile_suffix identTail (l := tail)).length_le
          obtain ⟨y1, h2, h3, h4, h5⟩ := ih (by simp only [List.length_cons] at hn; omega) h1.1 h
          refine ⟨y1, h2, h3.trans h1.2, ?_, h5⟩
          rw [h4, symbText_push]
          simp
        · cases h
          refine ⟨y, hy, rfl, rfl, .inl ⟨rfl, ?_⟩⟩
          rintro ⟨t, ht⟩
          cases ht
          exact hc' _ rfl rfl
      · cases h
        refine ⟨y, hy, rfl, rfl, .inl ⟨rfl, ?_⟩⟩
        rintro ⟨t, ht⟩
        cases ht
    · next hne =>
      cases h
      refine ⟨y, hy, rfl, rfl, .inl ⟨rfl, ?_⟩⟩
      rintro ⟨t, ht⟩
      exact hne _ ht.symm

/-- the words at the beginning of a text that begins with a name -/
theorem firstComp_words {s word rest w : Str} {k : Option Token} (hf : FirstComp s word rest) (h : Lexeme w k) (hp : w <+: s) :
    (w ∈ keywords ∧ w.length ≤ word.length) ∨ ∃ c cs y, k = some (.symb y) ∧ ValidSymb y ∧ w = c ++ dots cs ∧ IsComp c ∧ c ∉ keywords ∧ (∀ c ∈ cs, IsComp c) ∧
      c.length ≤ word.length ∧ (cs ≠ [] → c = word ∧ dots cs <+: rest) := by
  obtain ⟨a, r, hw, ha⟩ := comp_head' hf.comp
  have hs : s = a :: (r ++ rest) := by rw [hf.eq, hw]; rfl
  rcases h.cases with h1 | ⟨t, rfl, h1⟩ | ⟨y, rfl, rfl, h1⟩
  · rw [hs] at hp
    have := signs'_head h1 hp
    rcases ha with ha | ⟨rfl, _⟩
    · rw [this.1] at ha; cases ha
    · exact absurd rfl this.2
  · obtain ⟨hk, b, q, he, hb, hq⟩ := keyword_head h1
    obtain ⟨z, rfl⟩ := hp
    exact .inl ⟨hk, (hf.max w z (.inl ((isIdent_iff _).2 ⟨b, q, he, hb, hq⟩)) rfl).1⟩
  · obtain ⟨c, cs, h2, h3, _⟩ := symbText_comps y
    obtain ⟨z, hz⟩ := hp
    rw [h2, List.append_assoc] at hz
    have hc : ∀ d ∈ c :: cs, IsComp d := h3 ▸ h1.comps
    have hm := hf.max c (dots cs ++ z) (hc c (.head _)) hz
    refine .inr ⟨c, cs, y, rfl, h1, h2, hc c (.head _), ?_, fun d hd => hc d (.tail _ hd), hm.1, fun hne => ?_⟩
    · have : (y.path ++ [y.name]).head? = some c := by
        have : comps y = c :: cs := h3
        unfold comps at this
        rw [this]; rfl
      exact h1.2.2 c this
    · cases cs with
      | nil => exact absurd rfl hne
      | cons d cs =>
        have := hm.2 (by show identTail '.' = false; decide)
        exact ⟨this.1, z, this.2⟩

/-- a keyword -/
theorem keyword_longest {s word rest : Str} {t : Token} (hf : FirstComp s word rest)
    (hk : (word, t) ∈ [(str "def", Token.def_), (str "thm", .thm), (str "injective", .inj)]) : Longest s word (some t) := by
  refine ⟨.sign ?_, ⟨rest, hf.eq.symm⟩, ?_⟩
  · simp only [List.mem_cons, Prod.mk.injEq, List.not_mem_nil, or_false] at hk
    rcases hk with ⟨rfl, rfl⟩ | ⟨rfl, rfl⟩ | ⟨rfl, rfl⟩ <;> decide
  · intro w k hl hp
    rcases firstComp_words hf hl hp with ⟨_, h⟩ | ⟨c, cs, y, rfl, _, rfl, hc, hck, hcs, hlen, hne⟩
    · exact h
    · cases cs with
      | nil => simpa [dots] using hlen
      | cons d cs => exact absurd (hne (by simp)).1 (fun e => hck (e ▸ (keyword_head hk).1))

/-- a name -/
theorem lexSymb_scans {s word rest : Str} (hf : FirstComp s word rest) (hk : word ∉ keywords) :
    Scans s (some (lexSymb word rest).1) (lexSymb word rest).2 := by
  have h0 : ∀ d ∈ comps (PSymb.new word), IsComp d := by
    intro d hd
    have : d = word := by simpa [comps, PSymb.new] using hd
    exact this ▸ hf.comp
  cases hd : dotted rest.length (PSymb.new word) rest with
  | mk o r =>
    have hmax := fun cs => dotted_max (n := rest.length) (y := PSymb.new word) (rest := rest) (cs := cs) (Nat.le_refl _)
    rw [hd] at hmax
    obtain ⟨y, h1, h2, h3, h4⟩ := dotted_text (Nat.le_refl _) h0 hd
    have hv : ValidSymb y := validSymb_of h1 (c := word) (by rw [h2]; rfl) hk
    have hs : symbText y ++ r = s := by
      rw [h3, hf.eq]
      simp [symbText, PSymb.new, List.intercalate]
    have hl : (symbText y).length + r.length = word.length + rest.length := by
      rw [← List.length_append, ← List.length_append, hs, hf.eq]
    have hlong : Longest s (symbText y) (some (.symb y)) := by
      refine ⟨.symb hv, ⟨r, hs⟩, ?_⟩
      intro w k hw hp
      have hr := hmax [] (by simp) (List.nil_prefix)
      simp only [dots, List.flatMap_nil, List.length_nil] at hr
      rcases firstComp_words hf hw hp with ⟨_, h⟩ | ⟨c, cs, y', rfl, _, rfl, hc, hck, hcs, hlen, hne⟩
      · omega
      · cases cs with
        | nil => simp only [dots, List.flatMap_nil, List.append_nil]; omega
        | cons d cs =>
          obtain ⟨rfl, hpre⟩ := hne (by simp)
          have := hmax (d :: cs) hcs hpre
          simp only [List.length_append] at this ⊢
          omega
    unfold lexSymb
    rw [hd]
    rcases h4 with ⟨rfl, h4⟩ | ⟨rfl, h4⟩
    · rw [← hs] at hlong ⊢
      exact .word hlong fun _ => h4
    · rw [← hs] at hlong ⊢
      exact .cut hlong h4

theorem lexIdent_scans {s word rest : Str} (hf : FirstComp s word rest) :
    Scans s (some (lexIdent word rest).1) (lexIdent word rest).2 := by
  have hkw : ∀ t, (word, t) ∈ [(str "def", Token.def_), (str "thm", .thm), (str "injective", .inj)] → (∀ y, t ≠ .symb y) → Scans s (some t) rest := by
    intro t ht hy
    have := keyword_longest hf ht
    have he := hf.eq
    subst he
    exact .word this fun ⟨y, hy'⟩ => absurd hy' (hy y)
  unfold lexIdent
  split
  · next h => exact hkw _ (by simp [h]) (by simp)
  · split
    · next h => exact hkw _ (by simp [h]) (by simp)
    · split
      · next h => exact hkw _ (by simp [h]) (by simp)
      · next h1 h2 h3 => exact lexSymb_scans hf (by simp [keywords, h1, h2, h3])

end Kontroli
