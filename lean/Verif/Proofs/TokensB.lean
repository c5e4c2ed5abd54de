import Verif.Proofs.Tokens

/-! # The lexer finds the longest words -/

namespace Kontroli

theorem space_iff (c : Char) : c ∈ [' ', '\t', '\n', '\x0c'] ↔ isSpace c = true := by
  simp [isSpace, or_assoc]

theorem sign_longest {w r : Str} {k : Option Token} (hw : (w, k) ∈ signs')
    (hmax : ∀ w' k', (w', k') ∈ signs' → w' <+: w ++ r → w'.length ≤ w.length) : Longest (w ++ r) w k := by
  refine ⟨signs'_lexeme hw, ⟨r, rfl⟩, fun w' k' hl hp => ?_⟩
  cases w with
  | nil => revert hw; cases k <;> simp [signs', str]
  | cons c w =>
    have := signs'_head hw (List.prefix_append (c :: w) r)
    exact hmax w' k' (prefix_sign hl hp this.1 fun h => absurd h this.2) hp

theorem sign_scans {w r : Str} {t : Token} (hw : (w, some t) ∈ signs') (hy : ∀ y, t ≠ .symb y)
    (hmax : ∀ w' k', (w', k') ∈ signs' → w' <+: w ++ r → w'.length ≤ w.length) : Scans (w ++ r) (some t) r :=
  .word (sign_longest hw hmax) fun ⟨y, h⟩ => absurd h (hy y)

theorem signs'_prefix {w s : Str} {k : Option Token} (hm : (w, k) ∈ signs') (hp : w <+: s) : w.length = 1 ∨ (∃ r, s = str ":=" ++ r ∧ w.length = 2) ∨
    (∃ r, s = str "-->" ++ r ∧ w.length = 3) ∨ (∃ r, s = str "->" ++ r ∧ w.length = 2) ∨ (∃ r, s = str "=>" ++ r ∧ w.length = 2) ∨
    (∃ r, s = str "(;" ++ r ∧ w.length = 2) := by
  obtain ⟨r, rfl⟩ := hp
  simp only [signs', List.mem_cons, Prod.mk.injEq, List.not_mem_nil, or_false] at hm
  rcases hm with ⟨rfl, _⟩ | ⟨rfl, _⟩ | ⟨rfl, _⟩ | ⟨rfl, _⟩ | ⟨rfl, _⟩ | ⟨rfl, _⟩ | ⟨rfl, _⟩ | ⟨rfl, _⟩ | ⟨rfl, _⟩ |
    ⟨rfl, _⟩ | ⟨rfl, _⟩ | ⟨rfl, _⟩ | ⟨rfl, _⟩ <;> simp [str]

theorem noLexeme_of {c : Char} {s : Str} (h1 : identHead c = false) (h2 : c = '{' → ∀ t, s = '|' :: t → False)
    (h : ∀ w k, (w, k) ∈ signs' → ¬ w <+: c :: s) : NoLexeme (c :: s) :=
  fun w k hl hp => h w k (prefix_sign hl hp h1 h2) hp

theorem noLexeme_moustache {s : Str} (h : splitClose s = none) : NoLexeme ('{' :: '|' :: s) := by
  intro w k hl hp
  rcases hl.cases with h1 | ⟨t, rfl, h1⟩ | ⟨y, rfl, rfl, h1⟩
  · exact absurd rfl (signs'_head h1 hp).2
  · obtain ⟨_, a, r, rfl, ha, _⟩ := keyword_head h1
    obtain ⟨rfl, _⟩ := List.cons_prefix_cons.1 hp
    cases ha
  · obtain ⟨c, cs, h2, h3, _⟩ := symbText_comps y
    obtain ⟨z, hz⟩ := hp
    rw [h2, List.append_assoc] at hz
    rcases h1.comps c (h3 ▸ .head _) with hc | hc
    · obtain ⟨a, r, rfl, ha, _⟩ := (isIdent_iff _).1 hc
      injection hz with hz _
      subst hz
      cases ha
    · obtain ⟨b, rfl, hb⟩ := hc.split (dots cs ++ z)
      simp only [List.cons_append, List.cons.injEq, true_and] at hz
      rw [hz, h] at hb
      cases hb

theorem lexStep_scans {s r : Str} {o : Option Token} (hc : ∀ c q, s = c :: q → isSpace c = false) (h : lexStep s = some (o, r)) :
    (∃ n c', o = some (.comment n) ∧ s = str "(;" ++ c' ∧ OpenAt 1 c' n ∧ r = []) ∨ Scans s o r := by
  unfold lexStep at h
  split at h
  · cases h
  · cases h; exact .inr (sign_scans (w := str "[") (t := .lbrk) (by simp [signs']) (by simp) fun w' k' hm hp => by
      rcases signs'_prefix hm hp with h | ⟨r, e, h⟩ | ⟨r, e, h⟩ | ⟨r, e, h⟩ | ⟨r, e, h⟩ | ⟨r, e, h⟩ <;> simp_all [str])
  · cases h; exact .inr (sign_scans (w := str "]") (t := .rbrk) (by simp [signs']) (by simp) fun w' k' hm hp => by
      rcases signs'_prefix hm hp with h | ⟨r, e, h⟩ | ⟨r, e, h⟩ | ⟨r, e, h⟩ | ⟨r, e, h⟩ | ⟨r, e, h⟩ <;> simp_all [str])
  · cases h; exact .inr (sign_scans (w := str "#") (t := .hash) (by simp [signs']) (by simp) fun w' k' hm hp => by
      rcases signs'_prefix hm hp with h | ⟨r, e, h⟩ | ⟨r, e, h⟩ | ⟨r, e, h⟩ | ⟨r, e, h⟩ | ⟨r, e, h⟩ <;> simp_all [str])
  · next q =>
    injection h with h
    unfold comment1 at h
    split at h
    · next r' hr =>
      cases h
      obtain ⟨c', rfl, hc'⟩ := comment_closes hr
      exact .inr (.comment hc')
    · next n r' hr =>
      cases h
      obtain ⟨h1, h2⟩ := comment_openAt hr
      exact .inl ⟨_, q, rfl, rfl, h2, h1⟩
  · next hne => cases h; exact .inr (sign_scans (w := str "(") (t := .lpar) (by simp [signs']) (by simp) fun w' k' hm hp => by
      rcases signs'_prefix hm hp with h | ⟨r, e, h⟩ | ⟨r, e, h⟩ | ⟨r, e, h⟩ | ⟨r, e, h⟩ | ⟨r, e, h⟩ <;> simp_all [str])
  · cases h; exact .inr (sign_scans (w := str ")") (t := .rpar) (by simp [signs']) (by simp) fun w' k' hm hp => by
      rcases signs'_prefix hm hp with h | ⟨r, e, h⟩ | ⟨r, e, h⟩ | ⟨r, e, h⟩ | ⟨r, e, h⟩ | ⟨r, e, h⟩ <;> simp_all [str])
  · cases h; exact .inr (sign_scans (w := str ":=") (t := .colonEq) (by simp [signs']) (by simp) fun w' k' hm hp => by
      rcases signs'_prefix hm hp with h | ⟨r, e, h⟩ | ⟨r, e, h⟩ | ⟨r, e, h⟩ | ⟨r, e, h⟩ | ⟨r, e, h⟩ <;> simp_all [str])
  · next hne => cases h; exact .inr (sign_scans (w := str ":") (t := .colon) (by simp [signs']) (by simp) fun w' k' hm hp => by
      rcases signs'_prefix hm hp with h | ⟨r, e, h⟩ | ⟨r, e, h⟩ | ⟨r, e, h⟩ | ⟨r, e, h⟩ | ⟨r, e, h⟩ <;> simp_all [str])
  · cases h; exact .inr (sign_scans (w := str "-->") (t := .longArrow) (by simp [signs']) (by simp) fun w' k' hm hp => by
      rcases signs'_prefix hm hp with h | ⟨r, e, h⟩ | ⟨r, e, h⟩ | ⟨r, e, h⟩ | ⟨r, e, h⟩ | ⟨r, e, h⟩ <;> simp_all [str])
  · cases h; exact .inr (sign_scans (w := str "->") (t := .arrow) (by simp [signs']) (by simp) fun w' k' hm hp => by
      rcases signs'_prefix hm hp with h | ⟨r, e, h⟩ | ⟨r, e, h⟩ | ⟨r, e, h⟩ | ⟨r, e, h⟩ | ⟨r, e, h⟩ <;> simp_all [str])
  · cases h; exact .inr (sign_scans (w := str "=>") (t := .fatArrow) (by simp [signs']) (by simp) fun w' k' hm hp => by
      rcases signs'_prefix hm hp with h | ⟨r, e, h⟩ | ⟨r, e, h⟩ | ⟨r, e, h⟩ | ⟨r, e, h⟩ | ⟨r, e, h⟩ <;> simp_all [str])
  · cases h; exact .inr (sign_scans (w := str ",") (t := .comma) (by simp [signs']) (by simp) fun w' k' hm hp => by
      rcases signs'_prefix hm hp with h | ⟨r, e, h⟩ | ⟨r, e, h⟩ | ⟨r, e, h⟩ | ⟨r, e, h⟩ | ⟨r, e, h⟩ <;> simp_all [str])
  · cases h; exact .inr (sign_scans (w := str ".") (t := .dot) (by simp [signs']) (by simp) fun w' k' hm hp => by
      rcases signs'_prefix hm hp with h | ⟨r, e, h⟩ | ⟨r, e, h⟩ | ⟨r, e, h⟩ | ⟨r, e, h⟩ | ⟨r, e, h⟩ <;> simp_all [str])
  · next q =>
    injection h with h
    unfold moustache at h
    split at h
    · next hs => cases h; exact .inr (.moustache (noLexeme_moustache hs))
    · next a b hs =>
      cases h
      refine .inr (lexSymb_scans (firstComp_moustache hs) ?_)
      simp [keywords, str]
  · next c q n1 n2 n3 n4 n5 n6 n7 n8 n9 n10 n11 n12 n13 n14 =>
    injection h with h
    unfold lexOther at h
    have hc' := hc c q rfl
    clear hc
    rw [hc'] at h
    simp only [Bool.false_eq_true, if_false] at h
    split at h
    · next hi =>
      cases h
      exact .inr (lexIdent_scans (firstComp_ident _ hi))
    · next hi =>
      cases h
      refine .inr (.unknown (noLexeme_of (by simpa using hi) (fun h t ht => n14 t h ht) ?_) (by rw [space_iff, hc']; exact Bool.false_ne_true) ?_)
      · intro w' k' hm hp
        obtain ⟨z, hz⟩ := hp
        simp only [signs', List.mem_cons, Prod.mk.injEq, List.not_mem_nil, or_false] at hm
        rcases hm with ⟨rfl, _⟩ | ⟨rfl, _⟩ | ⟨rfl, _⟩ | ⟨rfl, _⟩ | ⟨rfl, _⟩ | ⟨rfl, _⟩ | ⟨rfl, _⟩ | ⟨rfl, _⟩ | ⟨rfl, _⟩ |
         ⟨rfl, _⟩ | ⟨rfl, _⟩ | ⟨rfl, _⟩ | ⟨rfl, _⟩ <;> simp [str] at hz <;> obtain ⟨rfl, rfl⟩ := hz <;> simp_all
      · rintro ⟨z, hz⟩
        cases hz
        exact n14 z rfl rfl

/-! ## There is only one way -/

theorem space_noLexeme {c : Char} {s : Str} (h : isSpace c = true) : NoLexeme (c :: s) := by
  rw [← space_iff] at h
  simp only [List.mem_cons, List.not_mem_nil, or_false] at h
  rcases h with rfl | rfl | rfl | rfl <;>
  · refine noLexeme_of (by decide) (fun h => absurd h (by decide)) fun w k hm hp => ?_
    obtain ⟨z, hz⟩ := hp
    simp only [signs', List.mem_cons, Prod.mk.injEq, List.not_mem_nil, or_false] at hm
    rcases hm with ⟨rfl, _⟩ | ⟨rfl, _⟩ | ⟨rfl, _⟩ | ⟨rfl, _⟩ | ⟨rfl, _⟩ | ⟨rfl, _⟩ | ⟨rfl, _⟩ | ⟨rfl, _⟩ | ⟨rfl, _⟩ |
      ⟨rfl, _⟩ | ⟨rfl, _⟩ | ⟨rfl, _⟩ | ⟨rfl, _⟩ <;> simp [str] at hz

theorem comment_longest (s : Str) : Longest (str "(;" ++ s) (str "(;") none :=
  sign_longest (by simp [signs']) fun w' k' hm hp => by
    rcases signs'_prefix hm hp with h | ⟨r, e, h⟩ | ⟨r, e, h⟩ | ⟨r, e, h⟩ | ⟨r, e, h⟩ | ⟨r, e, h⟩ <;> simp_all [str]

/-- what is at the beginning of a text, by cases -/
inductive Kind : Str → Option Token → Str → Prop
  | space {c : Char} {q : Str} : NoLexeme (c :: q) → isSpace c = true → Kind (c :: q) none q
  | moustache {q : Str} : NoLexeme ('{' :: '|' :: q) → Kind ('{' :: '|' :: q) (some .error) q
  | unknown {c : Char} {q : Str} : NoLexeme (c :: q) → isSpace c = false → (∀ z, c :: q ≠ '{' :: '|' :: z) → Kind (c :: q) (some .error) q
  | comment {s r : Str} : Longest (str "(;" ++ s) (str "(;") none → Kontroli.comment 1 s = (0, r) → Kind (str "(;" ++ s) none r
  | word {w r : Str} {t : Token} : Longest (w ++ r) w (some t) → ((∃ s, t = .symb s) → ¬ str ".{|" <+: r) → Kind (w ++ r) (some t) r
  | cut {w r : Str} {s : PSymb} : Longest (w ++ r) w (some (.symb s)) → str ".{|" <+: r → Kind (w ++ r) (some .error) r

theorem Scans.kind {s r : Str} {o : Option Token} (h : Scans s o r) : Kind s o r := by
  cases h with
  | space h => rw [space_iff] at h; exact .space (space_noLexeme h) h
  | @comment c r h =>
    rw [List.append_assoc]
    exact .comment (comment_longest _) (h.comment _)
  | word h1 h2 => exact .word h1 h2
  | cut h1 h2 => exact .cut h1 h2
  | moustache h => exact .moustache h
  | unknown h1 h2 h3 =>
    refine .unknown h1 (by rw [space_iff] at h2; simpa using h2) fun z hz => h3 ⟨z, ?_⟩
    rw [hz]; rfl

theorem Longest.not {s w : Str} {k : Option Token} (h : Longest s w k) : ¬ NoLexeme s := fun hn => hn _ _ h.1 h.2.1

theorem Kind.unique {s r r' : Str} {o o' : Option Token} (h : Kind s o r) (h' : Kind s o' r') : o = o' ∧ r = r' := by
  generalize hs : s = s' at h'
  cases h with
  | @space c q h1 h2 =>
    cases h' with
    | space => cases hs; exact ⟨rfl, rfl⟩
    | moustache => cases hs; cases h2
    | unknown _ h3 => cases hs; rw [h2] at h3; cases h3
    | comment h => exact absurd (hs ▸ h1) h.not
    | word h => exact absurd (hs ▸ h1) h.not
    | cut h => exact absurd (hs ▸ h1) h.not
  | @moustache q h1 =>
    cases h' with
    | space _ h2 => cases hs; cases h2
    | moustache => cases hs; exact ⟨rfl, rfl⟩
    | unknown _ _ h3 => exact absurd hs.symm (h3 _)
    | comment h => exact absurd (hs ▸ h1) h.not
    | word h => exact absurd (hs ▸ h1) h.not
    | cut h => exact absurd (hs ▸ h1) h.not
  | @unknown c q h1 h2 h3 =>
    cases h' with
    | space _ h4 => cases hs; rw [h2] at h4; cases h4
    | moustache => exact absurd hs (h3 _)
    | unknown => cases hs; exact ⟨rfl, rfl⟩
    | comment h => exact absurd (hs ▸ h1) h.not
    | word h => exact absurd (hs ▸ h1) h.not
    | cut h => exact absurd (hs ▸ h1) h.not
  | @comment q r h1 h2 =>
    cases h' with
    | space h => exact absurd (hs ▸ h) h1.not
    | moustache h => exact absurd (hs ▸ h) h1.not
    | unknown h => exact absurd (hs ▸ h) h1.not
    | comment h h4 =>
      cases List.append_cancel_left hs
      rw [h2] at h4
      cases h4
      exact ⟨rfl, rfl⟩
    | word h => cases (Longest.unique h1 (hs ▸ h)).2
    | cut h => cases (Longest.unique h1 (hs ▸ h)).2
  | @word w r t h1 h2 =>
    cases h' with
    | space h => exact absurd (hs ▸ h) h1.not
    | moustache h => exact absurd (hs ▸ h) h1.not
    | unknown h => exact absurd (hs ▸ h) h1.not
    | comment h => cases (Longest.unique h1 (hs ▸ h)).2
    | word h =>
      obtain ⟨rfl, e⟩ := Longest.unique h1 (hs ▸ h)
      exact ⟨e, List.append_cancel_left hs⟩
    | cut h h4 =>
      obtain ⟨rfl, e⟩ := Longest.unique h1 (hs ▸ h)
      cases e
      cases List.append_cancel_left hs
      exact absurd h4 (h2 ⟨_, rfl⟩)
  | @cut w r y h1 h2 =>
    cases h' with
    | space h => exact absurd (hs ▸ h) h1.not
    | moustache h => exact absurd (hs ▸ h) h1.not
    | unknown h => exact absurd (hs ▸ h) h1.not
    | comment h => cases (Longest.unique h1 (hs ▸ h)).2
    | word h h4 =>
      obtain ⟨rfl, e⟩ := Longest.unique h1 (hs ▸ h)
      cases e
      cases List.append_cancel_left hs
      exact absurd h2 (h4 ⟨_, rfl⟩)
    | cut h h4 =>
      obtain ⟨rfl, e⟩ := Longest.unique h1 (hs ▸ h)
      exact ⟨rfl, List.append_cancel_left hs⟩

theorem Scans.unique {s r r' : Str} {o o' : Option Token} (h : Scans s o r) (h' : Scans s o' r') : o = o' ∧ r = r' := h.kind.unique h'.kind

theorem Scans.not_opened {s c r : Str} {o : Option Token} {n : Nat} (h : Scans s o r) (hs : s = str "(;" ++ c) (ho : OpenAt 1 c n) : False := by
  have hl := comment_longest c
  have hc := ho.comment
  cases h.kind with
  | space h1 => exact hl.not (hs ▸ h1)
  | moustache h1 => exact hl.not (hs ▸ h1)
  | unknown h1 => exact hl.not (hs ▸ h1)
  | comment _ h4 =>
    cases List.append_cancel_left hs
    rw [hc.2] at h4
    injection h4 with h4 _
    have := hc.1
    omega
  | word h1 => cases (Longest.unique hl (hs ▸ h1)).2
  | cut h1 => cases (Longest.unique hl (hs ▸ h1)).2

theorem Scans.plain {s r : Str} {t : Token} (h : Scans s (some t) r) : t.plain = true := by
  cases h with
  | word h => exact h.1.plain
  | cut => rfl
  | moustache => rfl
  | unknown => rfl

/-- the tokens of a text -/
theorem lex_lexes (s : Str) : Lexes s ((lex s).filter Token.plain) (openOf (lex s)) := by
  induction hn : s.length using Nat.strongRecOn generalizing s with
  | _ n ih =>
  subst hn
  have key : (∀ c q, s = c :: q → isSpace c = false) → Lexes s ((lex s).filter Token.plain) (openOf (lex s)) := by
    intro hc
    cases hs : lexStep s with
    | none =>
      cases s with
      | nil => exact .nil
      | cons c s => unfold lexStep at hs; split at hs <;> simp at hs; next h => cases h
    | some p =>
      obtain ⟨o, r⟩ := p
      have ihr := ih _ (lexStep_length hs) r rfl
      rcases lexStep_scans hc hs with ⟨n, c', rfl, rfl, h1, rfl⟩ | h1
      · rw [lex_step hs]
        exact .opened h1
      · cases o with
        | none => rw [lex_eq, hs]; exact .skip h1 ihr
        | some t =>
          rw [lex_step hs, List.filter_cons_of_pos h1.plain, openOf_cons _ h1.plain]
          exact .tok h1 ihr
  cases s with
  | nil => exact .nil
  | cons c q =>
    cases hc : isSpace c with
    | true =>
      rw [lex_space' hc]
      exact .skip (.space ((space_iff c).2 hc)) (ih _ (Nat.lt_succ_self _) q rfl)
    | false => exact key fun c' q' h => by cases h; exact hc

theorem Lexeme.ne {w : Str} {k : Option Token} (h : Lexeme w k) : w ≠ [] := by
  rcases h.cases with h' | ⟨t, _, h'⟩ | ⟨y, _, rfl, h'⟩
  · rintro rfl; revert h'; cases k <;> simp [signs', str]
  · obtain ⟨_, a, r, rfl, _⟩ := keyword_head h'; simp
  · obtain ⟨a, r, h2, _⟩ := symbText_head h'; rw [h2]; simp

theorem Scans.ne {s r : Str} {o : Option Token} (h : Scans s o r) : s ≠ [] := by
  cases h with
  | space => simp
  | comment => simp [str]
  | word h => intro he; exact h.1.ne (List.append_eq_nil_iff.1 he).1
  | cut h => intro he; exact h.1.ne (List.append_eq_nil_iff.1 he).1
  | moustache => simp [str]
  | unknown => simp

theorem Lexes.unique {s : Str} {ts us : List Token} {n m : Nat} (h : Lexes s ts n) (h' : Lexes s us m) : ts = us ∧ n = m := by
  induction h generalizing us m with
  | nil =>
    cases h' with
    | nil => exact ⟨rfl, rfl⟩
    | skip h => exact (h.ne rfl).elim
    | tok h => exact (h.ne rfl).elim
  | @opened c n ho =>
    generalize hs : str "(;" ++ c = s at h'
    cases h' with
    | nil => cases hs
    | opened ho' =>
      cases List.append_cancel_left hs
      have h1 := ho.comment.2
      rw [ho'.comment.2] at h1
      cases h1
      exact ⟨rfl, rfl⟩
    | skip h => exact (h.not_opened hs.symm ho).elim
    | tok h => exact (h.not_opened hs.symm ho).elim
  | skip h1 _ ih =>
    cases h' with
    | nil => exact (h1.ne rfl).elim
    | opened ho => exact (h1.not_opened rfl ho).elim
    | skip h2 h3 =>
      obtain ⟨_, rfl⟩ := h1.unique h2
      exact ih h3
    | tok h2 => exact nomatch (h1.unique h2).1
  | tok h1 _ ih =>
    cases h' with
    | nil => exact (h1.ne rfl).elim
    | opened ho => exact (h1.not_opened rfl ho).elim
    | skip h2 => exact nomatch (h1.unique h2).1
    | tok h2 h3 =>
      obtain ⟨h4, rfl⟩ := h1.unique h2
      cases h4
      obtain ⟨rfl, rfl⟩ := ih h3
      exact ⟨rfl, rfl⟩

/-- The lexer finds the tokens of a text. -/
theorem lexes_iff (s : Str) (ts : List Token) (n : Nat) : Lexes s ts n ↔ ts = (lex s).filter Token.plain ∧ n = openOf (lex s) :=
  ⟨fun h => h.unique (lex_lexes s), by rintro ⟨rfl, rfl⟩; exact lex_lexes s⟩

theorem lexesFrom_iff (d : Nat) (s : Str) (ts : List Token) (n : Nat) :
    LexesFrom d s ts n ↔ ts = (lexFrom d s).filter Token.plain ∧ n = openOf (lexFrom d s) := by
  cases d with
  | zero =>
    rw [lexFrom_zero, ← lexes_iff]
    exact ⟨fun h => by cases h; assumption, .out⟩
  | succ d =>
    cases hc : comment (d + 1) s with
    | mk k r =>
    unfold lexFrom
    rw [hc]
    cases k with
    | zero =>
      simp only
      constructor
      · intro h
        cases h with
        | closes h1 h2 =>
          rw [h1.comment] at hc
          cases hc
          exact (lexes_iff _ _ _).1 h2
        | stays h1 =>
          have := h1.comment
          rw [hc] at this
          cases this.2
          exact absurd this.1 (Nat.lt_irrefl _)
      · intro h
        obtain ⟨c, rfl, h1⟩ := comment_closes hc
        exact .closes h1 ((lexes_iff _ _ _).2 h)
    | succ k =>
      simp only
      constructor
      · intro h
        cases h with
        | closes h1 h2 =>
          rw [h1.comment] at hc
          cases hc
        | stays h1 =>
          have := h1.comment
          rw [hc] at this
          cases this.2
          exact ⟨rfl, rfl⟩
      · rintro ⟨rfl, rfl⟩
        exact .stays (comment_openAt hc).2

end Kontroli
