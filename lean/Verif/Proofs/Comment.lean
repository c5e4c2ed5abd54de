import Verif.Proofs.LexAppend

/-! # Comments and their marks -/

namespace Kontroli

/-- the number of open comments after some marks, where the count stops when all are closed -/
def lvl : Nat → List Mark → Nat
  | 0, _ => 0
  | n + 1, [] => n + 1
  | n + 1, .opening :: ms => lvl (n + 2) ms
  | n + 1, .closing :: ms => lvl n ms

theorem marks_other {c : Char} {s : Str} (h1 : ∀ t, c = '(' → s = ';' :: t → False) (h2 : ∀ t, c = ';' → s = ')' :: t → False) :
    marks (c :: s) = marks s := by
  rw [marks]
  · exact h1
  · exact h2

theorem comment_lvl (n : Nat) (s : Str) : (comment n s).1 = lvl n (marks s) := by
  fun_induction comment n s with
  | case1 => simp [lvl]
  | case2 => rfl
  | case3 n s ih => rw [ih]; rfl
  | case4 n s ih => rw [ih]; rfl
  | case5 n c s h1 h2 ih =>
    rw [ih, marks_other h1 h2]

theorem Balanced.lvl {a : List Mark} (h : Balanced a) (n : Nat) (b : List Mark) : lvl (n + 1) (a ++ b) = lvl (n + 1) b := by
  induction h generalizing n b with
  | nil => rfl
  | wrap _ _ ih1 ih2 =>
    simp only [List.cons_append, List.append_assoc, Kontroli.lvl]
    rw [ih1]
    simp only [Kontroli.lvl]
    exact ih2 _ _

theorem lvl_zero (ms : List Mark) : lvl 0 ms = 0 := by simp [lvl]

theorem lvl_append (n : Nat) (a b : List Mark) : lvl n (a ++ b) = lvl (lvl n a) b := by
  fun_induction lvl n a with
  | case1 => simp [lvl_zero]
  | case2 => rfl
  | case3 n ms ih => rw [← ih]; rfl
  | case4 n ms ih => rw [← ih]; rfl

theorem cons_cases (d : Char) (c : Str) : (∃ t, d = '(' ∧ c = ';' :: t) ∨ (∃ t, d = ';' ∧ c = ')' :: t) ∨ (d = '(' ∧ c = []) ∨
    ((∀ t, d = '(' → c ++ str ";)" = ';' :: t → False) ∧ ∀ t, d = ';' → c ++ str ";)" = ')' :: t → False) := by
  by_cases g1 : ∃ t, d = '(' ∧ c = ';' :: t
  · exact .inl g1
  by_cases g2 : ∃ t, d = ';' ∧ c = ')' :: t
  · exact .inr (.inl g2)
  by_cases g3 : d = '(' ∧ c = []
  · exact .inr (.inr (.inl g3))
  refine .inr (.inr (.inr ⟨?_, ?_⟩))
  · rintro t rfl ht
    cases c with
    | nil => exact g3 ⟨rfl, rfl⟩
    | cons e c => cases ht; exact g1 ⟨_, rfl, rfl⟩
  · rintro t rfl ht
    cases c with
    | nil => cases ht
    | cons e c => cases ht; exact g2 ⟨_, rfl, rfl⟩

theorem marks_ne (c : Str) : marks (c ++ str ";)") ≠ [] := by
  induction c with
  | nil => exact fun h => nomatch h
  | cons d c ih =>
    rcases cons_cases d c with ⟨t, rfl, rfl⟩ | ⟨t, rfl, rfl⟩ | ⟨rfl, rfl⟩ | ⟨h1, h2⟩
    · exact fun h => nomatch h
    · exact fun h => nomatch h
    · exact fun h => nomatch h
    · rw [List.cons_append, marks_other h1 h2]
      exact ih

/-- if the comments are closed by the last two characters, nothing remains -/
theorem comment_closed (k : Nat) (c : Str) (hk : c.length ≤ k) (n : Nat) (a : List Mark) (hm : marks (c ++ str ";)") = a ++ [.closing])
    (ha : lvl (n + 1) a = 1) : comment (n + 1) (c ++ str ";)") = (0, []) := by
  induction k generalizing c n a with
  | zero =>
    obtain rfl := List.length_eq_zero_iff.1 (Nat.le_zero.1 hk)
    have : a = [] := by
      have : ([] : List Mark) ++ [.closing] = a ++ [.closing] := hm
      exact (List.append_cancel_right this).symm
    subst this
    simp only [lvl, Nat.add_eq_right] at ha
    subst ha
    rfl
  | succ k ih =>
    cases c with
    | nil => exact ih [] (Nat.zero_le _) n a hm ha
    | cons d c =>
      rcases cons_cases d c with ⟨t, rfl, rfl⟩ | ⟨t, rfl, rfl⟩ | ⟨rfl, rfl⟩ | ⟨h1, h2⟩
      · have hm' : .opening :: marks (t ++ str ";)") = a ++ [.closing] := hm
        cases a with
        | nil => simp at hm'
        | cons m a =>
          simp only [List.cons_append, List.cons.injEq] at hm'
          obtain ⟨rfl, hm'⟩ := hm'
          exact ih t (by simp at hk; omega) (n + 1) a hm' ha
      · have hm' : .closing :: marks (t ++ str ";)") = a ++ [.closing] := hm
        cases a with
        | nil =>
          simp only [List.nil_append, List.cons.injEq, true_and] at hm'
          exact absurd hm' (marks_ne t)
        | cons m a =>
          simp only [List.cons_append, List.cons.injEq] at hm'
          obtain ⟨rfl, hm'⟩ := hm'
          cases n with
          | zero => simp [lvl] at ha
          | succ n => exact ih t (by simp at hk; omega) n a hm' ha
      · have hm' : [.opening] = a ++ [.closing] := hm
        cases a <;> simp at hm'
      · rw [List.cons_append, marks_other h1 h2] at hm
        rw [List.cons_append, comment]
        · exact ih c (by simp at hk; omega) n a hm ha
        · exact h1
        · exact h2

theorem IsComment.comment {c : Str} (h : IsComment (str "(;" ++ c)) (b : Str) : comment 1 (c ++ b) = (0, b) := by
  obtain ⟨d, a, hw, ha, hm⟩ := h
  have hc : c = d ++ str ";)" := by
    have : str "(;" ++ c = str "(;" ++ (d ++ str ";)") := by rw [hw, List.append_assoc]
    exact List.append_cancel_left this
  subst hc
  have := comment_closed _ d (Nat.le_refl _) 0 a hm (by simpa [Kontroli.lvl] using ha.lvl 0 [])
  exact comment_append_closed b this

theorem IsComment.eq {w : Str} (h : IsComment w) : ∃ c, w = str "(;" ++ c := by
  obtain ⟨d, a, hw, _⟩ := h
  exact ⟨_, by rw [hw, List.append_assoc]⟩

theorem lex_isComment {w : Str} (h : IsComment w) (b : Str) : lex (w ++ b) = lex b := by
  obtain ⟨c, rfl⟩ := h.eq
  show lex ('(' :: ';' :: (c ++ b)) = lex b
  rw [lex_eq]
  simp only [lexStep, comment1, h.comment b]

theorem openOf_none {ts : List Token} (h : ∀ n, .comment n ∉ ts) : openOf ts = 0 := by
  induction ts with
  | nil => rfl
  | cons t ts ih =>
    cases ht : t.plain with
    | true => rw [openOf_cons _ ht, ih fun n hn => h n (.tail _ hn)]
    | false => obtain ⟨o, rfl⟩ := Token.not_plain ht; exact absurd (.head _) (h o)

theorem filter_plain {ts : List Token} (h : ∀ n, .comment n ∉ ts) : ts.filter Token.plain = ts := by
  rw [List.filter_eq_self]
  intro t ht
  cases hp : t.plain with
  | true => rfl
  | false => obtain ⟨o, rfl⟩ := Token.not_plain hp; exact absurd ht (h o)

theorem lex_append_closed {s u : Str} (hm : MoustacheClosed s) (hc : ∀ n, .comment n ∉ lex s) (hu : Brk u) :
    lex (s ++ u) = lex s ++ lex u := by
  rw [lex_append hm hu, openOf_none hc, lexFrom_zero, filter_plain hc]

/-- the number of open comments, when they are never all closed -/
theorem lvl_open (ms : List Mark) (n : Nat) (h : ∀ p, p <+: ms → p.count .closing < n + p.count .opening) :
    lvl n ms = n + ms.count .opening - ms.count .closing := by
  induction ms generalizing n with
  | nil =>
    have := h [] (List.nil_prefix)
    simp only [List.count_nil] at this
    cases n with
    | zero => omega
    | succ n => rfl
  | cons m ms ih =>
    have h0 := h [] (List.nil_prefix)
    simp only [List.count_nil] at h0
    obtain ⟨n, rfl⟩ : ∃ k, n = k + 1 := ⟨n - 1, by omega⟩
    cases m with
    | opening =>
      simp only [lvl]
      rw [ih (n + 2)]
      · simp; omega
      · intro p hp
        have := h (.opening :: p) (by simpa using hp)
        simp at this
        omega
    | closing =>
      simp only [lvl]
      have h1 := h [.closing] (by simp)
      rw [ih n]
      · simp; omega
      · intro p hp
        have := h (.closing :: p) (by simpa using hp)
        simp at this
        omega

theorem lvl_stays (ms : List Mark) (n : Nat) (h : 0 < lvl n ms) : ∀ p, p <+: ms → p.count .closing < n + p.count .opening := by
  induction ms generalizing n with
  | nil =>
    intro p hp
    rw [List.prefix_nil] at hp
    subst hp
    cases n with
    | zero => simp [lvl] at h
    | succ n => simp
  | cons m ms ih =>
    intro p hp
    cases n with
    | zero => simp [lvl] at h
    | succ n =>
    cases p with
    | nil => simp
    | cons q p =>
      rw [List.cons_prefix_cons] at hp
      obtain ⟨rfl, hp⟩ := hp
      cases q with
      | opening =>
        have := ih (n + 2) h p hp
        simp; omega
      | closing =>
        have := ih n h p hp
        simp; omega

theorem staysOpen_iff (ms : List Mark) : StaysOpen (.opening :: ms) ↔ ∀ p, p <+: ms → p.count .closing < 1 + p.count .opening := by
  constructor
  · intro h p hp
    have := h (.opening :: p) (by simp) (by simpa using hp)
    simp at this
    omega
  · intro h p hne hp
    cases p with
    | nil => exact absurd rfl hne
    | cons q p =>
      rw [List.cons_prefix_cons] at hp
      obtain ⟨rfl, hp⟩ := hp
      have := h p hp
      simp
      omega

theorem lex_staysOpen {c : Str} (h : StaysOpen (marks (str "(;" ++ c))) : lex (str "(;" ++ c) = [.comment (depth (marks (str "(;" ++ c)))] := by
  have e : marks (str "(;" ++ c) = .opening :: marks c := rfl
  rw [e] at h ⊢
  have h' := (staysOpen_iff _).1 h
  have hl := lvl_open _ 1 h'
  have hp := h' _ (List.prefix_refl _)
  show lex ('(' :: ';' :: c) = _
  rw [lex_eq]
  simp only [lexStep, comment1]
  have hc := comment_lvl 1 c
  cases hx : comment 1 c with
  | mk m r =>
    rw [hx] at hc
    simp only at hc
    have hd : depth (.opening :: marks c) = m := by
      rw [hc, hl]
      simp [depth]
      omega
    cases m with
    | zero => omega
    | succ m =>
      simp only [hd, comment_open hx, lex_nil]

/-- a reported number of open comments comes from a beginning of a comment that is not closed -/
theorem lexStep_open {s r : Str} {n : Nat} (h : lexStep s = some (some (.comment n), r)) :
    ∃ c, s = str "(;" ++ c ∧ StaysOpen (marks s) ∧ n = depth (marks s) := by
  have h1 : ∀ c, comment1 c = (some (.comment n), r) →
      StaysOpen (marks (str "(;" ++ c)) ∧ n = depth (marks (str "(;" ++ c)) := by
    intro c h
    unfold comment1 at h
    split at h
    · simp at h
    · next m r' hc =>
      simp only [Option.some.injEq, Prod.mk.injEq, Token.comment.injEq] at h
      have hl := comment_lvl 1 c
      rw [hc] at hl
      have hs := lvl_stays _ _ (by omega : 0 < lvl 1 (marks c))
      have ho := lvl_open _ _ hs
      have he := hs _ (List.prefix_refl _)
      have e : marks (str "(;" ++ c) = .opening :: marks c := rfl
      rw [e]
      refine ⟨(staysOpen_iff _).2 hs, ?_⟩
      simp [depth]
      simp only at hl
      omega
  have h2 : ∀ s, moustache s ≠ (some (.comment n), r) := by
    intro s h
    unfold moustache at h
    split at h
    · simp at h
    · next a b hs =>
      have := lexSymb_plain ('{' :: '|' :: a) b
      simp only [Option.some.injEq, Prod.mk.injEq] at h
      rw [h.1] at this
      simp [Token.plain] at this
  have h3 : ∀ c s, lexOther c s ≠ (some (.comment n), r) := by
    intro c s h
    unfold lexOther at h
    have h3 := lexIdent_plain (c :: s.takeWhile identTail) (s.dropWhile identTail)
    split at h
    · simp at h
    · split at h
      · simp only [Option.some.injEq, Prod.mk.injEq] at h
        rw [h.1] at h3
        simp [Token.plain] at h3
      · simp at h
  unfold lexStep at h
  split at h
  case h_1 => simp at h
  case h_5 c => exact ⟨c, rfl, h1 _ (Option.some.inj h)⟩
  case h_15 => exact absurd (Option.some.inj h) (h2 _)
  case h_16 => exact absurd (Option.some.inj h) (h3 _ _)
  all_goals simp at h

theorem lex_open {s : Str} {n : Nat} (h : .comment n ∈ lex s) :
    ∃ a c, s = a ++ (str "(;" ++ c) ∧ StaysOpen (marks (str "(;" ++ c)) ∧ n = depth (marks (str "(;" ++ c)) := by
  revert h
  refine lex_induct (P := fun s => .comment n ∈ lex s →
    ∃ a c, s = a ++ (str "(;" ++ c) ∧ StaysOpen (marks (str "(;" ++ c)) ∧ n = depth (marks (str "(;" ++ c))) ?_ s
  intro s ih h
  rw [lex_eq] at h
  cases hs : lexStep s with
  | none => rw [hs] at h; cases h
  | some p =>
    obtain ⟨o, r⟩ := p
    rw [hs] at h
    have key : .comment n ∈ lex r → ∃ a c, s = a ++ (str "(;" ++ c) ∧ StaysOpen (marks (str "(;" ++ c)) ∧
        n = depth (marks (str "(;" ++ c)) := fun hr => by
      obtain ⟨a, c, hr, h1, h2⟩ := ih o r hs hr
      obtain ⟨p, hp⟩ := lexStep_suffix hs
      exact ⟨p ++ a, c, by rw [← hp, hr, List.append_assoc], h1, h2⟩
    cases o with
    | none => exact key h
    | some t =>
      simp only [List.mem_cons] at h
      rcases h with rfl | h
      · obtain ⟨c, hc, h1, h2⟩ := lexStep_open hs
        exact ⟨[], c, hc, hc ▸ h1, hc ▸ h2⟩
      · exact key h

theorem splitClose_eq_close {s a b : Str} (h : splitClose s = some (a, b)) : ∃ c, s = c ++ str "|}" ++ b := by
  fun_induction splitClose s generalizing a b with
  | case1 => simp at h
  | case2 => simp only [Option.some.injEq, Prod.mk.injEq] at h; obtain ⟨rfl, rfl⟩ := h; exact ⟨[], rfl⟩
  | case3 => simp at h
  | case4 d s _ a' b' hs ih =>
    simp only [Option.some.injEq, Prod.mk.injEq] at h
    obtain ⟨rfl, rfl⟩ := h
    obtain ⟨c, hc⟩ := ih hs
    exact ⟨d :: c, by rw [hc]; rfl⟩

theorem moustacheCheck_closed (s : Str) (h : moustacheCheck s = true) : MoustacheClosed s := by
  fun_induction moustacheCheck s with
  | case1 => intro a b h; simp [str] at h
  | case2 s ih =>
    simp only [Bool.and_eq_true] at h
    intro a b hab
    match a with
    | [] =>
      cases hab
      obtain ⟨⟨x, y⟩, hs⟩ := Option.isSome_iff_exists.1 h.1
      obtain ⟨c, hc⟩ := splitClose_eq_close hs
      exact ⟨c, y, hc⟩
    | [c] => cases hab
    | c :: d :: a =>
      have hab' : '{' :: '|' :: s = c :: d :: (a ++ str "{|" ++ b) := hab
      cases hab'
      exact ih h.2 a b rfl
  | case3 c s hn ih =>
    intro a b hab
    match a with
    | [] =>
      have hab' : c :: s = '{' :: '|' :: b := hab
      exact (hn b (List.cons.inj hab').1 (List.cons.inj hab').2).elim
    | d :: a =>
      have hab' : c :: s = d :: (a ++ str "{|" ++ b) := hab
      cases hab'
      exact ih h a b rfl

end Kontroli
