import Verif.Proofs.Comment
import Verif.Model.Fmt

/-! # Lexing of printed tokens -/

namespace Kontroli

theorem identHead_iff (c : Char) : identHead c = true ↔ IdentStart c := by
  simp only [identHead, IdentStart, Char.isAlphanum, Char.isAlpha, Char.isUpper, Char.isLower, Char.isDigit, Char.le_def,
    Bool.or_eq_true, Bool.and_eq_true, decide_eq_true_eq, beq_iff_eq, ge_iff_le]
  constructor <;> intro h <;> tauto

theorem identTail_iff (c : Char) : identTail c = true ↔ IdentStart c ∨ c = '\'' := by
  simp only [identTail, Bool.or_eq_true, beq_iff_eq, identHead_iff]

theorem isIdent_iff (c : Str) : IsIdent c ↔ ∃ h t, c = h :: t ∧ identHead h = true ∧ ∀ d ∈ t, identTail d = true := by
  simp only [IsIdent, identHead_iff, identTail_iff]

/-- the text does not continue an identifier -/
def NotTail : Str → Prop
  | [] => True
  | c :: _ => identTail c = false

theorem EndsSymb.notTail {u : Str} (h : EndsSymb u) : NotTail u := by
  cases u with
  | nil => trivial
  | cons c u => exact h.not_tail.1

theorem takeWhile_ident {t u : Str} (ht : ∀ d ∈ t, identTail d = true) (hu : NotTail u) :
    (t ++ u).takeWhile identTail = t ∧ (t ++ u).dropWhile identTail = u := by
  induction t with
  | nil =>
    cases u with
    | nil => exact ⟨rfl, rfl⟩
    | cons c u =>
      have : identTail c = false := hu
      simp [this]
  | cons d t ih =>
    have hd := ht d (.head _)
    obtain ⟨h1, h2⟩ := ih fun d hd => ht d (.tail _ hd)
    simp [hd, h1, h2]

/-- splitting at the first end of a moustache -/
theorem splitClose_first {b : Str} (h1 : ∃ m, b = m ++ str "|}") (h2 : ∀ x y, b = x ++ str "|}" ++ y → y = []) (u : Str) :
    splitClose (b ++ u) = some (b, u) := by
  obtain ⟨m, hm⟩ := h1
  cases hs : splitClose b with
  | none =>
    have := splitClose_some (c := m) (d := [])
    simp only [List.append_nil] at this
    exact absurd (hm ▸ hs) this
  | some p =>
    obtain ⟨x, y⟩ := p
    obtain ⟨c, hc⟩ := splitClose_eq_close hs
    have hy := h2 _ _ hc
    subst hy
    have := splitClose_eq hs
    rw [List.append_nil] at this
    subst this
    exact splitClose_append u hs

theorem IsMoustache.split {c : Str} (h : IsMoustache c) (u : Str) : ∃ b, c = '{' :: '|' :: b ∧ splitClose (b ++ u) = some (b, u) := by
  obtain ⟨m, rfl, hm⟩ := h
  exact ⟨m ++ str "|}", by simp [str], splitClose_first ⟨m, rfl⟩ hm u⟩

/-- the remaining components of a qualified name -/
def dots (cs : List Str) : Str := cs.flatMap ('.' :: ·)

theorem dots_notTail (cs : List Str) {u : Str} (hu : EndsSymb u) : NotTail (dots cs ++ u) := by
  cases cs with
  | nil => exact hu.notTail
  | cons c cs =>
    show identTail '.' = false
    decide

theorem dotted_dots (cs : List Str) (h : ∀ c ∈ cs, IsComp c) (y : PSymb) {u : Str} (hu : EndsSymb u) (n : Nat)
    (hn : (dots cs ++ u).length ≤ n) : dotted n y (dots cs ++ u) = (some (cs.foldl PSymb.push y), u) := by
  induction cs generalizing y n with
  | nil => exact dotted_end hu
  | cons c cs ih =>
    have ih' := fun y n => ih (fun c hc => h c (.tail _ hc)) y n
    have e : dots (c :: cs) ++ u = '.' :: (c ++ (dots cs ++ u)) := by simp [dots]
    rw [e] at hn ⊢
    simp only [List.length_cons, List.length_append] at hn
    cases n with
    | zero => omega
    | succ n =>
      rcases h c (.head _) with hc | hc
      · obtain ⟨d, t, rfl, hd, ht⟩ := (isIdent_iff _).1 hc
        obtain ⟨h1, h2⟩ := takeWhile_ident ht (dots_notTail cs hu)
        rw [List.cons_append, dotted_dot]
        · rw [if_pos hd, h1, h2, ih' _ _ (by simp only [List.length_append, List.length_cons] at hn ⊢; omega)]
          rfl
        · rintro t' rfl
          simp [identHead] at hd
      · obtain ⟨b, rfl, hb⟩ := hc.split (dots cs ++ u)
        simp only [List.cons_append, dotted, hb]
        rw [ih' _ _ (by simp only [List.length_append, List.length_cons] at hn ⊢; omega)]
        rfl

theorem display_dots (s : PSymb) : ∃ c cs, s.display = c ++ dots cs ∧ s.path ++ [s.name] = c :: cs ∧ cs.foldl PSymb.push (PSymb.new c) = s := by
  obtain ⟨path, name⟩ := s
  have h1 : ∀ (path : List Str), path.foldr (fun p r => p ++ '.' :: r) name = (match path ++ [name] with
      | [] => []
      | c :: cs => c ++ dots cs) := by
    intro path
    induction path with
    | nil => simp [dots]
    | cons p path ih =>
      simp only [List.foldr_cons, ih, List.cons_append]
      cases hp : path ++ [name] with
      | nil => simp at hp
      | cons c cs => simp [dots]
  have h2 : ∀ (cs : List Str) (q : List Str) (c : Str), cs.foldl PSymb.push ⟨q, c⟩ = (match (cs.reverse ++ [c]) with
      | [] => ⟨q, c⟩
      | l :: r => ⟨q ++ r.reverse, l⟩) := by
    intro cs
    induction cs with
    | nil => intro q c; simp
    | cons d cs ih =>
      intro q c
      simp only [List.foldl_cons, PSymb.push, ih, List.reverse_cons, List.append_assoc]
      cases hr : cs.reverse with
      | nil => simp
      | cons l r => simp
  cases path with
  | nil => exact ⟨name, [], by simp [PSymb.display, dots], rfl, rfl⟩
  | cons p path =>
    refine ⟨p, path ++ [name], ?_, rfl, ?_⟩
    · exact h1 (p :: path)
    · rw [PSymb.new, h2]
      simp

theorem lexStep_ident {c : Char} {s : Str} (h : identHead c = true) : lexStep (c :: s) = some (lexOther c s) := by
  unfold lexStep
  split
  all_goals
    next h' =>
      cases h' <;> first | rfl | (exfalso; revert h; decide)

theorem lexOther_ident {c : Char} {s : Str} (h : identHead c = true) : lexOther c s =
    (some (lexIdent (c :: s.takeWhile identTail) (s.dropWhile identTail)).1,
      (lexIdent (c :: s.takeWhile identTail) (s.dropWhile identTail)).2) := by
  have : isSpace c = false := by
    cases hs : isSpace c with
    | false => rfl
    | true =>
      have hc : c = ' ' ∨ c = '\t' ∨ c = '\n' ∨ c = '\x0c' := by
        simp only [isSpace, Bool.or_eq_true, beq_iff_eq] at hs
        tauto
      rcases hc with rfl | rfl | rfl | rfl <;> simp [identHead] at h
  simp [lexOther, this, h]

/-- a printed name is lexed to the name -/
theorem lex_symb {s : PSymb} (h : ValidSymb s) {u : Str} (hu : EndsSymb u) : lex (s.display ++ u) = .symb s :: lex u := by
  obtain ⟨c, cs, hd, hp, hs⟩ := display_dots s
  have hcs : ∀ d ∈ c :: cs, IsComp d := by
    intro d hd
    rw [← hp] at hd
    rcases List.mem_append.1 hd with hd | hd
    · exact h.1 d hd
    · simp at hd; exact hd ▸ h.2.1
  have hk : c ∉ keywords := h.2.2 c (by rw [hp]; rfl)
  have hdot := fun n => dotted_dots cs (fun d hd => hcs d (.tail _ hd)) (PSymb.new c) hu n
  have hsy : lexSymb c (dots cs ++ u) = (.symb s, u) := by
    unfold lexSymb
    rw [hdot _ (Nat.le_refl _), hs]
  rw [hd, List.append_assoc]
  rcases hcs c (.head _) with hc | hc
  · obtain ⟨d, t, rfl, hh, ht⟩ := (isIdent_iff _).1 hc
    obtain ⟨h1, h2⟩ := takeWhile_ident ht (dots_notTail cs hu)
    rw [List.cons_append, lex_eq, lexStep_ident hh, lexOther_ident hh, h1, h2]
    have : lexIdent (d :: t) (dots cs ++ u) = (.symb s, u) := by
      simp only [keywords, List.mem_cons, List.not_mem_nil, or_false, not_or] at hk
      simp [lexIdent, hk.1, hk.2.1, hk.2.2, hsy]
    simp only [this]
  · obtain ⟨b, rfl, hb⟩ := hc.split (dots cs ++ u)
    simp only [List.cons_append]
    rw [lex_eq]
    simp only [lexStep, moustache, hb, hsy]

/-! ## The symbols that the lexer yields -/

theorem splitClose_isMoustache {s a b : Str} (h : splitClose s = some (a, b)) : IsMoustache ('{' :: '|' :: a) := by
  have key : (∃ m, a = m ++ str "|}") ∧ ∀ x y, a = x ++ str "|}" ++ y → y = [] := by
    fun_induction splitClose s generalizing a b with
    | case1 => simp at h
    | case2 =>
      simp only [Option.some.injEq, Prod.mk.injEq] at h
      obtain ⟨rfl, rfl⟩ := h
      refine ⟨⟨[], rfl⟩, fun x y hxy => ?_⟩
      have := congrArg List.length hxy
      simp [str] at this
      exact List.length_eq_zero_iff.1 (by omega)
    | case3 => simp at h
    | case4 c s hne a' b' hs ih =>
      simp only [Option.some.injEq, Prod.mk.injEq] at h
      obtain ⟨rfl, rfl⟩ := h
      obtain ⟨⟨m, hm⟩, h2⟩ := ih hs
      refine ⟨⟨c :: m, by rw [hm]; rfl⟩, fun x y hxy => ?_⟩
      cases x with
      | nil =>
        have hxy' : c :: a' = '|' :: '}' :: y := hxy
        have h3 := splitClose_eq hs
        rw [(List.cons.inj hxy').2] at h3
        exact (hne _ (List.cons.inj hxy').1 h3).elim
      | cons d x =>
        have hxy' : c :: a' = d :: (x ++ str "|}" ++ y) := hxy
        exact h2 x y (List.cons.inj hxy').2
  obtain ⟨⟨m, hm⟩, h2⟩ := key
  exact ⟨m, by rw [hm]; simp [str], fun x y hxy => h2 x y (hm ▸ hxy)⟩

theorem mem_takeWhile {p : Char → Bool} {s : Str} {d : Char} (h : d ∈ s.takeWhile p) : p d = true := by
  induction s with
  | nil => simp at h
  | cons c s ih =>
    rw [List.takeWhile_cons] at h
    split at h
    · next hc =>
      rcases List.mem_cons.1 h with rfl | h
      · exact hc
      · exact ih h
    · simp at h

theorem takeWhile_isIdent {c : Char} (s : Str) (h : identHead c = true) : IsIdent (c :: s.takeWhile identTail) :=
  (isIdent_iff _).2 ⟨c, _, rfl, h, fun _ hd => mem_takeWhile hd⟩

/-- the components of a qualified name -/
def comps (s : PSymb) : List Str := s.path ++ [s.name]

theorem dotted_valid {n : Nat} {y y' : PSymb} {s r : Str} (h : dotted n y s = (some y', r)) (hy : ∀ c ∈ comps y, IsComp c) :
    (∀ c ∈ comps y', IsComp c) ∧ (comps y').head? = (comps y).head? := by
  have hpush : ∀ (y : PSymb) c, (∀ c ∈ comps y, IsComp c) → IsComp c →
      (∀ d ∈ comps (y.push c), IsComp d) ∧ (comps (y.push c)).head? = (comps y).head? := by
    intro y c hy hc
    have : comps (y.push c) = comps y ++ [c] := rfl
    rw [this]
    refine ⟨fun d hd => ?_, ?_⟩
    · rcases List.mem_append.1 hd with hd | hd
      · exact hy d hd
      · simp at hd; exact hd ▸ hc
    · cases hy : comps y with
      | nil => simp [comps] at hy
      | cons a l => rfl
  induction n generalizing y s with
  | zero => cases h; exact ⟨hy, rfl⟩
  | succ n ih =>
    unfold dotted at h
    split at h
    · next after =>
      split at h
      · next am =>
        split at h
        · cases h
        · next a b hs =>
          have h1 := hpush y _ hy (.inr (splitClose_isMoustache hs))
          have h2 := ih h h1.1
          exact ⟨h2.1, h2.2.trans h1.2⟩
      · next c tail _ =>
        split at h
        · next hc =>
          have h1 := hpush y _ hy (.inl (takeWhile_isIdent tail hc))
          have h2 := ih h h1.1
          exact ⟨h2.1, h2.2.trans h1.2⟩
        · cases h; exact ⟨hy, rfl⟩
      · cases h; exact ⟨hy, rfl⟩
    · cases h; exact ⟨hy, rfl⟩

theorem lexSymb_valid {c s r : Str} {y : PSymb} (hc : IsComp c) (hk : c ∉ keywords) (h : lexSymb c s = (.symb y, r)) : ValidSymb y := by
  unfold lexSymb at h
  split at h
  · next y' r' hd =>
    cases h
    have h1 : ∀ d ∈ comps (PSymb.new c), IsComp d := by
      intro d hd
      have : d = c := by simpa [comps, PSymb.new] using hd
      exact this ▸ hc
    obtain ⟨h2, h3⟩ := dotted_valid hd h1
    refine ⟨fun d hd => h2 d (List.mem_append_left _ hd), h2 _ (List.mem_append_right _ (.head _)), fun d hd => ?_⟩
    have : (comps y).head? = some d := hd
    rw [h3] at this
    cases this
    exact hk
  · cases h

theorem lexStep_valid {s r : Str} {y : PSymb} (h : lexStep s = some (some (.symb y), r)) : ValidSymb y := by
  have h1 : ∀ s, comment1 s ≠ (some (.symb y), r) := by
    intro s h
    unfold comment1 at h
    split at h <;> simp at h
  have h2 : ∀ s, moustache s = (some (.symb y), r) → ValidSymb y := by
    intro s h
    unfold moustache at h
    split at h
    · simp at h
    · next a b hs =>
      refine lexSymb_valid (.inr (splitClose_isMoustache hs)) ?_ (r := r) (s := b) ?_
      · simp [keywords, str]
      · simp only [Prod.mk.injEq, Option.some.injEq] at h
        exact Prod.ext h.1 h.2
  have h3 : ∀ c s, lexOther c s = (some (.symb y), r) → ValidSymb y := by
    intro c s h
    unfold lexOther at h
    split at h
    · simp at h
    · split at h
      · next hc =>
        simp only [Prod.mk.injEq, Option.some.injEq] at h
        have h' : lexIdent (c :: s.takeWhile identTail) (s.dropWhile identTail) = (.symb y, r) := Prod.ext h.1 h.2
        unfold lexIdent at h'
        split at h'
        · cases h'
        · split at h'
          · cases h'
          · split at h'
            · cases h'
            · next k1 k2 k3 =>
              exact lexSymb_valid (.inl (takeWhile_isIdent s hc)) (by simp [keywords, k1, k2, k3]) h'
      · simp at h
  unfold lexStep at h
  split at h
  case h_1 => simp at h
  case h_5 => exact absurd (Option.some.inj h) (h1 _)
  case h_15 => exact h2 _ (Option.some.inj h)
  case h_16 => exact h3 _ _ (Option.some.inj h)
  all_goals simp at h

theorem lex_valid {s : Str} {y : PSymb} (h : .symb y ∈ lex s) : ValidSymb y := by
  revert h
  refine lex_induct (P := fun s => .symb y ∈ lex s → ValidSymb y) ?_ s
  intro s ih h
  rw [lex_eq] at h
  cases hs : lexStep s with
  | none => rw [hs] at h; cases h
  | some p =>
    obtain ⟨o, r⟩ := p
    rw [hs] at h
    cases o with
    | none => exact ih _ _ hs h
    | some t =>
      simp only [List.mem_cons] at h
      rcases h with rfl | h
      · exact lexStep_valid hs
      · exact ih _ _ hs h

/-! ## The formatter -/

/-- what may follow a printed token -/
def Sep (u : Str) : Prop := u = [] ∨ (∃ v, u = ' ' :: v) ∨ (∃ v, u = ']' :: v) ∨ (∃ v, u = ')' :: v) ∨ (∃ v, u = ',' :: v) ∨ ∃ v, u = '.' :: '\n' :: v

theorem Sep.endsSymb {u : Str} (h : Sep u) : EndsSymb u := by
  rcases h with rfl | ⟨v, rfl⟩ | ⟨v, rfl⟩ | ⟨v, rfl⟩ | ⟨v, rfl⟩ | ⟨v, rfl⟩
  · trivial
  all_goals exact ⟨by decide, by decide⟩

/-- a token that can be printed and lexed again -/
def Token.Valid : Token → Prop
  | .symb s => ValidSymb s
  | .comment _ => False
  | .error => False
  | _ => True

theorem lex_keyword {k u : Str} {t : Token} (hk : (k, t) ∈ [(str "def", Token.def_), (str "thm", .thm), (str "injective", .inj)])
    (hu : NotTail u) : lex (k ++ u) = t :: lex u := by
  simp only [List.mem_cons, Prod.mk.injEq, List.not_mem_nil, or_false] at hk
  have key : ∀ (c : Char) (s : Str), identHead c = true → (∀ d ∈ s, identTail d = true) → ∀ t', (∀ r, lexIdent (c :: s) r = (t', r)) →
      lex (c :: s ++ u) = t' :: lex u := by
    intro c s hc hs t' ht
    obtain ⟨h1, h2⟩ := takeWhile_ident hs hu
    rw [List.cons_append, lex_eq, lexStep_ident hc, lexOther_ident hc, h1, h2, ht]
  rcases hk with ⟨rfl, rfl⟩ | ⟨rfl, rfl⟩ | ⟨rfl, rfl⟩
  · exact key 'd' (str "ef") (by decide) (by decide) _ fun r => rfl
  · exact key 't' (str "hm") (by decide) (by decide) _ fun r => rfl
  · exact key 'i' (str "njective") (by decide) (by decide) _ fun r => rfl

theorem lex_step {s r : Str} {t : Token} (h : lexStep s = some (some t, r)) : lex s = t :: lex r := by
  rw [lex_eq, h]

/-- a printed token is lexed to the token -/
theorem lex_display {t : Token} (ht : t.Valid) {d : Str} (hd : t.display = some d) {u : Str} (hu : noSpaceAfter t = false → Sep u)
    (hl : ∀ v, u ≠ ';' :: v) : lex (d ++ u) = t :: lex u := by
  cases t with
  | symb s => cases hd; exact lex_symb ht (hu rfl).endsSymb
  | comment n => exact ht.elim
  | error => exact ht.elim
  | def_ => cases hd; exact lex_keyword (by simp) (hu rfl).endsSymb.notTail
  | thm => cases hd; exact lex_keyword (by simp) (hu rfl).endsSymb.notTail
  | inj => cases hd; exact lex_keyword (by simp) (hu rfl).endsSymb.notTail
  | lbrk => cases hd; exact lex_step rfl
  | dot => cases hd; exact lex_step rfl
  | lpar =>
    cases hd
    apply lex_step
    show lexStep ('(' :: u) = _
    exact lexStep.eq_6 u hl
  | _ =>
    cases hd
    rcases hu rfl with rfl | ⟨v, rfl⟩ | ⟨v, rfl⟩ | ⟨v, rfl⟩ | ⟨v, rfl⟩ | ⟨v, rfl⟩ <;> exact lex_step rfl

theorem display_head {t : Token} (ht : t.Valid) {d : Str} (hd : t.display = some d) : ∃ c s, d = c :: s ∧ c ≠ ';' := by
  cases t with
  | symb s =>
    cases hd
    obtain ⟨c, cs, h1, h2, _⟩ := display_dots s
    have hc : IsComp c := by
      have : c ∈ s.path ++ [s.name] := h2 ▸ .head _
      rcases List.mem_append.1 this with h | h
      · exact ht.1 c h
      · simp at h; exact h ▸ ht.2.1
    rw [h1]
    rcases hc with ⟨a, r, rfl, ha, _⟩ | ⟨b, rfl, _⟩
    · refine ⟨a, _, rfl, ?_⟩
      rintro rfl
      rw [← identHead_iff] at ha; revert ha
      decide
    · exact ⟨'{', _, rfl, by decide⟩
  | comment n => exact ht.elim
  | error => exact ht.elim
  | _ => cases hd; exact ⟨_, _, rfl, by decide⟩

theorem printTokens_lex : ∀ (ts : List Token) (b : Bool), (∀ t ∈ ts, t.Valid) →
    ∃ out, printTokensFrom b ts = some out ∧ lex out = ts ∧ (b = true → Sep out) ∧ ∀ v, out ≠ ';' :: v := by
  intro ts
  induction ts with
  | nil => intro b _; exact ⟨[], rfl, rfl, fun _ => .inl rfl, by simp⟩
  | cons t ts ih =>
    intro b hv
    obtain ⟨out, h1, h2, h3, h4⟩ := ih (!noSpaceAfter t) fun t h => hv t (.tail _ h)
    have ht := hv t (.head _)
    obtain ⟨d, hd⟩ : ∃ d, t.display = some d := by cases t <;> first | exact ⟨_, rfl⟩ | exact ht.elim
    obtain ⟨c, r, hc, hne⟩ := display_head ht hd
    refine ⟨_, by simp only [printTokensFrom, printToken, hd, h1, Option.map_some]; rfl, ?_, ?_, ?_⟩
    · have key : lex (d ++ ((if t = .dot then str "\n" else []) ++ out)) = t :: ts := by
        split
        · next h =>
          subst h
          cases hd
          rw [← h2]
          refine (lex_step rfl).trans (congrArg _ ?_)
          exact lex_space' (by decide)
        · next h =>
          rw [← h2]
          exact lex_display ht hd (fun hn => h3 (by rw [hn]; rfl)) h4
      split
      · simp only [str, List.append_assoc]
        exact (lex_space' (by decide)).trans key
      · simp only [List.append_assoc, List.nil_append]; exact key
    · rintro rfl
      simp only [Bool.true_and]
      cases hb : noSpaceBefore t with
      | false => exact .inr (.inl ⟨_, rfl⟩)
      | true =>
        cases t <;> try cases hb
        · cases hd; exact .inr (.inr (.inl ⟨_, rfl⟩))
        · cases hd; exact .inr (.inr (.inr (.inl ⟨_, rfl⟩)))
        · cases hd; exact .inr (.inr (.inr (.inr (.inl ⟨_, rfl⟩))))
        · cases hd; exact .inr (.inr (.inr (.inr (.inr ⟨_, rfl⟩))))
    · intro v
      split
      · intro h; cases h
      · subst hc; intro h; simp at h; exact hne h.1

end Kontroli
