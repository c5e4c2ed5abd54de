import Verif.Model.Display
import Verif.Spec.Display
import Verif.Proofs.LexSymb
import Verif.Proofs.Bench

/-!
# Printed terms can be read in one way only
-/

namespace Kontroli

section
variable (nm : Sym → Str)

mutual
  /-- a shape as text -/
  def Shape.text : Shape → Str
    | .kind => str "Kind"
    | .type => str "Type"
    | .const s => nm s
    | .var n => str "β" ++ decimal n
    | .mvar n => str "μ" ++ decimal n
    | .joker => str "_"
    | .app h as => str "(" ++ Shape.text h ++ Shape.textArgs as ++ str ")"
    | .prod id a b => str "(Π " ++ id ++ str " : " ++ Shape.text a ++ str ". " ++ Shape.text b ++ str ")"
    | .lam id b => str "(λ " ++ id ++ str ". " ++ Shape.text b ++ str ")"
    | .alam id a b => str "(λ " ++ id ++ str " : " ++ Shape.text a ++ str ". " ++ Shape.text b ++ str ")"
  /-- arguments as text -/
  def Shape.textArgs : List Shape → Str
    | [] => []
    | a :: as => str " " ++ Shape.text a ++ Shape.textArgs as
end

variable (K : Sym → Prop)

mutual
  /-- shapes of clear terms -/
  def Shape.Fine : Shape → Prop
    | .const s => K s
    | .app h as => Shape.Fine h ∧ as ≠ [] ∧ Shape.FineList as
    | .prod id a b => IsBinder id ∧ Shape.Fine a ∧ Shape.Fine b
    | .lam id b => IsBinder id ∧ Shape.Fine b
    | .alam id a b => IsBinder id ∧ Shape.Fine a ∧ Shape.Fine b
    | _ => True
  /-- shapes of clear terms -/
  def Shape.FineList : List Shape → Prop
    | [] => True
    | a :: as => Shape.Fine a ∧ Shape.FineList as
end

end

/-! ## Terms and their shapes -/

section
variable {nm : Sym → Str} {K : Sym → Prop}

theorem showApp_appl (h : Shape) (as : List Shape) (ts : List Str) (ht : ts = as.map (Shape.text nm)) :
    showApp (h.text nm) ts = (Shape.appl h as).text nm := by
  have key : ∀ as : List Shape, Shape.textArgs nm as = (as.map (Shape.text nm)).flatMap (fun t => str " " ++ t) := by
    intro as
    induction as with
    | nil => rfl
    | cons a as ih => rw [Shape.textArgs, ih]; simp
  subst ht
  cases as with
  | nil => rfl
  | cons a as =>
    rw [Shape.appl, Shape.text, key]
    rfl

mutual
  theorem LTerm.show_shape : ∀ t : LTerm, t.show nm = t.shape.text nm
    | .type => rfl
    | .const _ => rfl
    | .var _ => rfl
    | .comb c => LComb.show_shape c
  theorem LComb.show_shape : ∀ c : Comb Str LTerm, LComb.show nm c = (LComb.shape c).text nm
    | .appl f as => by
      rw [LComb.show, LComb.shape, LTerm.show_shape f]
      exact showApp_appl _ _ _ (LTerm.showList_shape as)
    | .prod id a b => by
      rw [LComb.show, LComb.shape, LTerm.show_shape a, LTerm.show_shape b]; rfl
    | .abst id none b => by
      rw [LComb.show, LComb.shape, LTerm.show_shape b]; rfl
    | .abst id (some a) b => by
      rw [LComb.show, LComb.shape, LTerm.show_shape b, LTerm.showAbst, LTerm.shapeAbs, LTerm.show_shape a]; rfl
  theorem LTerm.showList_shape : ∀ ts : List LTerm, LTerm.showList nm ts = (LTerm.shapes ts).map (Shape.text nm)
    | [] => rfl
    | t :: ts => by rw [LTerm.showList, LTerm.shapes, LTerm.show_shape t, LTerm.showList_shape ts]; rfl
end

mutual
  theorem STerm.show_shape : ∀ t : STerm, t.show nm = t.shape.text nm
    | .kind => rfl
    | .type => rfl
    | .const _ => rfl
    | .var _ => rfl
    | .lcomb c => LComb.show_shape c
    | .scomb c => SComb.show_shape c
  theorem SComb.show_shape : ∀ c : Comb Str STerm, SComb.show nm c = (SComb.shape c).text nm
    | .appl f as => by
      rw [SComb.show, SComb.shape, STerm.show_shape f]
      exact showApp_appl _ _ _ (STerm.showList_shape as)
    | .prod id a b => by
      rw [SComb.show, SComb.shape, STerm.show_shape a, STerm.show_shape b]; rfl
    | .abst id none b => by
      rw [SComb.show, SComb.shape, STerm.show_shape b]; rfl
    | .abst id (some a) b => by
      rw [SComb.show, SComb.shape, STerm.show_shape b, STerm.showAbst, STerm.shapeAbs, STerm.show_shape a]; rfl
  theorem STerm.showList_shape : ∀ ts : List STerm, STerm.showList nm ts = (STerm.shapes ts).map (Shape.text nm)
    | [] => rfl
    | t :: ts => by rw [STerm.showList, STerm.shapes, STerm.show_shape t, STerm.showList_shape ts]; rfl
end

mutual
  theorem Pattern.show_shape : ∀ p : Pattern, p.show nm = p.shape.text nm
    | .symb s ps => by
      rw [Pattern.show, Pattern.shape]
      exact showApp_appl (.const s) _ _ (Pattern.showList_shape ps)
    | .mvar _ => rfl
    | .joker => rfl
  theorem Pattern.showList_shape : ∀ ts : List Pattern, Pattern.showList nm ts = (Pattern.shapes ts).map (Shape.text nm)
    | [] => rfl
    | t :: ts => by rw [Pattern.showList, Pattern.shapes, Pattern.show_shape t, Pattern.showList_shape ts]; rfl
end

theorem Shape.Fine.appl {h : Shape} {as : List Shape} (hh : h.Fine K) (ha : Shape.FineList K as) : (Shape.appl h as).Fine K := by
  cases as with
  | nil => exact hh
  | cons a as => exact ⟨hh, by simp, ha⟩

mutual
  theorem LTerm.Clear.fine : ∀ {t : LTerm}, t.Clear K → t.shape.Fine K
    | .type, _ => trivial
    | .const _, h => h
    | .var _, _ => trivial
    | .comb _, h => LComb.Clear.fine h
  theorem LComb.Clear.fine : ∀ {c : Comb Str LTerm}, LComb.Clear K c → (LComb.shape c).Fine K
    | .appl _ _, h => Shape.Fine.appl (LTerm.Clear.fine h.1) (LTerm.ClearList.fine h.2)
    | .prod _ _ _, h => ⟨h.1, LTerm.Clear.fine h.2.1, LTerm.Clear.fine h.2.2⟩
    | .abst _ none _, h => ⟨h.1, LTerm.Clear.fine h.2.2⟩
    | .abst _ (some _) _, h => ⟨h.1, LTerm.Clear.fine h.2.1, LTerm.Clear.fine h.2.2⟩
  theorem LTerm.ClearList.fine : ∀ {ts : List LTerm}, LTerm.ClearList K ts → Shape.FineList K (LTerm.shapes ts)
    | [], _ => trivial
    | _ :: _, h => ⟨LTerm.Clear.fine h.1, LTerm.ClearList.fine h.2⟩
end

mutual
  theorem STerm.Clear.fine : ∀ {t : STerm}, t.Clear K → t.shape.Fine K
    | .kind, _ => trivial
    | .type, _ => trivial
    | .const _, h => h
    | .var _, _ => trivial
    | .lcomb _, h => LComb.Clear.fine h
    | .scomb _, h => SComb.Clear.fine h
  theorem SComb.Clear.fine : ∀ {c : Comb Str STerm}, SComb.Clear K c → (SComb.shape c).Fine K
    | .appl _ _, h => Shape.Fine.appl (STerm.Clear.fine h.1) (STerm.ClearList.fine h.2)
    | .prod _ _ _, h => ⟨h.1, STerm.Clear.fine h.2.1, STerm.Clear.fine h.2.2⟩
    | .abst _ none _, h => ⟨h.1, STerm.Clear.fine h.2.2⟩
    | .abst _ (some _) _, h => ⟨h.1, STerm.Clear.fine h.2.1, STerm.Clear.fine h.2.2⟩
  theorem STerm.ClearList.fine : ∀ {ts : List STerm}, STerm.ClearList K ts → Shape.FineList K (STerm.shapes ts)
    | [], _ => trivial
    | _ :: _, h => ⟨STerm.Clear.fine h.1, STerm.ClearList.fine h.2⟩
end

mutual
  theorem Pattern.Clear.fine : ∀ {p : Pattern}, p.Clear K → p.shape.Fine K
    | .symb _ _, h => Shape.Fine.appl (h := .const _) h.1 (Pattern.ClearList.fine h.2)
    | .mvar _, _ => trivial
    | .joker, _ => trivial
  theorem Pattern.ClearList.fine : ∀ {ps : List Pattern}, Pattern.ClearList K ps → Shape.FineList K (Pattern.shapes ps)
    | [], _ => trivial
    | _ :: _, h => ⟨Pattern.Clear.fine h.1, Pattern.ClearList.fine h.2⟩
end

/-! ## Reading words -/

/-- what may follow a printed term -/
def Delim (r : Str) : Prop := r = [] ∨ ∃ c s, r = c :: s ∧ (c = ' ' ∨ c = ')' ∨ c = '.')

theorem Delim.space (s : Str) : Delim (str " " ++ s) := .inr ⟨' ', s, rfl, .inl rfl⟩
theorem Delim.close (s : Str) : Delim (str ")" ++ s) := .inr ⟨')', s, rfl, .inr (.inl rfl)⟩
theorem Delim.dot (s : Str) : Delim (str ". " ++ s) := .inr ⟨'.', ' ' :: s, rfl, .inr (.inr rfl)⟩
theorem Delim.colon (s : Str) : Delim (str " : " ++ s) := .inr ⟨' ', ':' :: ' ' :: s, rfl, .inl rfl⟩

theorem Delim.head {c : Char} {s : Str} (h : Delim (c :: s)) : identTail c = false ∧ c.isDigit = false ∧ c ≠ '{' ∧ c ≠ 'β' ∧ c ≠ 'μ' ∧ c ≠ '(' := by
  rcases h with h | ⟨c', s', e, h⟩
  · cases h
  · cases e
    rcases h with rfl | rfl | rfl <;> decide

theorem takeWhile_delim {p : Char → Bool} {w r : Str} (hw : ∀ c ∈ w, p c = true) (hr : ∀ c s, r = c :: s → p c = false) : (w ++ r).takeWhile p = w := by
  induction w with
  | nil =>
    cases r with
    | nil => rfl
    | cons c s => simp [hr c s rfl]
  | cons c w ih =>
    rw [List.cons_append, List.takeWhile_cons, if_pos (hw c List.mem_cons_self), ih fun c h => hw c (List.mem_cons_of_mem _ h)]

theorem binder_unique {w w' r r' : Str} (hw : IsBinder w) (hw' : IsBinder w') (hr : Delim r) (hr' : Delim r') (h : w ++ r = w' ++ r') :
    w = w' ∧ r = r' := by
  -- the word before `r`, as a function of the text
  let f : Str → Str := fun s => match s with
    | '{' :: '|' :: s => match splitClose s with
      | some (a, _) => '{' :: '|' :: a
      | none => []
    | s => s.takeWhile identTail
  have key : ∀ {w r : Str}, IsBinder w → Delim r → f (w ++ r) = w := by
    intro w r hw hr
    have hd : ∀ c s, r = c :: s → identTail c = false := by
      rintro c s rfl
      exact hr.head.1
    have hd' : ∀ c s, r = c :: s → c ≠ '{' := by
      rintro c s rfl
      exact hr.head.2.2.1
    rcases hw with rfl | hw | ⟨m, rfl, hm⟩
    · cases r with
      | nil => rfl
      | cons c s =>
        have h1 := hd' c s rfl
        have h2 := hd c s rfl
        show f (c :: s) = []
        simp only [f]
        split
        · next e => cases e; exact absurd rfl h1
        · simp [h2]
    · obtain ⟨c, t, rfl, h1, h2⟩ := (isIdent_iff w).1 hw
      have h3 : c ≠ '{' := by
        rintro rfl
        exact absurd h1 (by decide)
      have h4 := takeWhile_delim (p := identTail) (w := c :: t) (r := r) (by
        intro d hd
        rcases List.mem_cons.1 hd with rfl | hd
        · simp [identTail, h1]
        · exact h2 d hd) hd
      simp only [f]
      split
      · next e => exact absurd (List.cons.inj e).1 h3
      · exact h4
    · have h1 := splitClose_first (b := m ++ str "|}") ⟨m, rfl⟩ hm r
      have e : str "{|" ++ m ++ str "|}" ++ r = '{' :: '|' :: (m ++ str "|}" ++ r) := by simp [str]
      rw [e]
      simp only [f, h1]
      simp [str]
  have h1 := key hw hr
  have h2 := key hw' hr'
  rw [h, h2] at h1
  subst h1
  exact ⟨rfl, List.append_cancel_left h⟩

theorem decimal_unique {n m : Nat} {r r' : Str} (hr : Delim r) (hr' : Delim r') (h : decimal n ++ r = decimal m ++ r') : n = m ∧ r = r' := by
  have key : ∀ {n : Nat} {r : Str}, Delim r → (decimal n ++ r).takeWhile Char.isDigit = decimal n := by
    intro n r hr
    refine takeWhile_delim (fun c hc => decimal_digit hc) ?_
    rintro c s rfl
    exact hr.head.2.1
  have h1 := key (n := n) hr
  have h2 := key (n := m) hr'
  rw [h, h2] at h1
  rw [← h1] at h
  exact ⟨(decimal_inj h1).symm, List.append_cancel_left h⟩

/-! ## Reading terms -/

/-- shapes that are printed as a word -/
def Shape.word (nm : Sym → Str) : Shape → Option Str
  | .kind => some (str "Kind")
  | .type => some (str "Type")
  | .const s => some (nm s)
  | .joker => some (str "_")
  | _ => none

variable (hn : GoodNames K nm)
include hn

theorem Shape.word_comp {s : Shape} (hs : s.Fine K) {w : Str} (h : s.word nm = some w) : IsComp w := by
  have hi : ∀ {w : Str}, (∃ h t, w = h :: t ∧ identHead h = true ∧ ∀ d ∈ t, identTail d = true) → IsComp w :=
    fun h => .inl ((isIdent_iff _).2 h)
  cases s <;> simp only [Shape.word, Option.some.injEq, reduceCtorEq] at h <;> subst h
  · exact hi ⟨'K', ['i', 'n', 'd'], rfl, by decide, by decide⟩
  · exact hi ⟨'T', ['y', 'p', 'e'], rfl, by decide, by decide⟩
  · exact hn.comp _ hs
  · exact hi ⟨'_', [], rfl, by decide, by decide⟩

theorem Shape.word_inj {s s' : Shape} (hs : s.Fine K) (hs' : s'.Fine K) {w : Str} (h : s.word nm = some w) (h' : s'.word nm = some w) : s = s' := by
  have f : ∀ {s : Sym}, K s → nm s ≠ str "Kind" ∧ nm s ≠ str "Type" ∧ nm s ≠ str "_" := by
    intro s hs
    simpa using hn.free s hs
  cases s <;> simp only [Shape.word, Option.some.injEq, reduceCtorEq] at h <;> subst h <;>
    cases s' <;> simp only [Shape.word, Option.some.injEq, reduceCtorEq] at h'
  · rfl
  · cases h'
  · exact absurd h' (f hs').1
  · cases h'
  · cases h'
  · rfl
  · exact absurd h' (f hs').2.1
  · cases h'
  · exact absurd h'.symm (f hs).1
  · exact absurd h'.symm (f hs).2.1
  · rw [hn.inj _ _ hs' hs h']
  · exact absurd h'.symm (f hs).2.2
  · cases h'
  · cases h'
  · exact absurd h' (f hs').2.2
  · rfl

/-- what the beginning of a text tells about the term -/
def tagOf : Str → Nat
  | 'β' :: _ => 1
  | 'μ' :: _ => 2
  | '(' :: 'Π' :: _ => 3
  | '(' :: 'λ' :: _ => 4
  | '(' :: _ => 5
  | _ => 0

omit hn in
/-- what the term tells about its text -/
def Shape.tag : Shape → Nat
  | .var _ => 1
  | .mvar _ => 2
  | .prod _ _ _ => 3
  | .lam _ _ => 4
  | .alam _ _ _ => 4
  | .app _ _ => 5
  | _ => 0

/-- how a printed term begins -/
theorem Shape.text_head {s : Shape} (hs : s.Fine K) : ∃ c t, s.text nm = c :: t ∧ c ≠ 'Π' ∧ c ≠ 'λ' ∧
    (s.word nm ≠ none → c ≠ 'β' ∧ c ≠ 'μ' ∧ c ≠ '(') := by
  have hcomp : ∀ {w : Str}, IsComp w → ∃ c t, w = c :: t ∧ c ≠ 'Π' ∧ c ≠ 'λ' ∧ (c ≠ 'β' ∧ c ≠ 'μ' ∧ c ≠ '(') := by
    intro w hw
    rcases hw with hw | ⟨m, rfl, -⟩
    · obtain ⟨c, t, rfl, h1, -⟩ := (isIdent_iff w).1 hw
      refine ⟨c, t, rfl, ?_⟩
      refine ⟨?_, ?_, ?_, ?_, ?_⟩ <;> (rintro rfl; exact absurd h1 (by decide))
    · exact ⟨'{', '|' :: (m ++ str "|}"), by simp [str], by decide, by decide, by decide, by decide, by decide⟩
  cases s with
  | kind => exact ⟨'K', ['i', 'n', 'd'], rfl, by decide, by decide, fun _ => by decide⟩
  | type => exact ⟨'T', ['y', 'p', 'e'], rfl, by decide, by decide, fun _ => by decide⟩
  | joker => exact ⟨'_', [], rfl, by decide, by decide, fun _ => by decide⟩
  | const s =>
    obtain ⟨c, t, h1, h2, h3, h4⟩ := hcomp (hn.comp s hs)
    exact ⟨c, t, h1, h2, h3, fun _ => h4⟩
  | var n => exact ⟨'β', decimal n, rfl, by decide, by decide, fun h => absurd rfl h⟩
  | mvar n => exact ⟨'μ', decimal n, rfl, by decide, by decide, fun h => absurd rfl h⟩
  | app h as => exact ⟨'(', _, by rw [Shape.text]; rfl, by decide, by decide, fun h => absurd rfl h⟩
  | prod id a b => exact ⟨'(', _, by rw [Shape.text]; rfl, by decide, by decide, fun h => absurd rfl h⟩
  | lam id b => exact ⟨'(', _, by rw [Shape.text]; rfl, by decide, by decide, fun h => absurd rfl h⟩
  | alam id a b => exact ⟨'(', _, by rw [Shape.text]; rfl, by decide, by decide, fun h => absurd rfl h⟩

theorem Shape.tag_text {s : Shape} (hs : s.Fine K) (r : Str) : tagOf (s.text nm ++ r) = s.tag := by
  have w0 : ∀ {s : Shape}, s.Fine K → s.word nm ≠ none → tagOf (s.text nm ++ r) = 0 := by
    intro s hs hw
    obtain ⟨c, t, e, -, -, h⟩ := Shape.text_head hn hs
    obtain ⟨h1, h2, h3⟩ := h hw
    rw [e, List.cons_append]
    unfold tagOf
    split <;> first | rfl | (next e => have e := (List.cons.inj e).1; first | exact absurd e h1 | exact absurd e h2 | exact absurd e h3)
  cases s with
  | kind => rfl
  | type => rfl
  | joker => rfl
  | const s => exact w0 hs (by simp [Shape.word])
  | var n => rfl
  | mvar n => rfl
  | prod id a b => rw [Shape.text]; rfl
  | lam id b => rw [Shape.text]; rfl
  | alam id a b => rw [Shape.text]; rfl
  | app h as =>
    obtain ⟨c, t, e, h1, h2, -⟩ := Shape.text_head hn (s := h) hs.1
    rw [Shape.text, e]
    generalize hx : ((t ++ Shape.textArgs nm as) ++ str ")") ++ r = x
    have e' : str "(" ++ c :: t ++ Shape.textArgs nm as ++ str ")" ++ r = '(' :: c :: x := by rw [← hx]; rfl
    rw [e']
    unfold tagOf
    split
    · next e => exact absurd (List.cons.inj e).1 (by decide)
    · next e => exact absurd (List.cons.inj e).1 (by decide)
    · next e => exact absurd (List.cons.inj (List.cons.inj e).2).1 h1
    · next e => exact absurd (List.cons.inj (List.cons.inj e).2).1 h2
    · rfl
    · next h => exact absurd rfl (h _)

theorem Shape.text_unique (n : Nat) : ∀ {s s' : Shape} {r r' : Str}, (s.text nm).length ≤ n → s.Fine K → s'.Fine K → Delim r → Delim r' →
    s.text nm ++ r = s'.text nm ++ r' → s = s' ∧ r = r' := by
  induction n with
  | zero =>
    intro s s' r r' hl hs
    obtain ⟨c, t, e, -⟩ := Shape.text_head hn hs
    rw [e] at hl
    simp at hl
  | succ n ih =>
    intro s s' r r' hl hs hs' hr hr' h
    have htag : s.tag = s'.tag := by rw [← Shape.tag_text hn hs r, ← Shape.tag_text hn hs' r', h]
    -- words
    have hword : ∀ {w w' : Str}, s.word nm = some w → s'.word nm = some w' → s.text nm = w → s'.text nm = w' → s = s' ∧ r = r' := by
      intro w w' h1 h2 e1 e2
      rw [e1, e2] at h
      obtain ⟨rfl, e⟩ := binder_unique (.inr (Shape.word_comp hn hs h1)) (.inr (Shape.word_comp hn hs' h2)) hr hr' h
      exact ⟨Shape.word_inj hn hs hs' h1 h2, e⟩
    -- arguments
    have hargs : ∀ (as as' : List Shape) {r r' : Str}, (Shape.textArgs nm as).length ≤ n → Shape.FineList K as → Shape.FineList K as' →
        Shape.textArgs nm as ++ (str ")" ++ r) = Shape.textArgs nm as' ++ (str ")" ++ r') → as = as' ∧ r = r' := by
      intro as
      induction as with
      | nil =>
        intro as' r r' _ _ _ e
        cases as' with
        | nil => exact ⟨rfl, List.append_cancel_left e⟩
        | cons a' as' =>
          rw [Shape.textArgs, Shape.textArgs] at e
          cases (List.cons.inj e).1
      | cons a as ih2 =>
        intro as' r r' hl hf hf' e
        cases as' with
        | nil =>
          rw [Shape.textArgs, Shape.textArgs] at e
          cases (List.cons.inj e).1
        | cons a' as' =>
          rw [Shape.textArgs] at hl
          simp only [List.length_append] at hl
          rw [Shape.textArgs, Shape.textArgs] at e
          simp only [List.append_assoc] at e
          have e := List.append_cancel_left e
          have hdel : ∀ (as : List Shape) (r : Str), Delim (Shape.textArgs nm as ++ (str ")" ++ r)) := by
            intro as r
            cases as with
            | nil => exact Delim.close r
            | cons a as => rw [Shape.textArgs]; simp only [List.append_assoc]; exact Delim.space _
          obtain ⟨rfl, e2⟩ := ih (by omega) hf.1 hf'.1 (hdel as r) (hdel as' r') e
          obtain ⟨rfl, rfl⟩ := ih2 as' (by omega) hf.2 hf'.2 e2
          exact ⟨rfl, rfl⟩
    have hdel : ∀ {as : List Shape} {r : Str}, Delim (Shape.textArgs nm as ++ (str ")" ++ r)) := by
      intro as r
      cases as with
      | nil => exact Delim.close r
      | cons a as => rw [Shape.textArgs]; simp only [List.append_assoc]; exact Delim.space _
    have tri : ∀ {id id' : Str} {a a' b b' : Shape}, (a.text nm).length ≤ n → (b.text nm).length ≤ n →
        IsBinder id → IsBinder id' → a.Fine K → a'.Fine K → b.Fine K → b'.Fine K →
        id ++ (str " : " ++ (a.text nm ++ (str ". " ++ (b.text nm ++ (str ")" ++ r))))) =
          id' ++ (str " : " ++ (a'.text nm ++ (str ". " ++ (b'.text nm ++ (str ")" ++ r'))))) →
        id = id' ∧ a = a' ∧ b = b' ∧ r = r' := by
      intro id id' a a' b b' l1 l2 i1 i2 f1 f2 f3 f4 e
      obtain ⟨rfl, e1⟩ := binder_unique i1 i2 (Delim.colon _) (Delim.colon _) e
      obtain ⟨rfl, e2⟩ := ih l1 f1 f2 (Delim.dot _) (Delim.dot _) (List.append_cancel_left e1)
      obtain ⟨rfl, e3⟩ := ih l2 f3 f4 (Delim.close _) (Delim.close _) (List.append_cancel_left e2)
      exact ⟨rfl, rfl, rfl, List.append_cancel_left e3⟩
    have mixed : ∀ {id id' x y : Str}, IsBinder id → IsBinder id' → id ++ (str ". " ++ x) ≠ id' ++ (str " : " ++ y) := by
      intro id id' x y i1 i2 e
      obtain ⟨rfl, e1⟩ := binder_unique i1 i2 (Delim.dot _) (Delim.colon _) e
      cases (List.cons.inj e1).1
    cases s <;> cases s' <;> simp only [Shape.tag, reduceCtorEq, Nat.reduceEqDiff] at htag <;>
      first
      | exact hword rfl rfl rfl rfl
      | skip
    · -- variables
      have h := (List.cons.inj h).2
      obtain ⟨rfl, rfl⟩ := decimal_unique hr hr' h
      exact ⟨rfl, rfl⟩
    · have h := (List.cons.inj h).2
      obtain ⟨rfl, rfl⟩ := decimal_unique hr hr' h
      exact ⟨rfl, rfl⟩
    · -- applications
      rw [Shape.text] at hl
      simp only [List.length_append, show (str "(").length = 1 from rfl] at hl
      rw [Shape.text, Shape.text] at h
      simp only [List.append_assoc] at h
      obtain ⟨rfl, h2⟩ := ih (by omega) hs.1 hs'.1 hdel hdel (List.append_cancel_left h)
      obtain ⟨rfl, rfl⟩ := hargs _ _ (by omega) hs.2.2 hs'.2.2 h2
      exact ⟨rfl, rfl⟩
    · -- products
      rw [Shape.text] at hl
      simp only [List.length_append, show (str "(Π ").length = 3 from rfl] at hl
      rw [Shape.text, Shape.text] at h
      simp only [List.append_assoc] at h
      have h := List.append_cancel_left h
      obtain ⟨rfl, rfl, rfl, rfl⟩ := tri (by omega) (by omega) hs.1 hs'.1 hs.2.1 hs'.2.1 hs.2.2 hs'.2.2 h
      exact ⟨rfl, rfl⟩
    · -- abstractions
      rw [Shape.text] at hl
      simp only [List.length_append, show (str "(λ ").length = 3 from rfl] at hl
      rw [Shape.text, Shape.text] at h
      simp only [List.append_assoc] at h
      obtain ⟨rfl, h2⟩ := binder_unique hs.1 hs'.1 (Delim.dot _) (Delim.dot _) (List.append_cancel_left h)
      obtain ⟨rfl, h3⟩ := ih (by omega) hs.2 hs'.2 (Delim.close _) (Delim.close _) (List.append_cancel_left h2)
      exact ⟨rfl, List.append_cancel_left h3⟩
    · rw [Shape.text, Shape.text] at h
      simp only [List.append_assoc] at h
      exact absurd (List.append_cancel_left h) (mixed hs.1 hs'.1)
    · rw [Shape.text, Shape.text] at h
      simp only [List.append_assoc] at h
      exact absurd (List.append_cancel_left h).symm (mixed hs'.1 hs.1)
    · rw [Shape.text] at hl
      simp only [List.length_append, show (str "(λ ").length = 3 from rfl] at hl
      rw [Shape.text, Shape.text] at h
      simp only [List.append_assoc] at h
      have h := List.append_cancel_left h
      obtain ⟨rfl, rfl, rfl, rfl⟩ := tri (by omega) (by omega) hs.1 hs'.1 hs.2.1 hs'.2.1 hs.2.2 hs'.2.2 h
      exact ⟨rfl, rfl⟩

theorem Shape.text_inj {s s' : Shape} (hs : s.Fine K) (hs' : s'.Fine K) (h : s.text nm = s'.text nm) : s = s' :=
  (Shape.text_unique hn _ (r := []) (r' := []) (Nat.le_refl _) hs hs' (.inl rfl) (.inl rfl) (by rw [h])).1

end

mutual
  /-- the meaning of a shape (of a term) -/
  def Shape.den : Shape → Tm
    | .kind => .kind
    | .type => .type
    | .const s => .const s
    | .var n => .var n
    | .mvar n => .var n
    | .joker => .kind
    | .app h as => Tm.apps (Shape.den h) (Shape.dens as)
    | .prod _ a b => .pi (Shape.den a) (Shape.den b)
    | .lam _ b => .dlam (Shape.den b)
    | .alam _ a b => .lam (Shape.den a) (Shape.den b)
  /-- the meanings of some shapes -/
  def Shape.dens : List Shape → List Tm
    | [] => []
    | a :: as => Shape.den a :: Shape.dens as
end

theorem Shape.den_appl (h : Shape) (as : List Shape) : (Shape.appl h as).den = Tm.apps h.den (Shape.dens as) := by
  cases as <;> rfl

mutual
  theorem LTerm.den_shape : ∀ t : LTerm, t.shape.den = t.den
    | .type => rfl
    | .const _ => rfl
    | .var _ => rfl
    | .comb c => LComb.den_shape c
  theorem LComb.den_shape : ∀ c : Comb Str LTerm, (LComb.shape c).den = LComb.den c
    | .appl f as => by rw [LComb.shape, Shape.den_appl, LTerm.den_shape f, LTerm.dens_shape as]; rfl
    | .prod _ a b => by rw [LComb.shape, Shape.den, LTerm.den_shape a, LTerm.den_shape b]; rfl
    | .abst _ none b => by rw [LComb.shape, LTerm.shapeAbs, Shape.den, LTerm.den_shape b]; rfl
    | .abst _ (some a) b => by rw [LComb.shape, LTerm.shapeAbs, Shape.den, LTerm.den_shape a, LTerm.den_shape b]; rfl
  theorem LTerm.dens_shape : ∀ ts : List LTerm, Shape.dens (LTerm.shapes ts) = LTerm.denList ts
    | [] => rfl
    | t :: ts => by rw [LTerm.shapes, Shape.dens, LTerm.den_shape t, LTerm.dens_shape ts]; rfl
end

mutual
  theorem STerm.den_shape : ∀ t : STerm, t.shape.den = t.den
    | .kind => rfl
    | .type => rfl
    | .const _ => rfl
    | .var _ => rfl
    | .lcomb c => LComb.den_shape c
    | .scomb c => SComb.den_shape c
  theorem SComb.den_shape : ∀ c : Comb Str STerm, (SComb.shape c).den = SComb.den c
    | .appl f as => by rw [SComb.shape, Shape.den_appl, STerm.den_shape f, STerm.dens_shape as]; rfl
    | .prod _ a b => by rw [SComb.shape, Shape.den, STerm.den_shape a, STerm.den_shape b]; rfl
    | .abst _ none b => by rw [SComb.shape, STerm.shapeAbs, Shape.den, STerm.den_shape b]; rfl
    | .abst _ (some a) b => by rw [SComb.shape, STerm.shapeAbs, Shape.den, STerm.den_shape a, STerm.den_shape b]; rfl
  theorem STerm.dens_shape : ∀ ts : List STerm, Shape.dens (STerm.shapes ts) = STerm.denList ts
    | [] => rfl
    | t :: ts => by rw [STerm.shapes, Shape.dens, STerm.den_shape t, STerm.dens_shape ts]; rfl
end

end Kontroli
