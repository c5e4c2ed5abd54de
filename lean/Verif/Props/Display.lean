import Verif.Proofs.Display

/-!
# C64: printed terms can be read in one way only
-/

namespace Kontroli

section
variable {K : Sym → Prop} {nm : Sym → Str}

/-- **C64.** Two terms of the kernel whose binders are as in a text are printed alike exactly if they have the same tree,
provided that the names of their symbols are as in a text, differ, and are none of `Kind`, `Type`, `_`. -/
theorem C64_terms (hn : GoodNames K nm) {t u : STerm} (ht : t.Clear K) (hu : u.Clear K) :
    t.show nm = u.show nm ↔ t.shape = u.shape := by
  rw [STerm.show_shape, STerm.show_shape]
  exact ⟨Shape.text_inj hn ht.fine hu.fine, fun h => by rw [h]⟩

/-- **C64.** Terms printed alike denote the same term: two types that read the same in the log are the same type. -/
theorem C64_meaning (hn : GoodNames K nm) {t u : STerm} (ht : t.Clear K) (hu : u.Clear K) (h : t.show nm = u.show nm) :
    t.den = u.den := by
  rw [← STerm.den_shape, ← STerm.den_shape, (C64_terms hn ht hu).1 h]

/-- **C64.** A line with two terms between which there is a text starting with a space (` ~ `, ` ~? `, ` is of type `) shows both. -/
theorem C64_line (hn : GoodNames K nm) {t u t' u' : STerm} (ht : t.Clear K) (hu : u.Clear K) (ht' : t'.Clear K) (hu' : u'.Clear K)
    (sep : Str) (h : t.show nm ++ (' ' :: sep ++ u.show nm) = t'.show nm ++ (' ' :: sep ++ u'.show nm)) :
    t.shape = t'.shape ∧ u.shape = u'.shape := by
  rw [STerm.show_shape, STerm.show_shape, STerm.show_shape, STerm.show_shape] at h
  obtain ⟨h1, h2⟩ := Shape.text_unique hn _ (Nat.le_refl _) ht.fine ht'.fine (Delim.space _) (Delim.space _) h
  exact ⟨h1, Shape.text_inj hn hu.fine hu'.fine (List.append_cancel_left (List.append_cancel_left h2))⟩

/-- **C64.** The same for a rewrite rule: its text determines the left-hand side and the right-hand side. -/
theorem C64_rules (hn : GoodNames K nm) {r r' : Rule}
    (hl : K r.lhs.symbol ∧ Pattern.ClearList K r.lhs.args) (hl' : K r'.lhs.symbol ∧ Pattern.ClearList K r'.lhs.args)
    (hr : r.rhs.Clear K) (hr' : r'.rhs.Clear K) :
    r.show nm = r'.show nm ↔
      r.lhs.symbol = r'.lhs.symbol ∧ Pattern.shapes r.lhs.args = Pattern.shapes r'.lhs.args ∧ r.rhs.shape = r'.rhs.shape := by
  have key : ∀ r : Rule, r.show nm =
      (Shape.appl (.const r.lhs.symbol) (Pattern.shapes r.lhs.args)).text nm ++ (str " " ++ (str "⟶ " ++ r.rhs.shape.text nm)) := by
    intro r
    rw [Rule.show, TopPattern.show, LTerm.show_shape,
      ← showApp_appl (.const r.lhs.symbol) _ _ (Pattern.showList_shape r.lhs.args)]
    rw [List.append_assoc]
    rfl
  have inj : ∀ {s s' : Sym} {as as' : List Shape}, Shape.appl (.const s) as = Shape.appl (.const s') as' → s = s' ∧ as = as' := by
    intro s s' as as' h
    cases as <;> cases as' <;> cases h <;> exact ⟨rfl, rfl⟩
  rw [key, key]
  constructor
  · intro h
    obtain ⟨h1, h2⟩ := Shape.text_unique hn _ (Nat.le_refl _)
      (Shape.Fine.appl (h := .const _) hl.1 (Pattern.ClearList.fine hl.2))
      (Shape.Fine.appl (h := .const _) hl'.1 (Pattern.ClearList.fine hl'.2)) (Delim.space _) (Delim.space _) h
    obtain ⟨h3, h4⟩ := inj h1
    exact ⟨h3, h4, Shape.text_inj hn hr.fine hr'.fine (List.append_cancel_left (List.append_cancel_left h2))⟩
  · rintro ⟨h1, h2, h3⟩
    rw [h1, h2, h3]

end

/-- **C64, limits.** The conditions on names are needed, and programs can violate them.  A symbol is printed without its module, so
two symbols of the same name in different modules are printed alike; and a symbol named `Kind` is printed as the sort. -/
theorem C64_ambiguous :
    (∀ (nm : Sym → Str) (s s' : Sym), nm s = nm s' → (STerm.const s).show nm = (STerm.const s').show nm) ∧
    (∃ (nm : Sym → Str) (s : Sym), IsComp (nm s) ∧ (STerm.const s).show nm = STerm.kind.show nm ∧
      (STerm.const s).den ≠ STerm.kind.den) ∧
    (∃ (nm : Sym → Str) (t u : STerm), (∀ s, IsComp (nm s)) ∧ t.show nm = u.show nm ∧ t.den ≠ u.den) := by
  refine ⟨fun nm s s' h => h, ⟨fun _ => str "Kind", 0, .inl ?_, rfl, by simp [STerm.den]⟩,
    ⟨fun _ => str "a", .const 0, .const 1, fun _ => .inl ?_, rfl, by simp [STerm.den]⟩⟩
  · exact (isIdent_iff _).2 ⟨'K', ['i', 'n', 'd'], rfl, by decide, by decide⟩
  · exact (isIdent_iff _).2 ⟨'a', [], rfl, by decide, by decide⟩

/-! ## Examples -/

namespace Example

/-- names `f` and `{|x y|}` of two symbols -/
def logNames : Sym → Str := fun s => if s = 0 then str "f" else str "{|x y|}"

/-- the names are as in a text -/
theorem logNames_good : GoodNames (fun s => s ≤ 1) logNames where
  comp s _ := by
    by_cases h : s = 0
    · rw [logNames, if_pos h]
      exact .inl ((isIdent_iff _).2 ⟨'f', [], rfl, by decide, by decide⟩)
    · rw [logNames, if_neg h]
      exact .inr (splitClose_isMoustache (s := str "x y|}") (a := str "x y|}") (b := []) rfl)
  inj s s' hs hs' e := by
    have h1 : s = 0 ∨ s = 1 := Nat.le_one_iff_eq_zero_or_eq_one.1 hs
    have h2 : s' = 0 ∨ s' = 1 := Nat.le_one_iff_eq_zero_or_eq_one.1 hs'
    rcases h1 with rfl | rfl <;> rcases h2 with rfl | rfl <;> first | rfl | exact absurd e (by decide)
  free s hs := by
    have h1 : s = 0 ∨ s = 1 := Nat.le_one_iff_eq_zero_or_eq_one.1 hs
    rcases h1 with rfl | rfl <;> decide

/-- `x : f {|x y|} => y (no name) : Type -> f β1` as a term -/
def logTerm : STerm :=
  .scomb (.abst (str "x") (some (.lcomb (.appl (.const 0) [.const 1])))
    (.scomb (.prod [] .type (.scomb (.appl (.const 0) [.var 1])))))

example : logTerm.show logNames = str "(λ x : (f {|x y|}). (Π  : Type. (f β1)))" := by decide +kernel

/-- the term meets the conditions -/
theorem logTerm_clear : logTerm.Clear (fun s => s ≤ 1) :=
  ⟨.inr (.inl ((isIdent_iff _).2 ⟨'x', [], rfl, by decide, by decide⟩)), ⟨Nat.zero_le 1, Nat.le_refl 1, trivial⟩, .inl rfl, trivial,
    Nat.zero_le 1, trivial, trivial⟩

example {u : STerm} (hu : u.Clear (fun s => s ≤ 1)) (h : u.show logNames = str "(λ x : (f {|x y|}). (Π  : Type. (f β1)))") :
    u.den = .lam (.app (.const 0) (.const 1)) (.pi .type (.app (.const 0) (.var 1))) :=
  C64_meaning logNames_good hu logTerm_clear (h.trans (by decide +kernel))

/-- the rule `f _ (f x) ⟶ (f x x)` -/
def logRule : Rule := ⟨[(str "x", none)], ⟨0, [.joker, .symb 0 [.mvar 0]]⟩, .comb (.appl (.const 0) [.var 0, .var 0])⟩

example : logRule.show logNames = str "(f _ (f μ0)) ⟶ (f β0 β0)" := by decide +kernel

example : logRule.show logNames ≠ Rule.show logNames ⟨[], ⟨0, [.joker, .symb 0 [.mvar 1]]⟩, logRule.rhs⟩ := by
  intro h
  have hl : ∀ n, (0 : Sym) ≤ 1 ∧ Pattern.ClearList (fun s => s ≤ 1) [.joker, .symb 0 [.mvar n]] :=
    fun n => ⟨Nat.zero_le 1, trivial, ⟨Nat.zero_le 1, trivial, trivial⟩, trivial⟩
  have hr : logRule.rhs.Clear (fun s => s ≤ 1) := ⟨Nat.zero_le 1, trivial, trivial, trivial⟩
  have := (C64_rules (r := logRule) (r' := ⟨[], ⟨0, [.joker, .symb 0 [.mvar 1]]⟩, logRule.rhs⟩) logNames_good (hl 0) (hl 1) hr hr).1 h
  simp [logRule, Pattern.shapes, Pattern.shape, Shape.appl] at this

end Example

#print axioms C64_terms
#print axioms C64_meaning
#print axioms C64_line
#print axioms C64_rules
#print axioms C64_ambiguous

end Kontroli
