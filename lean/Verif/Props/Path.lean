import Verif.Proofs.Path

/-!
# C36: module paths

Every path consists of pieces separated by slashes.  `ModuleOf` says what the module path of such pieces is.
-/

namespace Kontroli

/-- C36. The module path consists of the directories and the stem of the file; a path has none if it is empty or absolute, begins with `.`,
or contains `..`. -/
theorem C36_module_path (pieces : List Str) (h : ∀ p ∈ pieces, '/' ∉ p) (hn : pieces ≠ []) (mp : List Str) :
    modulePath (pathText pieces) = some mp ↔ ModuleOf pieces mp := by
  cases pieces with
  | nil => exact absurd rfl hn
  | cons first rest =>
    rw [modulePath_some]
    unfold components
    rw [splitSlashes_text _ h hn, filterMap_piece]
    simp only [pathText_head (h first (by simp)), List.head?_cons, Option.some.injEq]
    have key : ∀ l dirs file, (l.map fun p => if p = ['.', '.'] then PComp.parentDir else .normal p) = (dirs ++ [file]).map .normal ↔
        l = dirs ++ [file] ∧ ['.', '.'] ∉ dirs ++ [file] := by
      intro l dirs file
      generalize dirs ++ [file] = m
      induction l generalizing m with
      | nil => cases m <;> simp
      | cons a l ih =>
        cases m with
        | nil => simp
        | cons b m =>
          simp only [List.map_cons, List.cons.injEq, ih, List.mem_cons, not_or]
          by_cases ha : a = ['.', '.']
          · subst ha
            simp only [if_true, reduceCtorEq, false_and, false_iff]
            rintro ⟨⟨rfl, _⟩, h, _⟩
            exact h rfl
          · simp only [ha, if_false, PComp.normal.injEq]
            constructor
            · rintro ⟨rfl, rfl, h⟩; exact ⟨⟨rfl, rfl⟩, fun e => ha e.symm, h⟩
            · rintro ⟨⟨rfl, rfl⟩, _, h⟩; exact ⟨rfl, rfl, h⟩
    by_cases h1 : first = []
    · subst h1
      constructor
      · rintro ⟨dirs, file, e, _⟩
        cases rest with
        | nil => simp [naming] at e
        | cons q rest =>
          simp only [ne_eq, reduceCtorEq, not_false_eq_true, and_self, if_true, List.cons_append, List.nil_append] at e
          cases dirs <;> simp at e
      · rintro ⟨h, _⟩; exact absurd rfl h
    · by_cases h2 : first = ['.']
      · subst h2
        constructor
        · rintro ⟨dirs, file, e, _⟩
          simp only [reduceCtorEq, false_and, if_false, if_true, List.cons_append, List.nil_append] at e
          cases dirs <;> simp at e
        · rintro ⟨_, h, _⟩; exact absurd rfl h
      · simp only [h1, h2, false_and, if_false, List.nil_append, key]
        constructor
        · rintro ⟨dirs, file, ⟨e1, e2⟩, rfl⟩
          exact .mk h1 h2 e1 e2 ((stemOf_spec (fun e => e2 (by simp [e]))).1 rfl)
        · intro hm
          cases hm with
          | mk _ _ e1 e2 hs =>
            exact ⟨_, _, ⟨e1, e2⟩, by rw [(stemOf_spec (fun e => e2 (by simp [e]))).2 hs]⟩

/-- C36. The ordinary case: directories and a file with an extension. -/
theorem C36_ordinary (dirs : List Str) (stem ext : Str) (hd : ∀ d ∈ dirs, '/' ∉ d ∧ d ≠ [] ∧ d ≠ ['.'] ∧ d ≠ ['.', '.'])
    (hs : '/' ∉ stem ∧ stem ≠ []) (he : '/' ∉ ext ∧ '.' ∉ ext) (hx : stem ≠ ['.'] ∨ ext ≠ []) :
    modulePath (pathText (dirs ++ [stem ++ '.' :: ext])) = some (dirs ++ [stem]) := by
  have hf : ∀ x ∈ dirs ++ [stem ++ '.' :: ext], x ≠ [] ∧ x ≠ ['.'] ∧ x ≠ ['.', '.'] ∧ '/' ∉ x := by
    intro x hx'
    rcases List.mem_append.1 hx' with h | h
    · exact ⟨(hd x h).2.1, (hd x h).2.2.1, (hd x h).2.2.2, (hd x h).1⟩
    · simp at h
      subst h
      refine ⟨by simp, ?_, ?_, ?_⟩
      · intro e
        cases stem with
        | nil => exact hs.2 rfl
        | cons c s => simp at e
      · intro e
        match stem with
        | [] => exact hs.2 rfl
        | [c] =>
          simp at e
          rcases hx with h | h
          · exact h (by simp [e.1])
          · exact h e.2
        | c :: d :: s => simp at e
      · simp [hs.1, he.1]
  have hnam : naming (dirs ++ [stem ++ '.' :: ext]) = dirs ++ [stem ++ '.' :: ext] := by
    rw [naming, List.filter_eq_self]
    intro x hx'
    simp [(hf x hx').1, (hf x hx').2.1]
  rw [C36_module_path _ (fun p hp => (hf p hp).2.2.2) (by simp)]
  obtain ⟨first, rest, hfr⟩ : ∃ first rest, dirs ++ [stem ++ '.' :: ext] = first :: rest := by
    cases dirs <;> simp
  have h1 := hf first (by rw [hfr]; simp)
  have := ModuleOf.mk (first := first) (rest := rest) (dirs := dirs) (stem := stem) h1.1 h1.2.1 (by rw [← hfr]; exact hnam)
    (fun h => (hf _ h).2.2.1 rfl) (.ext hs.2 he.2)
  rw [hfr]; exact this

/-- C36. A path has at most one module path. -/
theorem C36_unique (pieces : List Str) (h : ∀ p ∈ pieces, '/' ∉ p) (hn : pieces ≠ []) (mp mp' : List Str)
    (h1 : ModuleOf pieces mp) (h2 : ModuleOf pieces mp') : mp = mp' := by
  rw [← C36_module_path pieces h hn] at h1 h2
  rw [h1] at h2
  exact Option.some.inj h2

/-- C36. The standard input is meant by a path whose only naming piece is a dash and that does not begin with a slash or `.`; its module path
is `-`. -/
theorem C36_dash (pieces : List Str) (h : ∀ p ∈ pieces, '/' ∉ p) (hn : pieces ≠ []) :
    isDash (pathText pieces) = true ↔ pieces.head? = some ['-'] ∧ naming pieces = [['-']] := by
  cases pieces with
  | nil => exact absurd rfl hn
  | cons first rest =>
    unfold isDash components
    rw [splitSlashes_text _ h hn, filterMap_piece]
    simp only [pathText_head (h first (by simp)), List.head?_cons, Option.some.injEq, beq_iff_eq]
    have hdash : ∀ l : List Str, (l.map fun p => if p = ['.', '.'] then PComp.parentDir else .normal p) = [.normal ['-']] ↔ l = [['-']] := by
      intro l
      cases l with
      | nil => simp
      | cons a l =>
        simp only [List.map_cons, List.cons.injEq, List.map_eq_nil_iff]
        by_cases ha : a = ['.', '.']
        · subst ha; simp
        · simp [ha]
    by_cases h1 : first = []
    · subst h1
      cases rest with
      | nil => simp [naming]
      | cons q rest => simp
    · by_cases h2 : first = ['.']
      · subst h2; simp
      · simp only [h1, h2, false_and, if_false, List.nil_append, hdash]
        constructor
        · intro e
          refine ⟨?_, e⟩
          simp only [naming, List.filter_cons, ne_eq, h1, h2, not_false_eq_true, and_self, decide_true, if_true, List.cons.injEq] at e
          exact e.1
        · exact And.right

theorem C36_dash_module {path : Str} (h : isDash path = true) : modulePath path = some [['-']] := by
  rw [modulePath_some]
  exact ⟨[], ['-'], by simpa [isDash] using h, by decide⟩

/-! ## Examples -/

example : modulePath (str "a/b/c.dk") = some [str "a", str "b", str "c"] ∧ modulePath (str "a//./b.x.dk/") = some [str "a", str "b.x"] ∧
    modulePath (str ".hidden") = some [str ".hidden"] ∧ modulePath (str "-") = some [str "-"] := by decide

example : modulePath (str "/a.dk") = none ∧ modulePath (str "./a.dk") = none ∧ modulePath (str "a/../b.dk") = none ∧
    modulePath (str "..") = none ∧ modulePath (str "") = none ∧ modulePath (str "/") = none ∧ modulePath (str ".") = none := by decide

example : isDash (str "-") = true ∧ isDash (str "-/.") = true ∧ isDash (str "./-") = false ∧ isDash (str "a/-") = false := by decide

#print axioms C36_module_path
#print axioms C36_ordinary
#print axioms C36_unique
#print axioms C36_dash
#print axioms C36_dash_module

end Kontroli
