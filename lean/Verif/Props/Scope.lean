import Verif.Proofs.Scope

/-!
# C24: scoping

`scopeSymb` is the scoper that leaves names as they are, `scopeAtom` the one that the checker uses.  `PCmd.scope` is the definition of
scoping on the tree of a command (`Verif/Spec/Scope.lean`).
-/

namespace Kontroli

/-- C24. Parsing with scopes is parsing without scopes, followed by scoping of the tree, until the first error, which is the same. -/
theorem C24_strict (text : Str) : upToError (strict scopeAtom text) = (upToError (strict scopeSymb text)).map scopeItem := by
  rw [strict_eq, strict_eq]
  exact pItems_scope false PState.new PCtx.new (lex text) PState.new_clean

/-- C24. The same for texts that are parsed line by line. -/
theorem C24_lazy (lines : List Str) (n : Nat) :
    upToError ((LazyP.new lines).items scopeAtom n) = (upToError ((LazyP.new lines).items scopeSymb n)).map scopeItem :=
  items_scope lines n

/-- C24. The index of a variable is the number of binders between it and the innermost binder of its name. -/
theorem C24_innermost (env : List (Option Str)) (s : PSymb) (n : Nat) : resolve env s = .var n ↔
    s.path = [] ∧ env[n]? = some (some s.name) ∧ ∀ m < n, env[m]? ≠ some (some s.name) := by
  have hb : binderOf env s.name = some n ↔ env[n]? = some (some s.name) ∧ ∀ m < n, env[m]? ≠ some (some s.name) := by
    rw [binderOf, List.findIdx?_eq_some_iff_getElem]
    constructor
    · rintro ⟨h, h1, h2⟩
      refine ⟨?_, fun m hm => ?_⟩
      · rw [List.getElem?_eq_getElem h]
        simpa using h1
      · rw [List.getElem?_eq_getElem (Nat.lt_trans hm h)]
        have := h2 m hm
        simpa using this
    · rintro ⟨h1, h2⟩
      obtain ⟨h, h1⟩ := List.getElem?_eq_some_iff.1 h1
      refine ⟨h, by simpa using h1, fun m hm => ?_⟩
      have := h2 m hm
      rw [List.getElem?_eq_getElem (Nat.lt_trans hm h)] at this
      simpa using this
  rw [← hb, resolve]
  split
  · next hp =>
    cases binderOf env s.name with
    | none =>
      simp only [hp, true_and]
      split <;> simp
    | some m => simp [hp]
  · next hp => simp [hp]

/-- C24. A name is a constant iff it is qualified or has no binder, except for `Type`. -/
theorem C24_constant (env : List (Option Str)) (s : PSymb) : (∃ n, resolve env s = .var n) ∨ resolve env s = .const s ∨
      (resolve env s = .type ∧ s = ⟨[], str "Type"⟩) := by
  obtain ⟨p, x⟩ := s
  unfold resolve
  split
  · next hp =>
    have hp : p = [] := hp
    subst hp
    split
    · exact .inl ⟨_, rfl⟩
    · split
      · next h => exact .inr (.inr ⟨rfl, by rw [show x = _ from h]⟩)
      · exact .inr (.inl rfl)
  · exact .inr (.inl rfl)

theorem C24_constant_iff (env : List (Option Str)) (s : PSymb) : resolve env s = .const s ↔
    s.path ≠ [] ∨ some s.name ∉ env ∧ s.name ≠ str "Type" := by
  have hb : binderOf env s.name = none ↔ some s.name ∉ env := by
    rw [binderOf, List.findIdx?_eq_none_iff]
    constructor
    · intro h hm
      have := h _ hm
      simp at this
    · intro h o ho
      simp only [decide_eq_false_iff_not]
      intro he
      exact h (he ▸ ho)
  rw [resolve]
  split
  · next hp =>
    rw [← hb]
    cases binderOf env s.name with
    | none =>
      simp only [hp, ne_eq, not_true_eq_false, false_or, true_and]
      split
      · next h => simp [h]
      · next h => simp [h]
    | some m => simp [hp]
  · next hp => simp [hp]

/-- C24 is false after an error: variables that were bound when the error occurred stay bound. -/
theorem C24_after_error_false : strict scopeAtom (str "[x] --> . a : x.") = [.err (.term .expectedIdentOrLPar), .err (.command .expectedCmd),
    .ok (.intro (str "a") [] (.declaration false (.new (.atom (.var 0)))))] := rfl

/-- binders that shadow each other, in products, abstractions and arguments -/
example : strict scopeAtom (str "[x, y: x] f _ (x => g x y z) --> y -> x : y -> m.x x y.") =
    [.ok (.rules [⟨[(str "x", none), (str "y", some (.new (.atom (.var 0))))],
      .app (.atom (.const ⟨[], str "f"⟩)) [.new (.atom (.var 2)), .new (.abst (str "x") none
        (.app (.atom (.const ⟨[], str "g"⟩)) [.new (.atom (.var 0)), .new (.atom (.var 1)), .new (.atom (.const ⟨[], str "z"⟩))]))],
      .new (.prod none (.new (.atom (.var 0))) (.new (.prod (some (str "x")) (.new (.atom (.var 1)))
        (.app (.atom (.const ⟨[str "m"], str "x"⟩)) [.new (.atom (.var 0)), .new (.atom (.var 2))]))))⟩])] := rfl

/-- arguments of introductions are bound in what follows them -/
example : strict scopeAtom (str "def d (a : b) (b : a) : b := a => a b.") =
    [.ok (.intro (str "d") [(str "a", .new (.atom (.const ⟨[], str "b"⟩))), (str "b", .new (.atom (.var 0)))]
      (.definition (some (.new (.atom (.var 0)))) (some (.new (.abst (str "a") none (.app (.atom (.var 0)) [.new (.atom (.var 1))]))))))] := rfl

#print axioms C24_strict
#print axioms C24_lazy
#print axioms C24_innermost
#print axioms C24_constant
#print axioms C24_constant_iff
#print axioms C24_after_error_false

end Kontroli
