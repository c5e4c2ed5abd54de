import Verif.Proofs.Symbols
import Verif.Model.Process

/-!
# C15, C16, C17: the symbol table
-/

namespace Kontroli

/-! ## C15 -/

/-- C15. Lookup yields the symbol found under the innermost open module that provides the name. -/
theorem C15_get_some (s : Symbols) (path : List Str) (name : Str) (sym : Sym) :
    s.get path name = some sym ↔ s.Resolves path name sym := Symbols.get_some

/-- C15. Lookup fails iff no open module (the root included) provides the name. -/
theorem C15_get_none (s : Symbols) (path : List Str) (name : Str) :
    s.get path name = none ↔ ∀ m, m <+: s.path → ∀ sym, ¬ s.Provides (m ++ path) name sym := Symbols.get_none

/-- C15. Resolution is unambiguous. -/
theorem C15_unique (s : Symbols) (path : List Str) (name : Str) (sym sym' : Sym)
    (h : s.Resolves path name sym) (h' : s.Resolves path name sym') : sym = sym' := by
  rw [← C15_get_some] at h h'
  simpa [h] using h'

/-- C15. Changing the current module changes neither the modules' contents nor creates names; the open modules are exactly the
prefixes of the new path. -/
theorem C15_set_path (s : Symbols) (path : List Str) :
    (s.setPath path).path = path ∧ ∀ m name sym, (s.setPath path).Provides m name sym ↔ s.Provides m name sym :=
  ⟨Symbols.setPath_path, fun m name sym => by rw [← Symbols.at'_some, ← Symbols.at'_some, Symbols.setPath_at']⟩

/-- a table where `x` exists in the root, in `a` and in `a.b`; and `y` in `a.b` only -/
def Example.syms : Symbols :=
  let s := Symbols.new
  let s := (s.insert (str "x") 0).1
  let s := ((s.setPath [str "a"]).insert (str "x") 1).1
  let s := ((s.setPath [str "a", str "b"]).insert (str "x") 2).1
  let s := (s.insert (str "y") 3).1
  s

example : Example.syms.get [] (str "x") = some 2 ∧ (Example.syms.setPath [str "a"]).get [] (str "x") = some 1 ∧
    (Example.syms.setPath [str "a"]).get [str "b"] (str "y") = some 3 ∧ (Example.syms.setPath [str "a"]).get [] (str "y") = none ∧
    (Example.syms.setPath [str "c"]).get [] (str "x") = some 0 ∧ Example.syms.get [str "a"] (str "x") = some 1 := by
  decide

/-! ## C16 -/

/-- C16. A successful insertion returns the symbol given; the name was new in the current module; the unqualified name
resolves to the symbol afterwards. -/
theorem C16_inserted (s s' : Symbols) (name : Str) (sym sym' : Sym) (h : s.insert name sym = (s', .ok sym')) :
    sym' = sym ∧ s'.get [] name = some sym ∧ ∀ old, ¬ s.Provides s.path name old := by
  have h1 : s' = (s.insert name sym).1 := by rw [h]
  have h2 := congrArg Prod.snd h
  simp only [Symbols.insert] at h2
  split at h2
  · simp at h2
  · next hc =>
    have h2 : sym = sym' := by simpa using h2
    refine ⟨h2.symm, ?_, ?_⟩
    · apply Symbols.get_nil
      rw [h1, Symbols.insert_at']
      simp [Symbols.insert]
    · rintro old ⟨names, h3, h4⟩
      exact hc (by simp [Symbols.cur, h3, h4])

/-- C16. An insertion keeps every lookup, except those that name the current module and the inserted name. -/
theorem C16_others (s : Symbols) (name : Str) (sym : Sym) (path : List Str) (n : Str)
    (h : n ≠ name ∨ ∀ m, m <+: s.path → m ++ path ≠ s.path) : (s.insert name sym).1.get path n = s.get path n := by
  refine Symbols.get_congr (s := s) (s' := (s.insert name sym).1) rfl fun m hm => ?_
  rw [Symbols.insert_at']
  split
  · next hc =>
    rcases h with h | h
    · exact absurd hc.2 h
    · exact absurd hc.1 (h m hm)
  · rfl

/-- the symbol table and arena after some events -/
def eventState : ShState → List (Out Event) → ShState
  | st, [] => st
  | st, e :: es => eventState (eventStep st e).1 es

/-- what holds after any history -/
structure ShState.Inv (st : ShState) : Prop where
  wf : st.syms.Wf
  old : ∀ m n s, st.syms.Provides m n s → s < st.next
  inj : ∀ m n m' n' s, st.syms.Provides m n s → st.syms.Provides m' n' s → m = m' ∧ n = n'

theorem ShState.Inv.new : ShState.new.Inv := by
  have : ∀ m n s, ¬ ShState.new.syms.Provides m n s := by
    rintro m n s ⟨t, h1, h2⟩
    simp only [ShState.new, Symbols.new] at h1
    split at h1
    · simp only [Option.some.injEq] at h1; subst h1; simp at h2
    · simp at h1
  exact ⟨Symbols.Wf.new, fun m n s h => absurd h (this m n s), fun m n _ _ s h => absurd h (this m n s)⟩

theorem insert_provides {s : Symbols} {name : Str} {sym : Sym} {m : List Str} {n : Str} {x : Sym}
    (h : (s.insert name sym).1.Provides m n x) : (m = s.path ∧ n = name ∧ x = sym) ∨ s.Provides m n x := by
  rw [← Symbols.at'_some, Symbols.insert_at'] at h
  split at h
  · next hc => exact .inl ⟨hc.1, hc.2, by simpa using h.symm⟩
  · exact .inr (Symbols.at'_some.1 h)

theorem ShState.Inv.insert {st : ShState} (h : st.Inv) (name : Str) :
    (ShState.mk (st.syms.insert name st.next).1 (st.next + 1)).Inv := by
  refine ⟨h.wf.insert _ _, ?_, ?_⟩
  · intro m n s hp
    rcases insert_provides hp with ⟨-, -, rfl⟩ | hp
    · exact Nat.lt_succ_self _
    · exact Nat.lt_succ_of_lt (h.old _ _ _ hp)
  · intro m n m' n' s hp hp'
    rcases insert_provides hp with ⟨rfl, rfl, rfl⟩ | hp
    · rcases insert_provides hp' with ⟨rfl, rfl, -⟩ | hp'
      · exact ⟨rfl, rfl⟩
      · exact absurd (h.old _ _ _ hp') (Nat.lt_irrefl _)
    · rcases insert_provides hp' with ⟨-, -, rfl⟩ | hp'
      · exact absurd (h.old _ _ _ hp) (Nat.lt_irrefl _)
      · exact h.inj _ _ _ _ _ hp hp'

theorem ShState.Inv.share {st : ShState} (h : st.Inv) (c : Scoped) : (shareCmd st c).1.Inv := by
  unfold shareCmd
  split
  · exact h
  · next id it hs =>
    have := h.insert id
    split
    · next syms sym he => rw [he] at this; exact this
    · next syms sym he => rw [he] at this; exact this
  · exact h

theorem ShState.Inv.step {st : ShState} (h : st.Inv) (e : Out Event) : (eventStep st e).1.Inv := by
  match e with
  | .ok (.module path) =>
    refine ⟨h.wf.setPath path, ?_, ?_⟩
    · intro m n s hp
      exact h.old m n s (((C15_set_path st.syms path).2 m n s).1 hp)
    · intro m n m' n' s hp hp'
      exact h.inj m n m' n' s (((C15_set_path st.syms path).2 m n s).1 hp) (((C15_set_path st.syms path).2 m' n' s).1 hp')
  | .ok (.command c) => exact h.share c
  | .err e => exact h
  | .panic => exact h
  | .timeout => exact h

/-- C16. After any history of events, two different names, or the same name in two modules, never denote the same symbol. -/
theorem C16_distinct (evs : List (Out Event)) (m m' : List Str) (n n' : Str) (s : Sym)
    (h : (eventState ShState.new evs).syms.Provides m n s) (h' : (eventState ShState.new evs).syms.Provides m' n' s) :
    m = m' ∧ n = n' := by
  have : ∀ (evs : List (Out Event)) (st : ShState), st.Inv → (eventState st evs).Inv := by
    intro evs
    induction evs with
    | nil => intro st h; exact h
    | cons e es ih => intro st h; exact ih _ (h.step e)
  exact (this evs _ ShState.Inv.new).inj _ _ _ _ _ h h'

theorem shareCmd_next {st : ShState} {c : Scoped} : st.next ≤ (shareCmd st c).1.next := by
  unfold shareCmd
  split
  · exact Nat.le_refl _
  · split <;> exact Nat.le_succ _
  · exact Nat.le_refl _

theorem shareCmd_fresh {st : ShState} {c : Scoped} {s : Sym} {it : Intro LTerm} (h : (shareCmd st c).2 = .ok (.intro s it)) :
    s = st.next ∧ (shareCmd st c).1.next = st.next + 1 := by
  unfold shareCmd at *
  revert h
  split
  · simp
  · next id it' hs =>
    split
    · next syms sym he =>
      intro h
      simp only [Out.ok.injEq, Cmd.intro.injEq] at h
      have := (C16_inserted _ _ _ _ _ he).1
      exact ⟨by rw [← h.1, this], rfl⟩
    · simp
  · simp

theorem eventStep_next {st : ShState} {e : Out Event} : st.next ≤ (eventStep st e).1.next := by
  match e with
  | .ok (.module path) => exact Nat.le_refl _
  | .ok (.command c) => exact shareCmd_next
  | .err e => exact Nat.le_refl _
  | .panic => exact Nat.le_refl _
  | .timeout => exact Nat.le_refl _

theorem eventCmds_ge {evs : List (Out Event)} {st : ShState} {s : Sym} {it : Intro LTerm}
    (h : Out.ok (Cmd.intro s it) ∈ eventCmds st evs) : st.next ≤ s := by
  induction evs generalizing st with
  | nil => simp [eventCmds] at h
  | cons e es ih =>
    simp only [eventCmds, List.mem_append] at h
    rcases h with h | h
    · match e with
      | .ok (.command c) =>
        simp only [eventStep, Option.toList_some, List.mem_singleton] at h
        exact Nat.le_of_eq (shareCmd_fresh h.symm).1.symm
      | .ok (.module path) => simp [eventStep] at h
      | .err e => simp [eventStep] at h
      | .panic => simp [eventStep] at h
      | .timeout => simp [eventStep] at h
    · exact Nat.le_trans eventStep_next (ih h)

/-- C16. The symbols given to the introductions of a history are pairwise different. -/
theorem C16_fresh (evs : List (Out Event)) (st : ShState) (pre post : List (Out Cmd)) (s : Sym) (it : Intro LTerm)
    (h : eventCmds st evs = pre ++ .ok (.intro s it) :: post) : ∀ it', Out.ok (Cmd.intro s it') ∉ pre ++ post := by
  have key : (eventCmds st evs).Pairwise fun a b => ∀ s it s' it', a = .ok (.intro s it) → b = .ok (.intro s' it') → s < s' := by
    clear h
    induction evs generalizing st with
    | nil => simp [eventCmds]
    | cons e es ih =>
      simp only [eventCmds]
      rw [List.pairwise_append]
      refine ⟨?_, ih _, ?_⟩
      · cases (eventStep st e).2 <;> simp
      · rintro a ha b hb s it s' it' rfl rfl
        match e with
        | .ok (.command c) =>
          simp only [eventStep, Option.toList_some, List.mem_singleton] at ha hb
          obtain ⟨h1, h2⟩ := shareCmd_fresh ha.symm
          have h3 := eventCmds_ge hb
          rw [h2] at h3
          rw [h1]
          exact h3
        | .ok (.module path) => simp [eventStep] at ha
        | .err e => simp [eventStep] at ha
        | .panic => simp [eventStep] at ha
        | .timeout => simp [eventStep] at ha
  rw [h, List.pairwise_append, List.pairwise_cons] at key
  intro it' hm
  rcases List.mem_append.1 hm with hm | hm
  · exact absurd (key.2.2 _ hm _ List.mem_cons_self _ _ _ it rfl rfl) (Nat.lt_irrefl _)
  · exact absurd (key.2.1.1 _ hm _ _ _ _ rfl rfl) (Nat.lt_irrefl _)

/-- a history: `x : Type.  y : Type.` in module `a`, `x : Type.` in module `b` -/
example : (eventCmds ShState.new [.ok (.module [str "a"]), .ok (.command (.intro (str "x") [] (.declaration false (.new (.atom .type))))),
      .ok (.command (.intro (str "y") [] (.declaration false (.new (.atom .type))))), .ok (.module [str "b"]),
      .ok (.command (.intro (str "x") [] (.declaration false (.new (.atom .type)))))]) =
    [.ok (.intro 0 (.declaration false .type)), .ok (.intro 1 (.declaration false .type)), .ok (.intro 2 (.declaration false .type))] := by
  rfl

example : ∃ s', (Example.syms.insert (str "z") 7) = (s', .ok 7) ∧ s'.get [] (str "z") = some 7 ∧ s'.get [] (str "y") = some 3 :=
  ⟨(Example.syms.insert (str "z") 7).1, rfl, by decide, by decide⟩

/-! ## C17 -/

/-- C17 is false of the code: a refused insertion changes what the name resolves to. -/
theorem C17_false : ¬ ∀ (s s' : Symbols) (name : Str) (sym : Sym) (e : SymError), s.insert name sym = (s', .error e) →
    ∀ path n, s'.get path n = s.get path n := by
  intro h
  have := h Example.syms (Example.syms.insert (str "x") 9).1 (str "x") 9 .reinsertion rfl [] (str "x")
  revert this
  decide

/-- C17, the part that holds: a refused insertion keeps every lookup that does not name the current module and the refused name. -/
theorem C17_refused_partial (s s' : Symbols) (name : Str) (sym : Sym) (e : SymError) (h : s.insert name sym = (s', .error e))
    (path : List Str) (n : Str) (hn : n ≠ name ∨ ∀ m, m <+: s.path → m ++ path ≠ s.path) : s'.get path n = s.get path n := by
  have := C16_others s name sym path n hn
  rw [h] at this
  exact this

/-- C17. An insertion is refused iff the current module already provides the name. -/
theorem C17_refused_iff (s : Symbols) (name : Str) (sym : Sym) :
    (∃ s', s.insert name sym = (s', .error .reinsertion)) ↔ ∃ old, s.Provides s.path name old := by
  constructor
  · rintro ⟨s', h⟩
    have h := congrArg Prod.snd h
    simp only [Symbols.insert] at h
    split at h
    · next hc =>
      cases hm : s.mods s.path with
      | none => simp [Symbols.cur, hm] at hc
      | some t =>
        simp only [Symbols.cur, hm, Option.getD_some] at hc
        obtain ⟨old, ho⟩ := Option.isSome_iff_exists.1 hc
        exact ⟨old, t, hm, ho⟩
    · simp at h
  · rintro ⟨old, t, h1, h2⟩
    refine ⟨(s.insert name sym).1, ?_⟩
    simp [Symbols.insert, Symbols.cur, h1, h2]

#print axioms C15_get_some
#print axioms C15_get_none
#print axioms C15_unique
#print axioms C15_set_path
#print axioms C16_inserted
#print axioms C16_others
#print axioms C16_distinct
#print axioms C16_fresh
#print axioms C17_false
#print axioms C17_refused_partial
#print axioms C17_refused_iff

end Kontroli
