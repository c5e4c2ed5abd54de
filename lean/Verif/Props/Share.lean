import Verif.Proofs.Share
import Verif.Props.Symbols

/-!
# C18, C19, C20: sharing of terms, introductions and rules
-/

namespace Kontroli

/-! ## C18 -/

/-- C18. Sharing a term succeeds iff all its constants are known, and the result is the term with its constants replaced. -/
theorem C18_ok (s : Symbols) (t : PTerm Atom) (u : LTerm) :
    t.share s = .ok u ↔ (∀ c ∈ t.consts, s.Known c) ∧ u = t.resolve s.sym := by
  rw [share_spec, spec_ok_iff]

/-- C18. Sharing a term fails iff it contains an unknown constant; the error names the leftmost one with its full path. -/
theorem C18_error (s : Symbols) (t : PTerm Atom) (e : ShareError) :
    t.share s = .error e ↔ ∃ pre c post, t.consts = pre ++ c :: post ∧ (∀ c' ∈ pre, s.Known c') ∧ ¬ s.Known c ∧
      e = .undeclaredSymbol c.dotted := by
  rw [share_spec, spec_error_iff]
  simp only [display_eq]

/-- C18. A known constant is replaced by the symbol to which it resolves. -/
theorem C18_sym (s : Symbols) (c : PSymb) (h : s.Known c) : s.Resolves c.path c.name (s.sym c) := by
  obtain ⟨sym, h⟩ := h
  have := (C15_get_some s c.path c.name sym).2 h
  rw [Symbols.sym, this]
  exact h

/-- C18. Replacing constants keeps the meaning: the shared term denotes the plain term that the parsed term denotes. -/
theorem C18_den (s : Symbols) (t : PTerm Atom) (u : LTerm) (h : t.share s = .ok u) : u.den = t.den s.sym := by
  rw [((C18_ok s t u).1 h).2, resolve_den]

/-- `x => y (a.x x)` in the example table, and the error for `x (b.z Type) w` -/
example : (PTerm.share Example.syms (.new (.abst (str "x") none (.app (.atom (.const ⟨[], str "y"⟩))
      [.app (.atom (.const ⟨[str "a"], str "x"⟩)) [.new (.atom (.var 0))]]))) =
    .ok (.comb (.abst (str "x") none (.comb (.appl (.const 3) [.comb (.appl (.const 1) [.var 0])]))))) ∧
    PTerm.share Example.syms (.app (.atom (.const ⟨[], str "x"⟩)) [.app (.atom (.const ⟨[str "b"], str "z"⟩)) [.new (.atom .type)],
      .new (.atom (.const ⟨[], str "w"⟩))]) = .error (.undeclaredSymbol (str "b.z")) :=
  ⟨rfl, rfl⟩

/-! ## C19 -/

/-- C19. An introduction with parameters has exactly the successful results of the introduction with products over its type
and abstractions over its body (in the order of the parameters).  (An introduction with neither type nor body is never parsed.) -/
theorem C19_telescope (s : Symbols) (id : Str) (args : List (Str × PTerm Atom)) (it : Intro (PTerm Atom))
    (h : it ≠ .definition none none) (c : SCmd) :
    Scoped.share s (.intro id args it) = .ok c ↔ Scoped.share s (.intro id [] (it.telescope args)) = .ok c := by
  have key : ∀ (args' : List (Str × PTerm Atom)) (it' : Intro (PTerm Atom)),
      Scoped.share s (.intro id args' it') = .ok c ↔
        (∀ x, x ∈ it'.consts ∨ x ∈ argConsts args' → s.Known x) ∧ c = .intro id (wrapArgs s.sym args'.reverse (it'.resolve s.sym)) := by
    intro args' it'
    have h1 : Scoped.share s (.intro id args' it') =
        spec s (it'.consts ++ argConsts args'.reverse) (.intro id (wrapArgs s.sym args'.reverse (it'.resolve s.sym))) := by
      rw [Scoped.share, introShare_spec]
      simp only [spec, firstBad_append]
      cases firstBad s it'.consts with
      | some c => rfl
      | none =>
        simp only [shareArgs_spec, spec, Option.none_or]
        cases firstBad s (argConsts args'.reverse) <;> rfl
    rw [h1, spec_ok_iff]
    simp [argConsts]
  rw [key, key, telescope_resolve]
  simp only [mem_telescope_consts args it h, argConsts, List.flatMap_nil, List.not_mem_nil, or_false, wrapArgs, List.reverse_nil]

/-- C19. The meaning of the type over a telescope. -/
theorem C19_den_type (f : PSymb → Sym) (args : List (Str × PTerm Atom)) (t : PTerm Atom) :
    (telescopeType args t).den f = args.foldr (fun a u => .pi (a.2.den f) u) (t.den f) := by
  induction args with
  | nil => rfl
  | cons a args ih =>
    obtain ⟨x, A⟩ := a
    rw [telescopeType, PTerm.new, PTerm.den, PHead.den, PTerm.denList, ih]
    rfl

/-- C19. The meaning of the body over a telescope. -/
theorem C19_den_term (f : PSymb → Sym) (args : List (Str × PTerm Atom)) (t : PTerm Atom) :
    (telescopeTerm args t).den f = args.foldr (fun a u => .lam (a.2.den f) u) (t.den f) := by
  induction args with
  | nil => rfl
  | cons a args ih =>
    obtain ⟨x, A⟩ := a
    rw [telescopeTerm, PTerm.new, PTerm.den, PHead.den, PTerm.denList, ih]
    rfl

/-- `def f (v : y) (w : x v) : Type := v` -/
example : Scoped.share Example.syms (.intro (str "f") [(str "v", .new (.atom (.const ⟨[], str "y"⟩))),
      (str "w", .app (.atom (.const ⟨[], str "x"⟩)) [.new (.atom (.var 0))])]
      (.definition (some (.new (.atom .type))) (some (.new (.atom (.var 1)))))) =
    .ok (.intro (str "f") (.definition
      (some (.comb (.prod (str "v") (.const 3) (.comb (.prod (str "w") (.comb (.appl (.const 2) [.var 0])) .type)))))
      (some (.comb (.abst (str "v") (some (.const 3)) (.comb (.abst (str "w") (some (.comb (.appl (.const 2) [.var 0]))) (.var 1)))))))) :=
  rfl

/-! ## C20 -/

/-- what `Rule.share` yields on a rule whose left-hand side is a first-order pattern -/
theorem ruleShare_complete (s : Symbols) (r : PRule (PTerm Atom))
    (hc : ∀ c ∈ ctxConsts r.ctx ++ r.lhs.consts ++ r.rhs.consts, s.Known c) (hp : FOTop r.lhs) :
    ∃ c args ps, r.lhs = .app (.atom (.const c)) args ∧ PatOf s.sym r.ctx.length r.lhs (.symb (s.sym c) ps) ∧
      r.share s = .ok ⟨r.ctx.map fun a => (a.1, PTerm.resolveOpt s.sym a.2), ⟨s.sym c, ps⟩, r.rhs.resolve s.sym⟩ := by
  obtain ⟨c, args, h1, h2⟩ := hp
  obtain ⟨p, h3, h4⟩ := ofL_complete s.sym r.ctx.length r.lhs (h1 ▸ .symb h2)
  have h5 : ∃ ps, p.joke r.ctx.length = .symb (s.sym c) ps := by
    generalize p.joke r.ctx.length = q at h4
    rw [h1] at h4
    cases h4
    exact ⟨_, rfl⟩
  obtain ⟨ps, h5⟩ := h5
  refine ⟨c, args, ps, h1, h5 ▸ h4, ?_⟩
  simp only [List.mem_append] at hc
  rw [PRule.share, (shareCtx_spec s r.ctx).trans (spec_ok_iff.2 ⟨fun c h => hc c (.inl (.inl h)), rfl⟩)]
  simp only
  rw [(share_spec s r.lhs).trans (spec_ok_iff.2 ⟨fun c h => hc c (.inl (.inr h)), rfl⟩)]
  simp only
  rw [h3]
  simp only
  rw [h5]
  simp only [TopPattern.ofPattern]
  rw [(share_spec s r.rhs).trans (spec_ok_iff.2 ⟨fun c h => hc c (.inr h), rfl⟩)]

/-- C20. A rule is accepted iff all its constants are known, and its left-hand side is a constant applied to first-order patterns. -/
theorem C20_accepted_iff (s : Symbols) (r : PRule (PTerm Atom)) :
    (∃ r', r.share s = .ok r') ↔
      (∀ c ∈ ctxConsts r.ctx ++ r.lhs.consts ++ r.rhs.consts, s.Known c) ∧ FOTop r.lhs := by
  constructor
  · rintro ⟨r', h⟩
    rw [PRule.share] at h
    cases h1 : shareCtx s r.ctx with
    | error e => rw [h1] at h; simp at h
    | ok ctx =>
      rw [h1] at h
      cases h2 : r.lhs.share s with
      | error e => rw [h2] at h; simp at h
      | ok lhs =>
        rw [h2] at h
        cases h3 : Pattern.ofL lhs with
        | error e => simp only [h3] at h; simp at h
        | ok p =>
          simp only [h3] at h
          cases h4 : TopPattern.ofPattern (p.joke r.ctx.length) with
          | error e => simp only [h4] at h; simp at h
          | ok top =>
            simp only [h4] at h
            cases h5 : r.rhs.share s with
            | error e => simp only [h5] at h; simp at h
            | ok rhs =>
              rw [shareCtx_spec, spec_ok_iff] at h1
              obtain ⟨h2', rfl⟩ := (C18_ok ..).1 h2
              obtain ⟨h5, -⟩ := (C18_ok ..).1 h5
              refine ⟨?_, ?_⟩
              · intro c hc
                simp only [List.mem_append] at hc
                rcases hc with (hc | hc) | hc
                · exact h1.1 c hc
                · exact h2' c hc
                · exact h5 c hc
              · have := ofL_sound s.sym r.lhs p h3
                generalize r.lhs = l at this h3
                clear h h2 h2'
                revert h3
                cases this with
                | var =>
                  intro h3
                  simp only [PTerm.resolve, PHead.resolve, Pattern.ofL, Except.ok.injEq] at h3
                  subst h3
                  rw [Pattern.joke] at h4
                  split at h4 <;> simp [TopPattern.ofPattern] at h4
                | symb h => intro _; exact ⟨_, _, rfl, h⟩
  · rintro ⟨hc, hp⟩
    obtain ⟨c, args, ps, -, -, h⟩ := ruleShare_complete s r hc hp
    exact ⟨_, h⟩

/-- C20. The shared rule has the same context, the head of the left-hand side resolved, its arguments turned into patterns (the
variable after the context being the wildcard, the other variables keeping their index), and the same right-hand side. -/
theorem C20_result (s : Symbols) (r : PRule (PTerm Atom)) (r' : Rule) (h : r.share s = .ok r') :
    r'.ctx = r.ctx.map (fun a => (a.1, PTerm.resolveOpt s.sym a.2)) ∧
    PatOf s.sym r.ctx.length r.lhs (.symb r'.lhs.symbol r'.lhs.args) ∧ r'.rhs = r.rhs.resolve s.sym := by
  obtain ⟨hc, hp⟩ := (C20_accepted_iff s r).1 ⟨r', h⟩
  obtain ⟨c, args, ps, h1, h2, h3⟩ := ruleShare_complete s r hc hp
  rw [h3] at h
  cases h
  exact ⟨rfl, h2, rfl⟩

/-- C20. The pattern of a term is unique. -/
theorem C20_pattern_unique (f : PSymb → Sym) (n : Nat) (t : PTerm Atom) (p : Pattern) (h : PatOf f n t p) :
    ∀ q, PatOf f n t q → p = q := by
  induction h with
  | var hi =>
    intro q h'
    cases h' with
    | var => rfl
    | wild => exact absurd rfl hi
  | wild =>
    intro q h'
    cases h' with
    | var hi => exact absurd rfl hi
    | wild => rfl
  | symb hl h ih =>
    intro q h'
    cases h' with
    | symb hl' h'' =>
      congr 1
      apply List.ext_getElem (by rw [← hl, ← hl'])
      intro i h1 h2
      exact ih i (by omega) (by omega) _ (h'' i (by omega) h2)

/-- `[v] y (x v _) --> v` is accepted; `[v] y (v Type) --> v` is not -/
example : PRule.share Example.syms ⟨[(str "v", none)], .app (.atom (.const ⟨[], str "y"⟩)) [.app (.atom (.const ⟨[], str "x"⟩))
      [.new (.atom (.var 0)), .new (.atom (.var 1))]], .new (.atom (.var 0))⟩ =
    .ok ⟨[(str "v", none)], ⟨3, [.symb 2 [.mvar 0, .joker]]⟩, .var 0⟩ ∧
    PRule.share Example.syms ⟨[(str "v", none)], .app (.atom (.const ⟨[], str "y"⟩)) [.app (.atom (.var 0)) [.new (.atom .type)]],
      .new (.atom (.var 0))⟩ = .error .noPrepattern := ⟨rfl, rfl⟩

#print axioms C18_ok
#print axioms C18_error
#print axioms C18_sym
#print axioms C18_den
#print axioms C19_telescope
#print axioms C19_den_type
#print axioms C19_den_term
#print axioms C20_accepted_iff
#print axioms C20_result
#print axioms C20_pattern_unique

end Kontroli
