import Verif.Proofs.CorrectProgram
import Verif.Proofs.Overlap

/-!
# Programs without rewrite rules are regular
-/

namespace Kontroli

theorem resolve_var_lt {env : List (Option Str)} {s : PSymb} {n : Nat} (h : resolve env s = .var n) : n < env.length := by
  rw [resolve] at h
  split at h
  · split at h
    · next m hm =>
      cases h
      exact (List.findIdx?_eq_some_iff_getElem.1 hm).1
    · split at h <;> cases h
  · cases h

theorem Tm.FreeBelow.apps {k : Nat} {as : List Tm} {f : Tm} (hf : f.FreeBelow k) (ha : ∀ a ∈ as, a.FreeBelow k) : (Tm.apps f as).FreeBelow k := by
  induction as generalizing f with
  | nil => exact hf
  | cons a as ih =>
    exact ih (f := .app f a) ⟨hf, ha a List.mem_cons_self⟩ fun b hb => ha b (List.mem_cons_of_mem _ hb)

mutual
  theorem scope_freeBelow (f : PSymb → Sym) (env : List (Option Str)) : (t : PTerm PSymb) → ((t.scope env).den f).FreeBelow env.length
    | .app h args => by
      rw [PTerm.scope, PTerm.den]
      exact (headScope_freeBelow f env h).apps (argsScope_freeBelow f env args)
  theorem headScope_freeBelow (f : PSymb → Sym) (env : List (Option Str)) : (t : PHead PSymb) → ((t.scope env).den f).FreeBelow env.length
    | .atom s => by
      rw [PHead.scope]
      cases h : resolve env s with
      | const c => trivial
      | var n => exact resolve_var_lt h
      | type => trivial
    | .abst x none tm => by
      rw [PHead.scope, PHead.den]
      exact scope_freeBelow f (some x :: env) tm
    | .abst x (some ty) tm => by
      rw [PHead.scope, PHead.den]
      exact ⟨scope_freeBelow f env ty, scope_freeBelow f (some x :: env) tm⟩
    | .prod x ty tm => by
      rw [PHead.scope, PHead.den]
      exact ⟨scope_freeBelow f env ty, scope_freeBelow f (x :: env) tm⟩
  theorem argsScope_freeBelow (f : PSymb → Sym) (env : List (Option Str)) :
      (as : List (PTerm PSymb)) → ∀ a ∈ PTerm.denList f (scopeArgs env as), a.FreeBelow env.length
    | [] => by simp [scopeArgs, PTerm.denList]
    | a :: as => by
      rw [scopeArgs, PTerm.denList]
      intro b hb
      rcases List.mem_cons.1 hb with rfl | hb
      · exact scope_freeBelow f env a
      · exact argsScope_freeBelow f env as b hb
end

theorem telescopeTerm_freeBelow (f : PSymb → Sym) (args : List (Str × PTerm PSymb)) (env : List (Option Str)) (t : PTerm Atom)
    (h : (t.den f).FreeBelow ((args.map fun a => some a.1).reverse ++ env).length) :
    ((telescopeTerm (scopeTele PTerm.scope env args) t).den f).FreeBelow env.length := by
  induction args generalizing env with
  | nil => rw [scopeTele, telescopeTerm]; simpa using h
  | cons a args ih =>
    obtain ⟨x, A⟩ := a
    rw [scopeTele, telescopeTerm, PTerm.new, PTerm.den, PHead.den, PTerm.denList, Tm.apps]
    refine ⟨scope_freeBelow f env A, ih (some x :: env) ?_⟩
    have e : ((args.map fun a => some a.1).reverse ++ some x :: env).length =
        (((x, A) :: args).map (fun a => some a.1)).reverse.length + env.length := by simp; omega
    rw [e, ← List.length_append]
    exact h

/-- the rules of an introduction that was shared: none, or the definition, whose right-hand side is closed -/
theorem IntroMeans.rules {R : PSymb → Sym → Prop} {args : List (Str × PTerm PSymb)} {it : Intro (PTerm PSymb)} {it' : Intro LTerm}
    (h : IntroMeans R args it it') {s : Sym} {rs : List Rule} (hr : it'.ruleList s = some rs) :
    rs = [] ∨ ∃ tm : LTerm, rs = [⟨[], ⟨s, []⟩, tm⟩] ∧ tm.den.FreeBelow 0 := by
  obtain ⟨f, -, rfl⟩ := h
  cases it with
  | declaration inj ty => cases inj <;> cases hr; exact .inl rfl
  | theorem_ ty tm => cases hr
  | definition ty tm =>
    cases tm with
    | none => cases hr; exact .inl rfl
    | some tm =>
      cases hr
      refine .inr ⟨_, rfl, ?_⟩
      rw [resolve_den]
      refine telescopeTerm_freeBelow f args [] _ ?_
      have := scope_freeBelow f (teleEnv (args.map Prod.fst)) tm
      simpa [teleEnv, List.map_map] using this

/-- every symbol of a program without rewrite rules has no rules but its definition -/
theorem Shared.static {ns : List (List Str × Str)} {es : List Entry} {cmds : List Cmd} (h : Shared ns es cmds)
    (hs : ∀ e ∈ es, ∀ rs, e.cmd ≠ .rules rs) : ∀ s it, .intro s it ∈ cmds → ∀ rs, it.ruleList s = some rs →
      rs = [] ∨ ∃ tm : LTerm, rs = [⟨[], ⟨s, []⟩, tm⟩] ∧ tm.den.FreeBelow 0 := by
  induction h with
  | nil => intro s it h; cases h
  | intro hx hi _ ih =>
    intro s it h rs hr
    rcases List.mem_cons.1 h with e | h
    · cases e; exact hi.rules hr
    · exact ih (fun e he => hs e (List.mem_cons_of_mem _ he)) s it h rs hr
  | rules => exact absurd rfl (hs _ List.mem_cons_self _)

theorem Shared.noRules {ns : List (List Str × Str)} {es : List Entry} {cmds : List Cmd} (h : Shared ns es cmds)
    (hs : ∀ e ∈ es, ∀ rs, e.cmd ≠ .rules rs) (rs : List Rule) : .rules rs ∉ cmds := by
  induction h with
  | nil => simp
  | intro hx hi _ ih =>
    rw [List.mem_cons, not_or]
    exact ⟨by simp, ih fun e he => hs e (List.mem_cons_of_mem _ he)⟩
  | rules => exact absurd rfl (hs _ List.mem_cons_self _)

theorem rulesOfCmds_static {cmds : List Cmd} (hn : ∀ rs, .rules rs ∉ cmds) {s : Sym} {rs : List Rule} (h : rulesOfCmds cmds s = some rs) :
    ∃ it, .intro s it ∈ cmds ∧ it.ruleList s = some rs := by
  induction cmds using List.reverseRecOn with
  | nil => cases h
  | append_singleton cmds cmd ih =>
    rw [rulesOfCmds_snoc] at h
    cases cmd with
    | intro s' it =>
      simp only at h
      split at h
      · next e => subst e; exact ⟨it, by simp, h⟩
      · obtain ⟨it', h1, h2⟩ := ih (fun rs hr => hn rs (List.mem_append_left _ hr)) h
        exact ⟨it', List.mem_append_left _ h1, h2⟩
    | rules rs' => exact absurd (by simp) (hn rs')

theorem Orthogonal.static {R : RuleMap} (key : ∀ s rs, R s = some rs → rs = [] ∨ ∃ tm : LTerm, rs = [⟨[], ⟨s, []⟩, tm⟩] ∧ tm.den.FreeBelow 0) :
    Orthogonal R := by
  refine ⟨?_, ?_, ?_, ?_⟩
  · intro s rs r hr hm
    rcases key s rs hr with rfl | ⟨tm, rfl, -⟩
    · cases hm
    · rw [List.mem_singleton.1 hm]; exact List.nodup_nil
  · intro s rs r hr hm
    rcases key s rs hr with rfl | ⟨tm, rfl, h0⟩
    · cases hm
    · rw [List.mem_singleton.1 hm]; exact h0
  · intro s rs r r' hr hm hm'
    left
    rcases key s rs hr with rfl | ⟨tm, rfl, -⟩
    · cases hm
    · rw [List.mem_singleton.1 hm, List.mem_singleton.1 hm']
  · intro s rs r s' ps rs' r' us bs hr hm hin
    rcases key s rs hr with rfl | ⟨tm, rfl, -⟩
    · cases hm
    · rw [List.mem_singleton.1 hm] at hin; cases hin

theorem Definitional.static {R : RuleMap} (key : ∀ s rs, R s = some rs → rs = [] ∨ ∃ tm : LTerm, rs = [⟨[], ⟨s, []⟩, tm⟩] ∧ tm.den.FreeBelow 0) :
    Definitional R := by
  refine ⟨?_, ?_, ?_⟩
  · intro s rs r hr hm
    rcases key s rs hr with rfl | ⟨tm, rfl, -⟩
    · cases hm
    · rw [List.mem_singleton.1 hm]
  · intro s rs r hr hm
    rcases key s rs hr with rfl | ⟨tm, rfl, h0⟩
    · cases hm
    · rw [List.mem_singleton.1 hm]; exact h0
  · intro s rs r r' hr hm hm'
    rcases key s rs hr with rfl | ⟨tm, rfl, -⟩
    · cases hm
    · rw [List.mem_singleton.1 hm, List.mem_singleton.1 hm']

/-- A program without rewrite rules is regular, with or without eta. -/
theorem RegularIn.static {eta : Bool} {es : List Entry} (hs : ∀ e ∈ es, ∀ rs, e.cmd ≠ .rules rs) : RegularIn eta es := by
  refine ⟨fun m rs h => absurd rfl (hs _ h rs), ?_, ?_⟩
  · intro cmds h pre rs post T e
    exact absurd (e ▸ List.mem_append_right pre List.mem_cons_self) (h.noRules hs rs)
  · intro cmds h
    have key : ∀ s rs, rulesOfCmds cmds s = some rs → rs = [] ∨ ∃ tm : LTerm, rs = [⟨[], ⟨s, []⟩, tm⟩] ∧ tm.den.FreeBelow 0 := by
      intro s rs hr
      obtain ⟨it, h1, h2⟩ := rulesOfCmds_static (h.noRules hs) hr
      exact h.static hs s it h1 rs h2
    cases eta with
    | false => exact Orthogonal.static key
    | true => exact Definitional.static key

end Kontroli
