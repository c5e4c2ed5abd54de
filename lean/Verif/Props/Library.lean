import Verif.Proofs.Library
import Verif.Props.Web

/-!
# C59: the loop of users of the library
-/

namespace Kontroli

/-- C59. If the loop of the documentation accepts a text, the text is a program, and if its rules are right and orthogonal, the program is correct and
makes the theory of the final context, and in its introductions every abstraction without a type stands where its type is known. -/
theorem C59_sound (k : Kern) (hk : k.Real) (text : Str) (gc : GCtx) (h : libCheck k text = .ok gc) :
    ∃ cs, WholeTextOf text cs ∧ ((∀ cmds, Shared [] (cs.map (Entry.mk [])) cmds → RulesRight cmds ∧ Orthogonal (rulesOfCmds cmds)) →
      Correct (cs.map (Entry.mk [])) gc.theory ∧ ∀ c ∈ cs, (∀ rs, c ≠ .rules rs) → c.Known) := by
  obtain ⟨cs, cmds, ht, hs, hr⟩ := libCheck_ok.1 h
  refine ⟨cs, ht, fun hR => ?_⟩
  have hS := lib_sound hk (hR cmds hs).1 (libRun_confluent hk hr (hR cmds hs).2) hr
  exact ⟨⟨cmds, hs, hS⟩, fun c hc => hs.directed_intros hS.noEmpty (libRun_known hk hr) _ (List.mem_map_of_mem hc)⟩

/-- C59. If the loop ends on a text whose rules are right and orthogonal, it accepts if and only if the text is a correct program in whose introductions
every abstraction without a type stands where its type is known. -/
theorem C59_exact (k : Kern) (hk : k.Exact) (text : Str)
    (hR : ∀ cs, WholeTextOf text cs → ∀ cmds, Shared [] (cs.map (Entry.mk [])) cmds → RulesRight cmds ∧ Orthogonal (rulesOfCmds cmds))
    (hd : libCheck k text ≠ .timeout) :
    (∃ gc, libCheck k text = .ok gc) ↔ ∃ cs T, WholeTextOf text cs ∧ Correct (cs.map (Entry.mk [])) T ∧ ∀ c ∈ cs, (∀ rs, c ≠ .rules rs) → c.Known := by
  constructor
  · rintro ⟨gc, h⟩
    obtain ⟨cs, ht, h1⟩ := C59_sound k hk.real text gc h
    exact ⟨cs, _, ht, h1 (hR cs ht)⟩
  · rintro ⟨cs, T, ht, ⟨cmds, hs, hS⟩, hd'⟩
    obtain ⟨h1, hp⟩ := libCheck_of (k := k) ht hs
    rw [h1] at hd ⊢
    have ha := hs.known_intros (by
      intro e he
      obtain ⟨c, hc, rfl⟩ := List.mem_map.1 he
      exact hd' c hc)
    rcases lib_complete hk hS ha hp (by rw [hS.rulesEq]; exact (hR cs ht cmds hs).2) with ⟨gc, h2, -⟩ | h2
    · exact ⟨gc, h2⟩
    · exact absurd h2 hd

/-- C59. What the web checker accepts, the loop accepts, with the same context, if no name has a path. -/
theorem C59_web (k : Kern) (text : Str) (hu : ∀ cs, WholeTextOf text cs → ∀ c ∈ cs, c.Unqualified) (gc : GCtx)
    (h : CheckSingle k text false 3 gc (.ok ())) : libCheck k text = .ok gc := by
  obtain ⟨cs, cmds, ht, hs, hr, -⟩ := (libCheck_web hu).1 h
  exact libCheck_ok.2 ⟨cs, cmds, ht, hs, hr⟩

/-- C59. Without rules, the two accept the same. -/
theorem C59_web_norules (k : Kern) (text : Str) (hu : ∀ cs, WholeTextOf text cs → ∀ c ∈ cs, c.Unqualified ∧ ∀ rs, c ≠ .rules rs) (gc : GCtx) :
    CheckSingle k text false 3 gc (.ok ()) ↔ libCheck k text = .ok gc := by
  refine ⟨C59_web k text (fun cs ht c hc => (hu cs ht c hc).1) gc, fun h => ?_⟩
  obtain ⟨cs, cmds, ht, hs, hr⟩ := libCheck_ok.1 h
  refine (libCheck_web fun cs ht c hc => (hu cs ht c hc).1).2 ⟨cs, cmds, ht, hs, hr, ?_⟩
  intro pre cmd post gc' e _
  cases cmd with
  | intro s it => trivial
  | rules rs =>
    refine absurd (e ▸ List.mem_append_right pre List.mem_cons_self) (hs.noRules ?_ rs)
    intro x hx
    obtain ⟨c, hc, rfl⟩ := List.mem_map.1 hx
    exact (hu cs ht c hc).2

/-- C59. The benchmarks parse a text if and only if it is a program, and then check it like the loop of the documentation. -/
theorem C59_bench (k : Kern) (text : Str) :
    (∀ cmds, benchParse text = some cmds → benchCheck k cmds = libCheck k text) ∧
    ((∃ cmds, benchParse text = some cmds) ↔ ∃ cs, WholeTextOf text cs) := by
  have key : ∀ (l : List (POut ParseError Scoped)) cmds, l.foldr (fun c cs => match c with
      | .ok c => cs.map (c :: ·)
      | _ => none) (some []) = some cmds ↔ l = cmds.map .ok := by
    intro l
    induction l with
    | nil => intro cmds; cases cmds <;> simp
    | cons a l ih =>
      intro cmds
      rw [List.foldr_cons]
      cases a with
      | ok c =>
        simp only [Option.map_eq_some_iff, ih]
        constructor
        · rintro ⟨cs, rfl, rfl⟩; rfl
        · intro h
          cases cmds with
          | nil => cases h
          | cons d cmds =>
            simp only [List.map_cons, List.cons.injEq, POut.ok.injEq] at h
            exact ⟨cmds, h.2, by rw [h.1]⟩
      | err e => simp only [reduceCtorEq, false_iff]; cases cmds <;> simp
      | panic => simp only [reduceCtorEq, false_iff]; cases cmds <;> simp
  constructor
  · intro cmds h
    unfold benchCheck libCheck
    rw [(key _ _).1 h]
  · constructor
    · rintro ⟨cmds, h⟩
      refine wholeText_of_ok fun i hi => ?_
      rw [(key _ _).1 h] at hi
      obtain ⟨c, -, rfl⟩ := List.mem_map.1 hi
      exact ⟨c, rfl⟩
    · rintro ⟨cs, ht⟩
      refine ⟨cs.map PCmd.scope, (key _ _).2 ?_⟩
      rw [strict_all_ok ht, List.map_map]
      rfl

/-! ## What fails -/

/-- `f : B` is rewritten to `a : A` -/
def Example.badRule : Str := str "A : Type. B : Type. a : A. def f : B. [] f --> a."

/-- C59. The loop does not check rules: it accepts a rule whose sides have different types, which the web checker refuses.  So its verdict is wrong
without the hypothesis on rules. -/
theorem C59_rules_false : (∃ gc, libCheck (Kern.std 30 fun _ => true) Example.badRule = .ok gc) ∧
    ∃ gc e, CheckSingle (Kern.std 30 fun _ => true) Example.badRule false 3 gc (.err e) := by
  constructor
  · refine Out.isOk_iff.1 ?_
    decide +kernel
  · obtain ⟨gc, h⟩ := Example.web [(str "main", Example.badRule)]
    rw [List.flatMap_singleton] at h
    have hres : (Example.webVerdict [(str "main", Example.badRule)]).isErr = true := by decide +kernel
    generalize Example.webVerdict [(str "main", Example.badRule)] = res at h hres
    cases res with
    | err e => exact ⟨gc, e, h⟩
    | ok => cases hres
    | panic => cases hres
    | timeout => cases hres

/-- C59. The web checker opens a module with the name `main`, the loop does not: for names with paths the verdicts differ. -/
theorem C59_qualified_false : (∃ gc, CheckSingle (Kern.std 30 fun _ => true) (str "A : Type. a : main.A.") false 3 gc (.ok ())) ∧
    ∃ e, libCheck (Kern.std 30 fun _ => true) (str "A : Type. a : main.A.") = .err e := by
  constructor
  · have := Example.web [(str "main", str "A : Type. a : main.A.")]
    rwa [List.flatMap_singleton, Out.isOk_unit (o := Example.webVerdict [(str "main", str "A : Type. a : main.A.")]) (by decide +kernel)] at this
  · have hres : (libCheck (Kern.std 30 fun _ => true) (str "A : Type. a : main.A.")).isErr = true := by decide +kernel
    generalize libCheck (Kern.std 30 fun _ => true) (str "A : Type. a : main.A.") = res at hres
    cases res with
    | err e => exact ⟨e, rfl⟩
    | ok => cases hres
    | panic => cases hres
    | timeout => cases hres

/-! ## Examples -/

/-- The text of the documentation (`kontroli/src/lib.rs` L39-50). -/
def Example.docText : Str :=
  str "\n    (; declarations ;)\n    prop : Type.\n    imp : prop -> prop -> prop.\n\n    (; definition with a rewrite rule ;)\n    def proof : prop -> Type.\n" ++
  str "    [x: prop, y: prop] proof (imp x y) --> proof x -> proof y.\n\n    (; theorem ;)\n" ++
  str "    thm imp_refl (x : prop) : proof (imp x x) := p : proof x => p.\n"

set_option maxRecDepth 100000 in
/-- It is accepted. -/
example : ∃ gc, libCheck (Kern.std 60 fun _ => true) Example.docText = .ok gc := Out.isOk_iff.1 (by decide +kernel)

/-- A text that is not a program leads to a panic, one with a wrong theorem to an error. -/
example : (match libCheck (Kern.std 30 fun _ => true) (str "A : Type. a : ") with | .panic => true | _ => false) = true ∧
    (libCheck (Kern.std 30 fun _ => true) (str "A : Type. a : A. thm b : Type := a.")).isErr = true := by decide +kernel

/-- The hypotheses of the theorems hold for a text without rules, and it is correct. -/
example : ∃ cs T, WholeTextOf (str "A : Type. a : A.") cs ∧ Correct (cs.map (Entry.mk [])) T ∧ ∀ c ∈ cs, (∀ rs, c ≠ .rules rs) → c.Known := by
  have ht : WholeTextOf (str "A : Type. a : A.") [.intro (str "A") [] (.declaration false (.new (.atom ⟨[], str "Type"⟩))),
      .intro (str "a") [] (.declaration false (.new (.atom ⟨[], str "A"⟩)))] := (C47_strict _ _).1 rfl
  have hok : (libCheck (Kern.std 30 fun _ => true) (str "A : Type. a : A.")).isOk = true := by decide +kernel
  refine (C59_exact (Kern.std 30 fun _ => true) (Kern.std_exact ..) _ ?_ (fun e => by rw [e] at hok; cases hok)).1 (Out.isOk_iff.1 hok)
  intro cs hcs
  rw [hcs.unique ht]
  refine fun cmds hs => ⟨?_, ?_⟩
  · intro pre rs post T e
    exact absurd (e ▸ List.mem_append_right pre List.mem_cons_self) (hs.noRules (by simp) rs)
  · exact (RegularIn.static (eta := false) (es := List.map (Entry.mk []) _) (by simp)).orthogonal cmds hs

#print axioms C59_sound
#print axioms C59_exact
#print axioms C59_web
#print axioms C59_web_norules
#print axioms C59_bench
#print axioms C59_rules_false
#print axioms C59_qualified_false

end Kontroli
