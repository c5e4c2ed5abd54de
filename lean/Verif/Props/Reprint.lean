import Verif.Proofs.Parsed
import Verif.Proofs.Program
import Verif.Props.Scope

/-!
# C22 for texts: what is parsed, printed and parsed again is the same
-/

namespace Kontroli

/-- C22. The commands of any text that the strict parser takes, printed with a dot and the end of a line after each of them, are parsed to
the same commands. -/
theorem C22_text (text : Str) (cs : List (PCmd (PTerm PSymb))) (h : strict scopeSymb text = cs.map .ok) :
    strict scopeSymb (cs.flatMap fun c => c.show ++ str ".\n") = cs.map .ok :=
  print_whole cs (WholeTextOf.valid ((C47_strict _ _).1 h))

/-- C22. The same for texts that are parsed line by line. -/
theorem C22_lines (text : Str) (cs : List (PCmd (PTerm PSymb))) (h : TextOf text cs) :
    TextOf (cs.flatMap fun c => c.show ++ str ".\n") cs :=
  print_lines cs h.valid h.line

/-- C22. The commands of such texts are the ones that can be written down: conversely, all of them are the commands of a text. -/
theorem C22_range (cs : List (PCmd (PTerm PSymb))) : (∃ text, strict scopeSymb text = cs.map .ok) ↔ ∀ c ∈ cs, c.Valid := by
  constructor
  · rintro ⟨text, h⟩ c hc
    exact (WholeTextOf.valid ((C47_strict _ _).1 h) c hc).valid
  · intro h
    refine ⟨printCmds cs, ?_⟩
    rw [strict_eq]
    exact printCmds_parse cs h

theorem printParsed_iff {A : Type} (da : A → Str) (l : List (POut ParseError (PCmd (PTerm A)))) (s : Str) : printParsed da l = (s, true) ↔
    ∃ cs : List (PCmd (PTerm A)), l = cs.map .ok ∧ s = cs.flatMap (PCmd.display (PTerm.display da)) := by
  induction l generalizing s with
  | nil =>
    constructor
    · rintro ⟨⟩
      exact ⟨[], rfl, rfl⟩
    · rintro ⟨cs, h, rfl⟩
      cases cs with
      | nil => rfl
      | cons c cs => cases h
  | cons x l ih =>
    cases x with
    | ok c =>
      rw [printParsed]
      constructor
      · intro h
        obtain ⟨h1, h2⟩ := Prod.ext_iff.1 h
        obtain ⟨cs, rfl, h3⟩ := (ih _).1 (Prod.ext rfl h2)
        exact ⟨c :: cs, rfl, by rw [List.flatMap_cons, ← h3]; exact h1.symm⟩
      · rintro ⟨cs, h, rfl⟩
        cases cs with
        | nil => cases h
        | cons d cs =>
          obtain ⟨⟨⟩, rfl⟩ := List.cons.inj h
          rw [(ih _).2 ⟨cs, rfl, rfl⟩]
          rfl
    | err e =>
      constructor
      · rintro ⟨⟩
      · rintro ⟨cs, h, -⟩
        cases cs <;> cases h
    | panic =>
      constructor
      · rintro ⟨⟩
      · rintro ⟨cs, h, -⟩
        cases cs <;> cases h

theorem printParsed_up {A : Type} (da : A → Str) (l : List (POut ParseError (PCmd (PTerm A)))) :
    printParsed da (upToError l) = printParsed da l := by
  induction l with
  | nil => rfl
  | cons x l ih =>
    cases x with
    | ok c => rw [upToError, printParsed, printParsed, ih]
    | err e => rfl
    | panic => rfl

theorem upToError_all {C : Type} (cs : List C) : ∀ l : List (POut ParseError C), upToError l = cs.map .ok → l = cs.map .ok := by
  induction cs with
  | nil =>
    intro l h
    cases l with
    | nil => rfl
    | cons x l => cases x <;> cases h
  | cons c cs ih =>
    intro l h
    cases l with
    | nil => cases h
    | cons x l =>
      cases x with
      | ok d =>
        obtain ⟨⟨⟩, h'⟩ := List.cons.inj h
        rw [ih l h', List.map_cons]
      | err e => cases (List.cons.inj h).1
      | panic => cases (List.cons.inj h).1

theorem printParsed_scope (l : List (POut ParseError (PCmd (PTerm PSymb)))) (l' : List (POut ParseError (PCmd (PTerm Atom))))
    (h : upToError l' = (upToError l).map scopeItem) (s : Str) : printParsed Atom.display l' = (s, true) ↔
    ∃ cs : List (PCmd (PTerm PSymb)), l = cs.map .ok ∧ s = cs.flatMap fun c => c.scope.display (PTerm.display Atom.display) := by
  rw [← printParsed_up, h, printParsed_iff]
  constructor
  · rintro ⟨cs, h1, rfl⟩
    have : ∀ (m : List (POut ParseError (PCmd (PTerm PSymb)))) (cs : List (PCmd (PTerm Atom))), m.map scopeItem = cs.map .ok →
        ∃ ds : List (PCmd (PTerm PSymb)), m = ds.map .ok ∧ cs = ds.map PCmd.scope := by
      intro m
      induction m with
      | nil =>
        intro cs h
        cases cs with
        | nil => exact ⟨[], rfl, rfl⟩
        | cons c cs => cases h
      | cons x m ih =>
        intro cs h
        cases cs with
        | nil => cases h
        | cons c cs =>
          obtain ⟨h1, h2⟩ := List.cons.inj h
          obtain ⟨ds, rfl, rfl⟩ := ih cs h2
          cases x with
          | ok d =>
            cases h1
            exact ⟨d :: ds, rfl, rfl⟩
          | err e => cases h1
          | panic => cases h1
    obtain ⟨ds, h2, rfl⟩ := this _ _ h1
    exact ⟨ds, upToError_all ds l h2, List.flatMap_map ..⟩
  · rintro ⟨cs, rfl, rfl⟩
    refine ⟨cs.map PCmd.scope, ?_, (List.flatMap_map ..).symm⟩
    have : upToError (cs.map (POut.ok (ε := ParseError))) = cs.map .ok := by
      clear h
      induction cs with
      | nil => rfl
      | cons c cs ih => rw [List.map_cons, upToError, ih]
    rw [this, List.map_map, List.map_map]
    rfl

theorem items_textOf (text : Str) (cs : List (PCmd (PTerm PSymb))) :
    (LazyP.new (splitLines [] text)).items scopeSymb (text.length + 3) = cs.map .ok ↔ TextOf text cs := by
  have hlen := lazyRun_length scopeSymb (splitLines [] text) 0 PState.new PCtx.new
  have hlen' := splitLines_length [] text
  have h1 := items_run scopeSymb (splitLines [] text) (text.length + 3) 0 PState.new PCtx.new PState.new_open
  rw [textOf_iff]
  cases hr : lazyRun scopeSymb (splitLines [] text) 0 PState.new PCtx.new with
  | mk ds e =>
    rw [hr] at hlen h1
    simp only [List.length_nil, Nat.zero_add] at hlen hlen'
    cases e with
    | none =>
      simp only at h1
      have h1 : (LazyP.new (splitLines [] text)).items scopeSymb (text.length + 3) = _ := h1
      rw [h1, List.take_of_length_le (by simp; omega)]
      constructor
      · intro h
        rw [Prod.mk.injEq]
        exact ⟨List.map_injective_iff.2 (fun a b h => by cases h; rfl) h, rfl⟩
      · intro h
        rw [(Prod.mk.inj h).1]
    | some e =>
      simp only at h1
      have h1 : ((LazyP.new (splitLines [] text)).items scopeSymb (text.length + 3)).take _ = _ := h1
      rw [List.take_of_length_le (l := _ ++ _) (by simp; omega)] at h1
      constructor
      · intro h
        exfalso
        have hm : failOut e ∈ (LazyP.new (splitLines [] text)).items scopeSymb (text.length + 3) := by
          apply List.mem_of_mem_take (i := ds.length + 1)
          rw [h1]; simp
        rw [h] at hm
        obtain ⟨c, -, hc⟩ := List.mem_map.1 hm
        cases e <;> cases hc
      · intro h
        cases (Prod.mk.inj h).2

/-- C22. In its parsing mode, the formatter prints the commands of a text, and panics if there is an error. -/
theorem C22_kofmt (text s : Str) : kofmtParse false false text = (s, true) ↔
    ∃ cs : List (PCmd (PTerm PSymb)), strict scopeSymb text = cs.map .ok ∧ s = cs.flatMap PCmd.show :=
  printParsed_iff _ _ _

/-- C22. The same with the option to parse line by line. -/
theorem C22_kofmt_lazy (text s : Str) : kofmtParse true false text = (s, true) ↔
    ∃ cs : List (PCmd (PTerm PSymb)), TextOf text cs ∧ s = cs.flatMap PCmd.show := by
  refine (printParsed_iff _ _ _).trans (exists_congr fun cs => and_congr_left' (items_textOf text cs))

/-- C22. With the option `--scope`, variables are printed as their indices. -/
theorem C22_kofmt_scope (text s : Str) : kofmtParse false true text = (s, true) ↔
    ∃ cs : List (PCmd (PTerm PSymb)), strict scopeSymb text = cs.map .ok ∧ s = cs.flatMap fun c => c.scope.display (PTerm.display Atom.display) :=
  printParsed_scope _ _ (C24_strict text) s

/-- C22. With both options. -/
theorem C22_kofmt_lazy_scope (text s : Str) : kofmtParse true true text = (s, true) ↔
    ∃ cs : List (PCmd (PTerm PSymb)), TextOf text cs ∧ s = cs.flatMap fun c => c.scope.display (PTerm.display Atom.display) :=
  (printParsed_scope _ _ (C24_lazy _ _) s).trans (exists_congr fun cs => and_congr_left' (items_textOf text cs))

/-- C22 is false of the formatter, which prints nothing between commands: its output need not be a sequence of commands. -/
theorem C22_kofmt_false : kofmtParse false false (str "a : Type. b : a.") = (str "a : Typeb : a", true) ∧
    ∀ cs : List (PCmd (PTerm PSymb)), strict scopeSymb (str "a : Typeb : a") ≠ cs.map .ok := by
  refine ⟨by decide +kernel, fun cs h => ?_⟩
  have h1 := (C22_kofmt _ _).2 ⟨cs, h, rfl⟩
  have h2 : (kofmtParse false false (str "a : Typeb : a")).2 = false := by decide +kernel
  rw [h1] at h2
  cases h2

/-- a text with comments, pragmas and superfluous parentheses, and how it is printed -/
example : kofmtParse false false (str "#A. thm t:((a)):=(; (; ;) ;)x => (x) x.[x,y:b]f x-->y[]g-->h.") =
    (str "thm t : a := (x => (x x))[x, y: b] (f x) --> y[] g --> h", true) := by
  decide +kernel

/-- C22 is false with the option `--scope`: variables are printed as indices, which are read as names. -/
theorem C22_scope_false : kofmtParse false true (str "f : A : Type -> A.") = (str "f : (A : Type -> 0)", true) ∧
    kofmtParse false true (str "f : (A : Type -> 0).") = (str "f : (A : Type -> 0)", true) ∧
    ¬ ∃ cs : List (PCmd (PTerm PSymb)), strict scopeSymb (str "f : A : Type -> A.") = cs.map .ok ∧ strict scopeSymb (str "f : (A : Type -> 0).") = cs.map .ok := by
  refine ⟨by decide +kernel, by decide +kernel, ?_⟩
  rintro ⟨cs, h1, h2⟩
  have h3 := (C22_kofmt _ _).2 ⟨cs, h1, rfl⟩
  have h4 := (C22_kofmt _ _).2 ⟨cs, h2, rfl⟩
  have h5 : kofmtParse false false (str "f : A : Type -> A.") ≠ kofmtParse false false (str "f : (A : Type -> 0).") := by decide +kernel
  exact h5 (h3.trans h4.symm)

/-- a text that only the lazy mode accepts, and one that only the strict mode accepts -/
example : kofmtParse true false (str "a : b.\n#EVAL a.") = (str "a : b", true) ∧ (kofmtParse false false (str "a : b.\n#EVAL a.")).2 = false ∧
    kofmtParse false true (str "{|a\nb|} : x : c -> d x.") = (str "{|a\nb|} : (x : c -> (d 0))", true) ∧
    (kofmtParse true true (str "{|a\nb|} : x : c -> d x.")).2 = false := by
  decide +kernel

#print axioms C22_text
#print axioms C22_lines
#print axioms C22_range
#print axioms C22_kofmt
#print axioms C22_kofmt_lazy
#print axioms C22_kofmt_scope
#print axioms C22_kofmt_lazy_scope
#print axioms C22_scope_false
#print axioms C22_kofmt_false

end Kontroli
