import Verif.Proofs.StaticText

/-!
# C50: abstractions without types must stand where their types are known
-/

namespace Kontroli

/-- `A : Type. def t := x => x.` -/
def Example.undirected : List (PCmd (PTerm PSymb)) :=
  [.intro (str "A") [] (.declaration false (.new (.atom ⟨[], str "Type"⟩))),
   .intro (str "t") [] (.definition none (some (.new (.abst (str "x") none (.new (.atom ⟨[], str "x"⟩))))))]

/-- C50. That abstractions without types stand where their types are known is no consequence of correctness: there is a correct text, without rewrite
rules, that is never accepted, since `x => x` has a type (even several, in the textbook system) but none can be inferred. -/
theorem C50_directed_needed : ∃ text, CorrectText text ∧ ∀ n rc gc res, CheckSingle (Kern.std n rc) text false 3 gc res → res ≠ .ok () := by
  have ht : WholeTextOf (str "A : Type. def t := x => x.") Example.undirected := (C47_strict _ _).1 (by rfl)
  refine ⟨str "A : Type. def t := x => x.", ⟨Example.undirected,
      Theory.declare (Theory.declare (.bare false) 0 .type none) 1 (.pi (.const 0) (.const 0)) (some [⟨[], ⟨1, []⟩, .comb (.abst (str "x") none (.var 0))⟩]),
      ht, [.intro 0 (.declaration false .type), .intro 1 (.definition none (some (.comb (.abst (str "x") none (.var 0)))))],
      ?_, ?_⟩, ?_⟩
  · refine .intro (by simp) ⟨fun _ => 0, ?_, by rfl⟩ (.intro (ns := [_]) (by decide) ⟨fun _ => 0, ?_, by rfl⟩ .nil)
    · rintro c (h | h) <;> cases h
    · rintro c (h | h) <;> cases h
  · have hn : ∀ Γ, Strict (Theory.declare (.bare false) 0 .type none) Γ (.const 0) .type := fun Γ => .const rfl
    refine .intro (cmds := [_]) (.intro (cmds := []) .nil rfl (.declared ⟨.kind, .kind, .type⟩)) rfl (.inferred ⟨.type, .type, ?_⟩ ?_)
    · exact .pi (hn _) (hn _) .type
    · exact .dlam (hn _) (.var (A := .const 0) rfl) (hn _) .type
  · rintro n rc gc res h rfl
    obtain ⟨cs, h1, -, h3⟩ := C50_single_sound _ (Kern.std_real n rc) _ false gc h
    have := (C47_strict _ _).2 h1
    rw [(C47_strict _ _).2 ht] at this
    have hcs : cs = Example.undirected := by
      exact (List.map_injective_iff.2 (fun a b h => by cases h; rfl) this).symm
    subst hcs
    have hR : Regular (Example.undirected.map (Entry.mk [str "main"])) := .static (by simp [Example.undirected])
    have := (h3 hR).2 _ (List.mem_map_of_mem (List.mem_cons_of_mem _ List.mem_cons_self))
    exact absurd (this.2.2 _ rfl).1.1 (by decide)

#print axioms C50_directed_needed

end Kontroli
