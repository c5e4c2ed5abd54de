import Verif.Proofs.Candidate
import Verif.Proofs.Structural

/-! # Sessions whose rules compute types -/

namespace Kontroli

section
variable {R : RuleMap} (cr : Confluent R) (hR : ClosedRules R)
include cr hR

theorem Strict.fine_closed {T : Theory} (hT : ∀ t u, T.Conv t u → Conv R false t u) (hS : T.Sorted) (hc : ∀ c A, T.ty c = some A → Fine R (.const c) A) {t A : Tm}
    (h : Strict T [] t A) : Fine R t A := by
  have := h.fine cr hR hT hS hc (σ := .var) (fun n A hn => by cases hn)
  rwa [Tm.sub_var, Tm.sub_var] at this

/-- a constant that stands for at most one term belongs to its type if the term does -/
theorem Fine.const {c : Sym} {A : Tm} (hA : ∃ Q, Denotes R (FlatK R) A Q)
    (h : ∀ rs r, R c = some rs → r ∈ rs → r.lhs.args = [] ∧ r.rhs.den.FreeBelow 0 ∧ Fine R r.rhs.den A) : Fine R (.const c) A := by
  have hK := FlatK.base cr
  obtain ⟨Q, hQ⟩ := hA
  refine ⟨Q, hQ, (hQ.cand hK cr).inert _ ⟨⟨nofun, nofun, ?_⟩, nofun, nofun, nofun⟩ fun u hu => ?_⟩
  · intro s ts rs r e hr hm
    obtain ⟨rfl, rfl⟩ := Tm.apps_const_inj (as := []) e
    simp [(h rs r hr hm).1]
  · generalize e : Tm.const c = x at hu
    cases hu with
    | @rule s rs r σ ts bs h1 h2 h3 h4 h5 h6 =>
      obtain ⟨rfl, rfl⟩ := Tm.apps_const_inj (as := []) e
      obtain ⟨-, k1, Q', k2, k3⟩ := h rs r h1 h2
      rw [k1.sub_eq]
      rwa [k2.unique hK cr hQ] at k3
    | _ => cases e

/-- If the constants whose rules take arguments belong to what their types are read as, then so do all constants. -/
theorem SessionIn.fine {cmds : List Cmd} {T : Theory} (h : Session cmds T) (D : Sym → Prop) (hD : ∀ rs, Cmd.rules rs ∈ cmds → ∀ r ∈ rs, D r.lhs.symbol)
    (hle : ∀ t u, T.Conv t u → Conv R false t u) (ha : ∀ c A rs r, ¬ D c → T.ty c = some A → R c = some rs → r ∈ rs → ∃ l, T.rules c = some l ∧ r ∈ l)
    (hd : ∀ c A, D c → T.ty c = some A → (∃ Q, Denotes R (FlatK R) A Q) → Fine R (.const c) A) : ∀ c A, T.ty c = some A → Fine R (.const c) A := by
  induction h with
  | nil => intro c A h; cases h
  | @rules cmds T rs hS h ih =>
    refine ih (fun rs h => hD rs (List.mem_append_left _ h)) (fun t u h => hle t u ((T.extend_le rs).conv h)) ?_ hd
    intro c A l r hc hA hl hr
    obtain ⟨l', h1, h2⟩ := ha c A l r hc hA hl hr
    simp only [Theory.extend, Option.map_eq_some_iff] at h1
    obtain ⟨l0, h3, rfl⟩ := h1
    rcases List.mem_append.1 h2 with h2 | h2
    · exact ⟨l0, h3, h2⟩
    · obtain ⟨h4, h5⟩ := List.mem_filter.1 h2
      have h5 : r.lhs.symbol = c := by simpa using h5
      exact absurd (h5 ▸ hD rs (by simp) r h4) hc
  | @intro cmds T s it A rs hS hs hI ih =>
    have hle' := Theory.declare_le hs (hS.dom s hs) A rs
    have hT : ∀ t u, T.Conv t u → Conv R false t u := fun t u h => hle t u (hle'.conv h)
    have ne : ∀ {c B}, T.ty c = some B → c ≠ s := fun h e => by rw [e, hs] at h; cases h
    have old := ih (fun rs h => hD rs (List.mem_append_left _ h)) hT (fun c B l r hc hB hl hr => by
      have := ha c B l r hc (by simpa [Theory.declare, ne hB] using hB) hl hr
      simpa [Theory.declare, ne hB] using this) fun c B hc hB => hd c B hc (by simpa [Theory.declare, ne hB] using hB)
    intro c B hB
    by_cases e : c = s
    · subst e
      have hB' := hB
      simp only [Theory.declare, if_true, Option.some.injEq] at hB
      subst hB
      obtain ⟨s', hs', hA⟩ := hI.strict.2
      have hQ := Fine.sort_inv cr hs' (hA.fine_closed cr hR hT hS.sorted old)
      by_cases hc : D c
      · exact hd c _ hc hB' hQ
      · refine Fine.const cr hR hQ fun l r hl hr => ?_
        obtain ⟨l', h1, h2⟩ := ha c _ l r hc hB' hl hr
        simp only [Theory.declare, if_true] at h1
        subst h1
        rcases hI.rules with rfl | ⟨tm, rfl, ht⟩
        · cases h2
        · cases List.mem_singleton.1 h2
          exact ⟨rfl, ht.freeBelow, ht.fine_closed cr hR hT hS.sorted old⟩
    · simp only [Theory.declare, e, if_false] at hB
      exact old c B hB

end

/-- A session is normalising if the constants that have rules by `rules` commands belong to what their types are read as. -/
theorem SessionIn.normalising_computed {cmds : List Cmd} {T : Theory} (h : Session cmds T) (cr : Confluent T.rules) (hR : ClosedRules T.rules) (D : Sym → Prop)
    (hD : ∀ rs, Cmd.rules rs ∈ cmds → ∀ r ∈ rs, D r.lhs.symbol)
    (hd : ∀ c A, D c → T.ty c = some A → (∃ Q, Denotes T.rules (FlatK T.rules) A Q) → Fine T.rules (.const c) A) : T.Normalising :=
  Theory.normalising_fine cr hR h.eta rfl h.sorted
    (SessionIn.fine cr hR h D hD (fun _ _ hc => hc.plain h.eta) (fun _ _ l _ _ _ hl hr => ⟨l, hl, hr⟩) hd)

end Kontroli
