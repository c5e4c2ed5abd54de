import Verif.Proofs.Readback
import Verif.Proofs.RedLemmas

/-!
# Weak-head normal forms have no redex at the head
-/

namespace Kontroli

section
variable {R : RuleMap} {eta : Bool}

mutual
  theorem WBind.bind {p : Pattern} {t : Tm} {bs : List (Nat × Tm)} (h : WBind R eta p t bs) : PBind p t bs :=
    match h with
    | .mvar m t => .mvar m t
    | .joker t => .joker t
    | .symb _ h => .symb (WBinds.bind h)
  theorem WBinds.bind {ps : List Pattern} {ts : List Tm} {bs : List (Nat × Tm)} (h : WBinds R eta ps ts bs) :
      PBinds ps ts bs :=
    match h with
    | .nil => .nil
    | .cons h hs => .cons (WBind.bind h) (WBinds.bind hs)
end

mutual
  theorem Clash.not_bind {p : Pattern} {t : Tm} (h : Clash R eta p t) {bs : List (Nat × Tm)} : ¬ PBind p t bs := by
    match h with
    | .head (s := s) (ps := ps) hw hne =>
      intro hb
      generalize hp : Pattern.symb s ps = p at hb
      cases hb with
      | mvar => simp at hp
      | joker => simp at hp
      | symb hb =>
        simp only [Pattern.symb.injEq] at hp
        obtain ⟨rfl, rfl⟩ := hp
        exact hne _ rfl hb.length.symm
    | .arg (s := s) (ps := ps) (us := us) hw hlen hc =>
      intro hb
      generalize hp : Pattern.symb s ps = p at hb
      generalize ht : Tm.apps (.const s) us = t at hb
      cases hb with
      | mvar => simp at hp
      | joker => simp at hp
      | symb hb =>
        simp only [Pattern.symb.injEq] at hp
        obtain ⟨rfl, rfl⟩ := hp
        obtain ⟨-, rfl⟩ := Tm.apps_inj (Tm.Atom.const _).notApp (Tm.Atom.const _).notApp ht
        exact Clashes.not_bind hc hb
  theorem Clashes.not_bind {ps : List Pattern} {ts : List Tm} (h : Clashes R eta ps ts) {bs : List (Nat × Tm)} :
      ¬ PBinds ps ts bs := by
    match h with
    | .here hc =>
      intro hb
      cases hb with
      | cons hb _ => exact Clash.not_bind hc hb
    | .there hc =>
      intro hb
      cases hb with
      | cons _ hb => exact Clashes.not_bind hc hb
end

theorem Clashes.take {ps : List Pattern} {ts : List Tm} (h : Clashes R eta ps ts) :
    Clashes R eta ps (ts.take ps.length) := by
  induction ts generalizing ps with
  | nil => simpa using h
  | cons t ts ih =>
    cases h with
    | here h => exact .here h
    | there h => exact .there (ih h)

/-- A left-linear rule that is refused does not match. -/
theorem Refused.not_match {r : Rule} {ts : List Tm} (h : Refused R eta r ts) (hs : r.Scoped)
    (hl : (Pattern.varsList r.lhs.args).Nodup) (bs : List (Nat × Tm)) :
    ¬ PBinds r.lhs.args (ts.take r.lhs.args.length) bs := by
  cases h with
  | short h =>
    intro hb
    have := hb.length
    rw [List.length_take] at this
    omega
  | unscoped h => exact absurd hs h
  | clash h => exact h.take.not_bind
  | apart hb hsub =>
    intro _
    have := hsub.map Prod.fst
    rw [hb.bind.vars] at this
    simpa using this.nodup hl

theorem Whnf.inv_const {s : Sym} {ts : List Tm} (h : Whnf R eta (Tm.apps (.const s) ts)) :
    ∀ rs r, R s = some rs → r ∈ rs → Refused R eta r ts := by
  generalize ht : Tm.apps (.const s) ts = t at h
  cases h with
  | kind us => exact absurd (Tm.apps_inj (Tm.Atom.const _).notApp Tm.Atom.kind.notApp ht).1 (by simp)
  | type us => exact absurd (Tm.apps_inj (Tm.Atom.const _).notApp Tm.Atom.type.notApp ht).1 (by simp)
  | var n us => exact absurd (Tm.apps_inj (Tm.Atom.const _).notApp (Tm.Atom.var n).notApp ht).1 (by simp)
  | pi A B us => exact absurd (Tm.apps_inj (Tm.Atom.const _).notApp (Tm.Atom.pi A B).notApp ht).1 (by simp)
  | abs hb =>
    have := Tm.apps_inj (ts' := []) (Tm.Atom.const _).notApp hb.notApp ht
    rw [← this.1] at hb
    cases hb
  | const hr =>
    obtain ⟨e, rfl⟩ := Tm.apps_inj (Tm.Atom.const _).notApp (Tm.Atom.const _).notApp ht
    cases e
    exact hr

/-- the head of a weak-head normal form with arguments -/
theorem Whnf.cases_head {t : Tm} (h : Whnf R eta t) : (∃ b, t.IsAbs b) ∨ ∃ f ts, f.Atom ∧ t = Tm.apps f ts := by
  cases h with
  | kind us => exact .inr ⟨_, _, .kind, rfl⟩
  | type us => exact .inr ⟨_, _, .type, rfl⟩
  | var n us => exact .inr ⟨_, _, .var n, rfl⟩
  | pi A B us => exact .inr ⟨_, _, .pi A B, rfl⟩
  | abs hb => exact .inl ⟨_, hb⟩
  | const hr => exact .inr ⟨_, _, .const _, rfl⟩

/-- no beta-redex at the head -/
theorem Whnf.no_beta {f b : Tm} {ts : List Tm} (hf : f.IsAbs b) (hne : ts ≠ []) : ¬ Whnf R eta (f.apps ts) := by
  intro h
  rcases h.cases_head with ⟨b', hb⟩ | ⟨g, us, hg, e⟩
  · have := Tm.apps_inj (ts' := []) hf.notApp hb.notApp (show Tm.apps f ts = Tm.apps (f.apps ts) [] from rfl)
    exact hne this.2
  · obtain ⟨rfl, -⟩ := Tm.apps_inj hf.notApp hg.notApp e
    exact hg.not_abs hf

end

end Kontroli
