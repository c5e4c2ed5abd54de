import Verif.Proofs.Computed
import Verif.Proofs.Logic
import Verif.Proofs.TerminateDriver

/-! # The checks of `fo_imp.dk` and what follows it come to an end -/

namespace Kontroli

/-- the rules of `fo_imp.dk` and definitions -/
def FoRules (R : RuleMap) : Prop := ∀ c rs, R c = some rs →
  (c = 2 ∧ ∀ r ∈ rs, r = foRule) ∨ (2 < c ∧ (rs = [] ∨ ∃ tm : LTerm, rs = [⟨[], ⟨c, []⟩, tm⟩] ∧ tm.den.FreeBelow 0))

theorem FoRules.prf {R : RuleMap} (h : FoRules R) {rs : List Rule} {r : Rule} (h1 : R 2 = some rs) (h2 : r ∈ rs) : r = foRule := by
  rcases h _ _ h1 with ⟨-, h⟩ | ⟨h, -⟩
  · exact h r h2
  · exact absurd h (by decide)

theorem FoRules.prop {R : RuleMap} (h : FoRules R) (rs : List Rule) : R 0 ≠ some rs := by
  intro h1
  rcases h _ _ h1 with ⟨h, -⟩ | ⟨h, -⟩
  · cases h
  · exact absurd h (by decide)

theorem FoRules.orthogonal {R : RuleMap} (h : FoRules R) : Orthogonal R where
  linear := by
    intro s rs r h1 h2
    rcases h _ _ h1 with ⟨-, h⟩ | ⟨-, rfl | ⟨tm, rfl, -⟩⟩
    · cases h r h2
      decide
    · cases h2
    · cases List.mem_singleton.1 h2
      exact .nil
  closed := by
    intro s rs r h1 h2
    rcases h _ _ h1 with ⟨-, h⟩ | ⟨-, rfl | ⟨tm, rfl, h⟩⟩
    · cases h r h2
      exact foR_orthogonal.closed 2 [foRule] foRule rfl (List.mem_singleton.2 rfl)
    · cases h2
    · cases List.mem_singleton.1 h2
      exact h
  root := by
    intro s rs r r' h1 h2 h3
    rcases h _ _ h1 with ⟨-, h⟩ | ⟨-, rfl | ⟨tm, rfl, -⟩⟩
    · exact .inl ((h r h2).trans (h r' h3).symm)
    · cases h2
    · exact .inl ((List.mem_singleton.1 h2).trans (List.mem_singleton.1 h3).symm)
  inner := by
    intro s rs r s' ps rs' r' us bs h1 h2 h3 h4
    exfalso
    rcases h _ _ h1 with ⟨-, h'⟩ | ⟨-, rfl | ⟨tm, rfl, -⟩⟩
    · cases h' r h2
      have : s' = 1 := by
        cases h3 with
        | here h3 =>
          cases h3 with
          | self => rfl
          | arg h3 =>
            cases h3 with
            | here h3 => cases h3
            | there h3 =>
              cases h3 with
              | here h3 => cases h3
              | there h3 => cases h3
        | there h3 => cases h3
      subst this
      rcases h _ _ h4 with ⟨h, -⟩ | ⟨h, -⟩
      · cases h
      · exact absurd h (by decide)
    · cases h2
    · cases List.mem_singleton.1 h2
      cases h3

section
variable {R : RuleMap} (hr : FoRules R)
include hr

theorem prf_step {a v : Tm} (h : Step R false (.app (.const 2) a) v) :
    (∃ a', Step R false a a' ∧ v = .app (.const 2) a') ∨
      ∃ x y, a = .app (.app (.const 1) x) y ∧ v = .pi (.app (.const 2) x) ((Tm.app (.const 2) y).shift 1) := by
  generalize e : Tm.app (.const 2) a = t at h
  cases h with
  | appL h =>
    cases e
    generalize e : Tm.const 2 = t at h
    cases h with
    | rule h1 h2 _ h4 =>
      obtain ⟨rfl, rfl⟩ := Tm.apps_const_inj (as := []) e
      cases hr.prf h1 h2
      cases h4.length
    | _ => cases e
  | appR h => cases e; exact .inl ⟨_, h, rfl⟩
  | beta => cases e
  | dbeta => cases e
  | @rule s rs r σ ts bs h1 h2 h3 h4 h5 h6 =>
    obtain ⟨rfl, rfl⟩ := Tm.apps_const_inj (as := [a]) e
    cases hr.prf h1 h2
    cases h4 with
    | cons k1 k2 =>
      cases k2
      cases k1 with
      | symb k1 =>
        cases k1 with
        | cons k1 k2 =>
          cases k1
          cases k2 with
          | cons k1 k2 =>
            cases k2
            cases k1
            rename_i x y
            have e1 : σ 1 = x := h5.1 1 x rfl
            have e0 : σ 0 = y := h5.1 0 y rfl
            refine .inr ⟨x, y, rfl, ?_⟩
            show Tm.pi (.app (.const 2) (σ 1)) (.app (.const 2) ((σ 0).ren (· + 1))) = _
            rw [e1, e0]
            rfl
  | _ => cases e

theorem prf_inert (a : Tm) : Inert R (.app (.const 2) a) := by
  refine ⟨⟨nofun, nofun, fun s ts rs r e h1 h2 => ?_⟩, nofun, nofun, nofun⟩
  obtain ⟨rfl, rfl⟩ := Tm.apps_const_inj (as := [a]) e
  cases hr.prf h1 h2
  exact le_rfl

omit hr in
theorem prf_inst (y b : Tm) : ((Tm.app (.const 2) y).shift 1).inst b = .app (.const 2) y := by
  show Tm.app (.const 2) ((y.ren (· + 1)).inst b) = _
  rw [Tm.ren_inst]

theorem prf_sn {a : Tm} (ha : SN R false a) : SN R false (.app (.const 2) a) := by
  have hR : ClosedRules R := hr.orthogonal.closed
  have := ha.below
  induction this with
  | intro a _ ih =>
    refine ⟨_, fun v hv => ?_⟩
    rcases prf_step hr hv with ⟨a', h1, rfl⟩ | ⟨x, y, rfl, rfl⟩
    · exact ih a' (steps_below (.single h1)) (ha.step h1)
    · have hx : SN R false x := SN.pull (fun x => .app (.app (.const 1) x) y) (fun _ _ h => .appL (.appR h)) ha
      have hy : SN R false y := SN.pull (fun y => .app (.app (.const 1) x) y) (fun _ _ h => .appR h) ha
      refine SN.pi (ih x (.tail (.single (.inr (.appR _ _))) (.inr (.appL _ _))) hx) (SN.of_inst hR (u := .var 0) ?_)
      rw [prf_inst]
      exact ih y (.single (.inr (.appR _ _))) hy

theorem prf_denotes (cr : Confluent R) {a : Tm} (ha : SN R false a) : ∃ Q, Denotes R (Flat R) (.app (.const 2) a) Q := by
  have := ha.below
  induction this with
  | intro a _ ih =>
    by_cases hs : Still R (.app (.const 2) a)
    · exact ⟨_, .base ((prf_inert hr a).flat cr hs)⟩
    · simp only [Still, not_forall, not_not] at hs
      obtain ⟨v, hv⟩ := hs
      rcases prf_step hr hv with ⟨a', h1, rfl⟩ | ⟨x, y, rfl, rfl⟩
      · obtain ⟨Q, hQ⟩ := ih a' (steps_below (.single h1)) (ha.step h1)
        exact ⟨Q, hQ.conv Flat.base hv.conv.symm⟩
      · have hx : SN R false x := SN.pull (fun x => .app (.app (.const 1) x) y) (fun _ _ h => .appL (.appR h)) ha
        have hy : SN R false y := SN.pull (fun y => .app (.app (.const 1) x) y) (fun _ _ h => .appR h) ha
        obtain ⟨P, hP⟩ := ih x (.tail (.single (.inr (.appR _ _))) (.inr (.appL _ _))) hx
        obtain ⟨Q, hQ⟩ := ih y (.single (.inr (.appR _ _))) hy
        exact ⟨_, .pi (Q := fun _ => Q) hv.conv hP fun b _ => by rwa [prf_inst]⟩

theorem prf_fine (cr : Confluent R) : Fine R (.const 2) (.pi (.const 0) .type) := by
  have h0 : Inert R (.const 0) := by
    refine ⟨⟨nofun, nofun, fun s ts rs r e h1 h2 => ?_⟩, nofun, nofun, nofun⟩
    obtain ⟨rfl, -⟩ := Tm.apps_const_inj (as := []) e
    exact absurd h1 (hr.prop rs)
  have h0' : Still R (.const 0) := by
    intro u h
    generalize e : Tm.const 0 = t at h
    cases h with
    | rule h1 h2 =>
      obtain ⟨rfl, -⟩ := Tm.apps_const_inj (as := []) e
      exact absurd h1 (hr.prop _)
    | _ => cases e
  refine Fine.abs cr (.type ⟨_, fun u hu => absurd hu (h0' u)⟩ (.base (h0.flat cr h0'))) (fun a _ => ⟨_, .base (.inl (.inr ⟨.refl _, rfl⟩))⟩)
    fun P Q hP _ _ _ k a ha => k a _ ha ?_
  obtain ⟨Q, hQ⟩ := prf_denotes hr cr (hP.sn a ha)
  exact .type (prf_sn hr (hP.sn a ha)) hQ

end

theorem fo_rules {more : List Cmd} (hm : ∀ c ∈ more, c.Later) {pre post : List Cmd} (e : foCmds ++ more = pre ++ post) : FoRules (rulesOfCmds pre) := by
  have hp : ∀ c ∈ pre, c ∈ foCmds ∨ c.Later := by
    intro c hc
    have h5 : c ∈ foCmds ++ more := e ▸ List.mem_append_left _ hc
    exact (List.mem_append.1 h5).imp id (hm c)
  clear e
  induction pre using List.reverseRecOn with
  | nil => intro c rs h; cases h
  | append_singleton pre cmd ih =>
    have ih := ih fun c hc => hp c (List.mem_append_left _ hc)
    rw [rulesOfCmds_snoc]
    rcases hp cmd (by simp) with h | ⟨s, it, rfl, h2, h3⟩
    · simp only [foCmds, List.mem_cons, List.not_mem_nil, or_false] at h
      intro c rs
      rcases h with rfl | rfl | rfl | rfl
      · simp only
        split
        · intro h; cases h
        · exact ih c rs
      · simp only
        split
        · intro h; cases h
        · exact ih c rs
      · simp only
        split
        · next e => intro h; cases h; exact .inl ⟨e, nofun⟩
        · exact ih c rs
      · simp only [Option.map_eq_some_iff]
        rintro ⟨l, h, rfl⟩
        rcases ih c l h with ⟨rfl, h'⟩ | ⟨h1, h'⟩
        · refine .inl ⟨rfl, fun r hr => ?_⟩
          rcases List.mem_append.1 hr with hr | hr
          · exact h' r hr
          · exact List.mem_singleton.1 (List.mem_filter.1 hr).1
        · have : [foRule].filter (fun r => r.lhs.symbol = c) = [] := by
            refine List.filter_eq_nil_iff.2 fun r hr => ?_
            cases List.mem_singleton.1 hr
            simp only [decide_eq_true_eq]
            intro e
            rw [← e] at h1
            exact absurd h1 (by decide)
          rw [this, List.append_nil]
          exact .inr ⟨h1, h'⟩
    · intro c rs
      simp only
      split
      · next e =>
        subst e
        intro h
        rw [h] at h3
        refine .inr ⟨h2, ?_⟩
        cases it with
        | declaration b ty => cases b <;> cases h; exact .inl rfl
        | definition ty tm =>
          cases tm with
          | none => cases h; exact .inl rfl
          | some tm => cases h; exact .inr ⟨tm, rfl, h3 _ (List.mem_singleton.2 rfl)⟩
        | theorem_ ty tm => cases h
      · exact ih c rs

theorem SessionIn.prf_type {cmds : List Cmd} {T : Theory} (h : Session cmds T)
    (hc : ∀ it, Cmd.intro 2 it ∈ cmds → it = .definition (some (.arrow (.const 0) .type)) none) {A : Tm} (hA : T.ty 2 = some A) : A = .pi (.const 0) .type := by
  induction h with
  | nil => cases hA
  | rules _ _ ih => exact ih (fun it h => hc it (List.mem_append_left _ h)) hA
  | @intro cmds T s it B rs hS hs hI ih =>
    simp only [Theory.declare] at hA
    split at hA
    · next e =>
      subst e
      cases hA
      have := hc it (by simp)
      subst this
      cases hI
      rfl
    · exact ih (fun it h => hc it (List.mem_append_left _ h)) hA

theorem fo_normalising {more : List Cmd} (hm : ∀ c ∈ more, c.Later) {pre post : List Cmd} (e : foCmds ++ more = pre ++ post) {T : Theory} (h : Session pre T) :
    T.Normalising := by
  have hr := fo_rules hm e
  rw [← h.rulesEq] at hr
  have ho := hr.orthogonal
  refine h.normalising_computed ho.confluent ho.closed (· = 2) ?_ ?_
  · intro rs hrs r hr'
    have h5 : Cmd.rules rs ∈ foCmds ++ more := e ▸ List.mem_append_left _ hrs
    rcases List.mem_append.1 h5 with h5 | h5
    · simp only [foCmds, List.mem_cons, List.not_mem_nil, or_false, reduceCtorEq, false_or, Cmd.rules.injEq] at h5
      subst h5
      cases List.mem_singleton.1 hr'
      rfl
    · obtain ⟨s, it, h6, -⟩ := hm _ h5
      cases h6
  · rintro c A rfl hA -
    rw [h.prf_type (fun it hi => ?_) hA]
    · exact prf_fine hr ho.confluent
    · have h5 : Cmd.intro 2 it ∈ foCmds ++ more := e ▸ List.mem_append_left _ hi
      rcases List.mem_append.1 h5 with h5 | h5
      · simp only [foCmds, List.mem_cons, List.not_mem_nil, or_false, reduceCtorEq, Cmd.intro.injEq] at h5
        rcases h5 with ⟨h, -⟩ | ⟨h, -⟩ | ⟨-, h⟩
        · cases h
        · cases h
        · exact h
      · obtain ⟨s, it, h6, h7, -⟩ := hm _ h5
        cases h6
        exact absurd h7 (by decide)

/-- The commands of `fo_imp.dk`, followed by introductions, are tame. -/
theorem fo_tame {more : List Cmd} (hm : ∀ c ∈ more, c.Later) : Tame (foCmds ++ more) := by
  have key : ∀ {i : Nat} {rs : List Rule}, (foCmds ++ more)[i]? = some (.rules rs) → i = 3 ∧ rs = [foRule] := by
    intro i rs h
    have h4 : foCmds.length = 4 := rfl
    by_cases hi : i < 4
    · rw [List.getElem?_append_left (by omega)] at h
      have : i = 0 ∨ i = 1 ∨ i = 2 ∨ i = 3 := by omega
      rcases this with rfl | rfl | rfl | rfl <;> cases h
      exact ⟨rfl, rfl⟩
    · rw [List.getElem?_append_right (by omega)] at h
      obtain ⟨s, it, e, -⟩ := hm _ (List.mem_of_getElem? h)
      cases e
  refine ⟨?_, ?_, fun pre post e => (fo_rules hm e).orthogonal.confluent, fun pre post T e h => fo_normalising hm e h⟩
  · intro rs hrs r hr
    obtain ⟨i, hi⟩ := List.mem_iff_getElem?.1 hrs
    obtain ⟨-, rfl⟩ := key hi
    cases List.mem_singleton.1 hr
    exact foRule_full
  · intro pre rs post T e hS r hr Γ l u hc
    obtain ⟨hl, rfl⟩ := key (i := pre.length) (rs := rs) (by rw [e]; simp)
    cases List.mem_singleton.1 hr
    have h0 : T.ty 0 = some .type := by
      refine hS.declaredType (b := false) (ty := .type) ?_
      have e1 : pre = (foCmds ++ more).take 3 := by rw [e, ← hl]; simp
      rw [e1]
      exact List.mem_cons_self ..
    obtain ⟨tys, e1, rfl, -⟩ := hc
    have e2 : tys = [.const 0, .const 0] := by
      have := congrArg (List.map fun o => o.getD .type) e1
      simpa [foRule] using this.symm
    subst e2
    exact .cons (.cons .nil (.const h0)) (.const h0)

end Kontroli
