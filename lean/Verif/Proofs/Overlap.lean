import Verif.Spec.Overlap
import Verif.Proofs.Correct

/-!
# A test for orthogonality: proofs
-/

namespace Kontroli

theorem PBind.cases_symb {s : Sym} {ps : List Pattern} {t : Tm} {bs : List (Nat × Tm)} (h : PBind (.symb s ps) t bs) :
    ∃ ts, t = Tm.apps (.const s) ts ∧ PBinds ps ts bs := by
  generalize hp : Pattern.symb s ps = p at h
  cases h with
  | mvar => cases hp
  | joker => cases hp
  | symb h => cases hp; exact ⟨_, rfl, h⟩

mutual
  theorem Pattern.clash_sound : (p p' : Pattern) → p.clash p' = true → ∀ t bs bs', PBind p t bs → ¬ PBind p' t bs'
    | .symb s ps, .symb s' ps', hc, t, bs, bs', h, h' => by
      obtain ⟨ts, rfl, k⟩ := h.cases_symb
      obtain ⟨ts', e, k'⟩ := h'.cases_symb
      obtain ⟨e1, rfl⟩ := Tm.apps_inj (Tm.Atom.const s).notApp (Tm.Atom.const s').notApp e
      cases e1
      simp only [Pattern.clash, Bool.or_eq_true, bne_iff_ne, ne_eq, not_true_eq_false, false_or] at hc
      rcases hc with hc | hc
      · exact hc (k.length.trans k'.length.symm)
      · exact Pattern.clashList_sound ps ps' hc ts ts bs bs' (.inl (List.prefix_refl _)) k k'
    | .mvar _, _, hc, _, _, _, _, _ => by simp [Pattern.clash] at hc
    | .joker, _, hc, _, _, _, _, _ => by simp [Pattern.clash] at hc
    | .symb _ _, .mvar _, hc, _, _, _, _, _ => by simp [Pattern.clash] at hc
    | .symb _ _, .joker, hc, _, _, _, _, _ => by simp [Pattern.clash] at hc
  theorem Pattern.clashList_sound : (ps ps' : List Pattern) → Pattern.clashList ps ps' = true → ∀ ts ts' bs bs', (ts <+: ts' ∨ ts' <+: ts) →
      PBinds ps ts bs → ¬ PBinds ps' ts' bs'
    | p :: ps, p' :: ps', hc, ts, ts', bs, bs', ht, h, h' => by
      cases h with
      | cons h1 h2 =>
        cases h' with
        | cons h1' h2' =>
          simp only [List.cons_prefix_cons] at ht
          simp only [Pattern.clashList, Bool.or_eq_true] at hc
          rcases hc with hc | hc
          · rcases ht with ⟨rfl, ht⟩ | ⟨rfl, ht⟩ <;> exact Pattern.clash_sound p p' hc _ _ _ h1 h1'
          · exact Pattern.clashList_sound ps ps' hc _ _ _ _ (ht.imp And.right And.right) h2 h2'
    | [], _, hc, _, _, _, _, _, _, _ => by simp [Pattern.clashList] at hc
    | _ :: _, [], hc, _, _, _, _, _, _, _ => by simp [Pattern.clashList] at hc
end

theorem Tm.freeBelow_iff {k : Nat} {t : Tm} : t.freeBelow k = true ↔ t.FreeBelow k := by
  induction t generalizing k <;> simp_all [Tm.freeBelow, Tm.FreeBelow]

mutual
  theorem Pattern.In.inner {s : Sym} {ps : List Pattern} {p : Pattern} (h : Pattern.In (.symb s ps) p) : (s, ps) ∈ p.inner :=
    match h with
    | .self => by simp [Pattern.inner]
    | .arg h => by
      rw [Pattern.inner]
      exact List.mem_cons_of_mem _ h.inner
  theorem Pattern.InList.inner {s : Sym} {ps qs : List Pattern} (h : Pattern.InList (.symb s ps) qs) : (s, ps) ∈ Pattern.innerList qs :=
    match h with
    | .here h => by
      rw [Pattern.innerList]
      exact List.mem_append_left _ h.inner
    | .there h => by
      rw [Pattern.innerList]
      exact List.mem_append_right _ h.inner
end

theorem allPairs_pairwise {α : Type} {f : α → α → Bool} {l : List α} (h : allPairs f l = true) : l.Pairwise fun a b => f a b = true := by
  induction l with
  | nil => exact .nil
  | cons a l ih =>
    simp only [allPairs, Bool.and_eq_true, List.all_eq_true] at h
    exact .cons h.1 (ih h.2)

theorem Intro.ruleList_symbol {s : Sym} {it : Intro LTerm} {rs : List Rule} {r : Rule} (h : it.ruleList s = some rs) (hr : r ∈ rs) : r.lhs.symbol = s := by
  cases it with
  | definition ty tm =>
    cases tm with
    | none => cases h; simp at hr
    | some tm => cases h; simp only [List.mem_singleton] at hr; rw [hr]
  | theorem_ ty tm => cases h
  | declaration inj ty =>
    cases inj with
    | false => cases h
    | true => cases h; simp at hr

theorem rulesOfCmds_mem {cmds : List Cmd} {s : Sym} {rs : List Rule} {r : Rule} (h : rulesOfCmds cmds s = some rs) (hr : r ∈ rs) :
    r ∈ allRules cmds ∧ r.lhs.symbol = s := by
  induction cmds using List.reverseRecOn generalizing rs with
  | nil => cases h
  | append_singleton cmds cmd ih =>
    have happ : allRules (cmds ++ [cmd]) = allRules cmds ++ allRules [cmd] := by simp [allRules]
    rw [happ, List.mem_append]
    rw [rulesOfCmds_snoc] at h
    cases cmd with
    | intro s' it =>
      simp only at h
      split at h
      · next e =>
        subst e
        refine ⟨.inr ?_, Intro.ruleList_symbol h hr⟩
        simp only [allRules, List.flatMap_cons, List.flatMap_nil, List.append_nil, h, Option.getD_some]
        exact hr
      · obtain ⟨h1, h2⟩ := ih h hr
        exact ⟨.inl h1, h2⟩
    | rules rs' =>
      simp only [Option.map_eq_some_iff] at h
      obtain ⟨l, h1, rfl⟩ := h
      rcases List.mem_append.1 hr with hr | hr
      · obtain ⟨h1, h2⟩ := ih h1 hr
        exact ⟨.inl h1, h2⟩
      · obtain ⟨h2, h3⟩ := List.mem_filter.1 hr
        exact ⟨.inr (by simpa [allRules] using h2), by simpa using h3⟩

theorem take_prefixes {α : Type} (l : List α) (m n : Nat) : l.take m <+: l.take n ∨ l.take n <+: l.take m := by
  rcases Nat.le_total m n with h | h
  · exact .inl (List.take_prefix_take_left h)
  · exact .inr (List.take_prefix_take_left h)

theorem pairwise_mem {α : Type} {P : α → α → Prop} {l : List α} (h : l.Pairwise P) {a b : α} (ha : a ∈ l) (hb : b ∈ l) (hne : a ≠ b) :
    P a b ∨ P b a := by
  induction h with
  | nil => simp at ha
  | @cons x l h1 _ ih =>
    rcases List.mem_cons.1 ha with rfl | ha'
    · rcases List.mem_cons.1 hb with rfl | hb'
      · exact absurd rfl hne
      · exact .inl (h1 b hb')
    · rcases List.mem_cons.1 hb with rfl | hb'
      · exact .inr (h1 a ha')
      · exact ih ha' hb'

/-- the substitution for the variables of two rules -/
def bothSub (σ σ' : Nat → Tm) (n : Nat) : Tm := if n % 2 = 0 then σ (n / 2) else σ' (n / 2)

theorem bothSub_first (σ σ' : Nat → Tm) (m : Nat) : bothSub σ σ' (firstVar m) = σ m := by
  unfold bothSub firstVar
  rw [if_pos (by omega)]
  congr 1
  omega

theorem bothSub_second (σ σ' : Nat → Tm) (m : Nat) : bothSub σ σ' (secondVar m) = σ' m := by
  unfold bothSub secondVar
  rw [if_neg (by omega)]
  congr 1
  omega

mutual
  theorem Pattern.tm_sound {f : Nat → Nat} {σ τ : Nat → Tm} (hf : ∀ m, τ (f m) = σ m) : (p : Pattern) → (t u : Tm) → PInst σ p t → p.tm f = some u →
      t = u.sub τ
    | .mvar m, t, u, h, hu => by
      generalize hp : Pattern.mvar m = p at h
      cases h with
      | mvar => cases hp; cases hu; exact (hf m).symm
      | joker => cases hp
      | symb => cases hp
    | .joker, _, _, _, hu => by cases hu
    | .symb s ps, t, u, h, hu => by
      generalize hp : Pattern.symb s ps = p at h
      cases h with
      | mvar => cases hp
      | joker => cases hp
      | symb h =>
        cases hp
        simp only [Pattern.tm, Option.map_eq_some_iff] at hu
        obtain ⟨us, hu, rfl⟩ := hu
        rw [Pattern.tms_sound hf ps _ us h hu, Tm.apps_sub]
        rfl
  theorem Pattern.tms_sound {f : Nat → Nat} {σ τ : Nat → Tm} (hf : ∀ m, τ (f m) = σ m) : (ps : List Pattern) → (ts us : List Tm) → PInsts σ ps ts →
      Pattern.tms f ps = some us → ts = us.map (·.sub τ)
    | [], _, _, h, hu => by cases h; cases hu; rfl
    | p :: ps, _, _, h, hu => by
      cases h with
      | cons h1 h2 =>
        rw [Pattern.tms] at hu
        split at hu
        · next t ts e1 e2 =>
          cases hu
          rw [List.map_cons, ← Pattern.tm_sound hf p _ _ h1 e1, ← Pattern.tms_sound hf ps _ _ h2 e2]
        · cases hu
end

mutual
  theorem Pattern.meet_sound {σ σ' : Nat → Tm} : (p p' : Pattern) → (t : Tm) → PInst σ p t → PInst σ' p' t →
      (∀ b ∈ (p.meet p').1, σ b.1 = b.2.sub (bothSub σ σ')) ∧ ∀ b ∈ (p.meet p').2, σ' b.1 = b.2.sub (bothSub σ σ')
    | .mvar m, p', t, h, h' => by
      refine ⟨fun b hb => ?_, fun b hb => by simp [Pattern.meet] at hb⟩
      simp only [Pattern.meet, Option.mem_toList, Option.mem_def, Option.map_eq_some_iff] at hb
      obtain ⟨u, hu, rfl⟩ := hb
      have := Pattern.tm_sound (bothSub_second σ σ') p' t u h' hu
      rw [← this]
      generalize hp : Pattern.mvar m = p at h
      cases h with
      | mvar => cases hp; rfl
      | joker => cases hp
      | symb => cases hp
    | .joker, .mvar m', t, h, h' => by simp [Pattern.meet, Pattern.tm]
    | .joker, .joker, t, h, h' => by simp [Pattern.meet]
    | .joker, .symb _ _, t, h, h' => by simp [Pattern.meet]
    | .symb _ _, .joker, t, h, h' => by simp [Pattern.meet]
    | .symb s ps, .mvar m', t, h, h' => by
      refine ⟨fun b hb => by simp [Pattern.meet] at hb, fun b hb => ?_⟩
      simp only [Pattern.meet, Option.mem_toList, Option.mem_def, Option.map_eq_some_iff] at hb
      obtain ⟨u, hu, rfl⟩ := hb
      have := Pattern.tm_sound (bothSub_first σ σ') _ t u h hu
      rw [← this]
      generalize hp : Pattern.mvar m' = p at h'
      cases h' with
      | mvar => cases hp; rfl
      | joker => cases hp
      | symb => cases hp
    | .symb s ps, .symb s' ps', t, h, h' => by
      rw [Pattern.meet]
      generalize hp : Pattern.symb s ps = p at h
      generalize hp' : Pattern.symb s' ps' = p' at h'
      cases h with
      | mvar => cases hp
      | joker => cases hp
      | symb h =>
        cases hp
        generalize ht : Tm.apps _ _ = t at h'
        cases h' with
        | mvar => cases hp'
        | joker => cases hp'
        | symb h' =>
          cases hp'
          obtain ⟨e1, rfl⟩ := Tm.apps_inj (Tm.Atom.const s).notApp (Tm.Atom.const s').notApp ht
          exact Pattern.meets_sound ps ps' _ h h'
  theorem Pattern.meets_sound {σ σ' : Nat → Tm} : (ps ps' : List Pattern) → (ts : List Tm) → PInsts σ ps ts → PInsts σ' ps' ts →
      (∀ b ∈ (Pattern.meets ps ps').1, σ b.1 = b.2.sub (bothSub σ σ')) ∧ ∀ b ∈ (Pattern.meets ps ps').2, σ' b.1 = b.2.sub (bothSub σ σ')
    | [], _, _, _, _ => by simp [Pattern.meets]
    | _ :: _, [], _, _, _ => by simp [Pattern.meets]
    | p :: ps, p' :: ps', _, h, h' => by
      cases h with
      | cons h1 h2 =>
        cases h' with
        | cons h1' h2' =>
          obtain ⟨k1, k2⟩ := Pattern.meet_sound p p' _ h1 h1'
          obtain ⟨k3, k4⟩ := Pattern.meets_sound ps ps' _ h2 h2'
          rw [Pattern.meets]
          exact ⟨fun b hb => (List.mem_append.1 hb).elim (k1 b) (k3 b), fun b hb => (List.mem_append.1 hb).elim (k2 b) (k4 b)⟩
end

theorem Rule.meetRhs_sound {f : Nat → Nat} {σ τ : Nat → Tm} (hf : ∀ m, τ (f m) = σ m) {bs : List (Nat × Tm)} (hb : ∀ b ∈ bs, σ b.1 = b.2.sub τ) (r : Rule) :
    r.rhs.den.sub σ = (r.meetRhs f bs).sub τ := by
  rw [Rule.meetRhs, Tm.sub_sub]
  congr 1
  funext m
  cases e : bs.lookup m with
  | none => exact (hf m).symm
  | some t => exact hb _ (mem_of_lookup e)

theorem Rule.same_sound {r r' : Rule} (h : r.same r' = true) : r.Agrees r' := by
  simp only [Rule.same, Bool.and_eq_true, decide_eq_true_eq] at h
  obtain ⟨h1, h2⟩ := h
  intro σ σ' ts hm hm'
  rw [h1] at hm ⊢
  obtain ⟨k1, k2⟩ := Pattern.meets_sound _ _ _ hm hm'
  rw [Rule.meetRhs_sound (bothSub_first σ σ') k1, Rule.meetRhs_sound (bothSub_second σ σ') k2, h2]

theorem orthogonal_sound {cmds : List Cmd} (h : orthogonal cmds = true) : Orthogonal (rulesOfCmds cmds) := by
  simp only [orthogonal, Bool.and_eq_true, List.all_eq_true] at h
  obtain ⟨⟨h1, h2⟩, h3⟩ := h
  refine ⟨?_, ?_, ?_, ?_⟩
  · intro s rs r hs hr
    have := h1 r (rulesOfCmds_mem hs hr).1
    simp only [Rule.simple, Bool.and_eq_true, decide_eq_true_eq] at this
    exact this.1
  · intro s rs r hs hr
    have := h1 r (rulesOfCmds_mem hs hr).1
    simp only [Rule.simple, Bool.and_eq_true, Tm.freeBelow_iff] at this
    exact this.2
  · intro s rs r r' hs hr hr'
    by_cases hne : r = r'
    · exact .inl hne
    right
    have hp : (allRules cmds).Pairwise fun r r' : Rule => r.lhs.symbol = r'.lhs.symbol → r.Agrees r' ∧ r'.Agrees r := by
      refine (allPairs_pairwise h2).imp ?_
      intro a b hab e
      suffices a.Agrees b from ⟨this, fun σ σ' ts h h' => (this σ' σ ts h' h).symm⟩
      simp only [Rule.apart, Bool.or_eq_true, bne_iff_ne, ne_eq, e, not_true_eq_false, false_or] at hab
      rcases hab with hab | hab
      · intro σ σ' ts hm hm'
        obtain ⟨bs, hm, -⟩ := hm.bind
        obtain ⟨bs', hm', -⟩ := hm'.bind
        exact (Pattern.clashList_sound _ _ hab _ _ _ _ (take_prefixes ..) hm hm').elim
      · exact Rule.same_sound hab
    obtain ⟨k1, k2⟩ := rulesOfCmds_mem hs hr
    obtain ⟨k1', k2'⟩ := rulesOfCmds_mem hs hr'
    rcases pairwise_mem hp k1 k1' hne with h | h
    · exact (h (k2.trans k2'.symm)).1
    · exact (h (k2'.trans k2.symm)).2
  · intro s rs r s' ps rs' r' us bs hs hr hin hs' hr' hb ⟨bs', hm⟩
    obtain ⟨k1, k2⟩ := rulesOfCmds_mem hs hr
    obtain ⟨k1', k2'⟩ := rulesOfCmds_mem hs' hr'
    have := h3 r k1 r' k1'
    simp only [Rule.outside, List.all_eq_true, Bool.or_eq_true, bne_iff_ne, ne_eq, decide_eq_true_eq] at this
    rcases this _ hin.inner with (h | h) | h
    · exact h k2'.symm
    · have e1 := hm.length
      have e2 := hb.length
      rw [List.length_take] at e1
      simp only at h
      omega
    · exact Pattern.clashList_sound _ _ h _ _ _ _ (.inl (List.take_prefix ..)) hm hb

theorem SessionIn.declaredType {cmds : List Cmd} {T : Theory} (h : Session cmds T) {s : Sym} {b : Bool} {ty : LTerm}
    (hm : Cmd.intro s (.declaration b ty) ∈ cmds) : T.ty s = some ty.den := by
  induction h with
  | nil => simp at hm
  | @intro cmds T s' it A rs hS hs hI ih =>
    simp only [Theory.declare]
    rcases List.mem_append.1 hm with hm | hm
    · have := ih hm
      rw [if_neg]
      · exact this
      · rintro rfl; rw [hs] at this; cases this
    · simp only [List.mem_singleton, Cmd.intro.injEq] at hm
      obtain ⟨rfl, rfl⟩ := hm
      rw [if_pos rfl]
      cases hI <;> rfl
  | @rules cmds T rs hS hr ih =>
    rcases List.mem_append.1 hm with hm | hm
    · exact ih hm
    · simp at hm

end Kontroli
