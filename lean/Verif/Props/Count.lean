import Verif.Model.Count
import Verif.Spec.Count
import Verif.Proofs.CorrectProgram

/-!
# C54: counting of symbols
-/

namespace Kontroli

/-! ## Lemmas -/

/-- the constants among atoms -/
def Atom.const? : Atom → Option PSymb
  | .const c => some c
  | _ => none

mutual
  theorem PTerm.atoms_consts : (t : PTerm Atom) → t.atoms.filterMap Atom.const? = t.consts
    | .app h args => by
      rw [PTerm.atoms, PTerm.consts, List.filterMap_append, PHead.atoms_consts h, PTerm.atomsList_consts args]
  theorem PHead.atoms_consts : (h : PHead Atom) → h.atoms.filterMap Atom.const? = h.consts
    | .atom a => by cases a <;> rfl
    | .abst _ ty tm => by
      rw [PHead.atoms, PHead.consts, List.filterMap_append, PTerm.atomsOpt_consts ty, PTerm.atoms_consts tm]
    | .prod _ ty tm => by
      rw [PHead.atoms, PHead.consts, List.filterMap_append, PTerm.atoms_consts ty, PTerm.atoms_consts tm]
  theorem PTerm.atomsList_consts : (ts : List (PTerm Atom)) → (PTerm.atomsList ts).filterMap Atom.const? = PTerm.constsList ts
    | [] => rfl
    | t :: ts => by
      rw [PTerm.atomsList, PTerm.constsList, List.filterMap_append, PTerm.atoms_consts t, PTerm.atomsList_consts ts]
  theorem PTerm.atomsOpt_consts : (t : Option (PTerm Atom)) → (PTerm.atomsOpt t).filterMap Atom.const? = PTerm.constsOpt t
    | none => rfl
    | some t => PTerm.atoms_consts t
end

/-- the count of `c` after `k` more occurrences -/
def plus (o : Option Nat) (k : Nat) : Option Nat := if k = 0 then o else some (o.getD 0 + k)

theorem plus_plus (o : Option Nat) (j k : Nat) : plus (plus o j) k = plus o (j + k) := by
  unfold plus
  by_cases hj : j = 0
  · simp [hj]
  · by_cases hk : k = 0
    · simp [hk]
    · simp [hj, hk]; omega

theorem Counts.add_at (m : Counts) (a : Atom) (c : PSymb) : m.add a c = plus (m c) ([a].filterMap Atom.const? |>.count c) := by
  cases a with
  | const d =>
    by_cases h : c = d
    · subst h; simp [Counts.add, Counts.set, Atom.const?, plus]
    · have h' : d ≠ c := fun e => h e.symm
      simp [Counts.add, Counts.set, Atom.const?, plus, h, h']
  | var n => rfl
  | type => rfl

theorem Counts.atoms_at (as : List Atom) (m : Counts) (c : PSymb) :
    as.foldl Counts.add m c = plus (m c) ((as.filterMap Atom.const?).count c) := by
  induction as generalizing m with
  | nil => simp [plus]
  | cons a as ih =>
    rw [List.foldl_cons, ih, Counts.add_at, plus_plus, ← List.count_append, ← List.filterMap_append]
    rfl

theorem Counts.term_at (m : Counts) (t : PTerm Atom) (c : PSymb) : m.term t c = plus (m c) (t.consts.count c) := by
  rw [Counts.term, Counts.atoms_at, PTerm.atoms_consts]

theorem Counts.terms_at (ts : List (PTerm Atom)) (m : Counts) (c : PSymb) :
    ts.foldl Counts.term m c = plus (m c) ((ts.flatMap PTerm.consts).count c) := by
  induction ts generalizing m with
  | nil => simp [plus]
  | cons t ts ih => rw [List.foldl_cons, ih, Counts.term_at, plus_plus, List.flatMap_cons, List.count_append]

theorem types_consts (it : Intro (PTerm Atom)) : it.types.flatMap PTerm.consts = PTerm.constsOpt it.given := by
  cases it with
  | definition ty tm => cases ty <;> simp [Intro.types, Intro.given, PTerm.constsOpt]
  | theorem_ ty tm => simp [Intro.types, Intro.given, PTerm.constsOpt]
  | declaration inj ty => simp [Intro.types, Intro.given, PTerm.constsOpt]

theorem terms_consts (it : Intro (PTerm Atom)) : it.terms.flatMap PTerm.consts = PTerm.constsOpt it.body := by
  cases it with
  | definition ty tm => cases tm <;> simp [Intro.terms, Intro.body, PTerm.constsOpt]
  | theorem_ ty tm => simp [Intro.terms, Intro.body, PTerm.constsOpt]
  | declaration inj ty => simp [Intro.terms, Intro.body, PTerm.constsOpt]

instance (c : PSymb) (cmd : Scoped) : Decidable (cmd.Introduces c) := by
  cases cmd <;> simp only [Scoped.Introduces] <;> infer_instance

theorem Counts.cmd_at (m : Counts) (cmd : Scoped) (c : PSymb) :
    m.cmd cmd c = plus (if cmd.Introduces c then some 0 else m c) (cmd.introConsts.count c) := by
  cases cmd with
  | intro x args it =>
    simp only [Counts.cmd, Counts.terms_at, plus_plus, types_consts, terms_consts, Scoped.introConsts, List.count_append, List.flatMap_map]
    rfl
  | rules rs => simp [Counts.cmd, Scoped.introConsts, Scoped.Introduces, plus]

/-- the map after some commands -/
theorem Counts.loop_ok (cs : List Scoped) (m : Counts) : Counts.loop m (cs.map .ok) = some (cs.foldl Counts.cmd m) := by
  induction cs generalizing m with
  | nil => rfl
  | cons c cs ih => exact ih _

theorem Counts.loop_none {l : List (Out Scoped)} (m : Counts) (h : ∃ c ∈ l, c.isOk = false) : Counts.loop m l = none := by
  induction l generalizing m with
  | nil => simp at h
  | cons c l ih =>
    cases c with
    | ok c =>
      refine ih _ ?_
      obtain ⟨d, hd, h⟩ := h
      rcases List.mem_cons.1 hd with rfl | hd
      · simp [Out.isOk] at h
      · exact ⟨d, hd, h⟩
    | err e => rfl
    | panic => rfl
    | timeout => rfl

theorem occurrences_cons (d : Scoped) (cs : List Scoped) (c : PSymb) :
    occurrences (d :: cs) c = d.introConsts.count c + occurrences cs c := by
  simp [occurrences, List.count_append]

theorem occurrences_append (as bs : List Scoped) (c : PSymb) : occurrences (as ++ bs) c = occurrences as c + occurrences bs c := by
  simp [occurrences, List.count_append]

/-- commands that do not introduce the constant -/
theorem Counts.fold_old (cs : List Scoped) (m : Counts) (c : PSymb) (h : ∀ d ∈ cs, ¬ d.Introduces c) :
    cs.foldl Counts.cmd m c = plus (m c) (occurrences cs c) := by
  induction cs generalizing m with
  | nil => simp [plus, occurrences]
  | cons d cs ih =>
    rw [List.foldl_cons, ih _ (fun e he => h e (by simp [he])), Counts.cmd_at, if_neg (h d (by simp)), plus_plus, occurrences_cons]

/-- there is a last command that introduces the constant, or none -/
theorem last_intro (cs : List Scoped) (c : PSymb) : (∀ d ∈ cs, ¬ d.Introduces c) ∨
    ∃ pre cmd post, cs = pre ++ cmd :: post ∧ cmd.Introduces c ∧ ∀ d ∈ post, ¬ d.Introduces c := by
  induction cs with
  | nil => exact .inl (by simp)
  | cons d cs ih =>
    rcases ih with h | ⟨pre, cmd, post, rfl, h⟩
    · by_cases hd : d.Introduces c
      · exact .inr ⟨[], d, cs, rfl, hd, h⟩
      · exact .inl (by simpa using ⟨hd, h⟩)
    · exact .inr ⟨d :: pre, cmd, post, rfl, h⟩

theorem Counts.fold_last (pre post : List Scoped) (cmd : Scoped) (m : Counts) (c : PSymb) (hc : cmd.Introduces c)
    (h : ∀ d ∈ post, ¬ d.Introduces c) : (pre ++ cmd :: post).foldl Counts.cmd m c = some (occurrences (cmd :: post) c) := by
  rw [List.foldl_append, List.foldl_cons, Counts.fold_old _ _ _ h, Counts.cmd_at, if_pos hc, plus_plus, ← occurrences_cons]
  unfold plus
  split
  · simp [*]
  · simp

/-! ## The property -/

/-- C54. If a text consists of commands then `symcount` prints, for exactly the constants that are introduced or occur in introductions,
the number of occurrences in introductions, from the last introduction of the constant on. -/
theorem C54_counts (text : Str) (cs : List (PCmd (PTerm PSymb))) (h : TextOf text cs) :
    ∃ m, symcount text = some m ∧ ∀ c n, m c = some n ↔ Counted (cs.map PCmd.scope) c n := by
  have hp : parseText text = (cs.map PCmd.scope).map .ok := by rw [parseText_of h, List.map_map]; rfl
  refine ⟨_, by rw [symcount, hp]; exact Counts.loop_ok _ _, fun c n => ?_⟩
  generalize cs.map PCmd.scope = l
  rcases last_intro l c with hn | ⟨pre, cmd, post, rfl, hc, hp⟩
  · rw [Counts.fold_old _ _ _ hn]
    constructor
    · intro h
      refine .inr ⟨hn, ?_⟩
      unfold plus at h
      split at h
      · simp at h
      · simp at h; omega
    · rintro (⟨pre, cmd, post, rfl, hc, -⟩ | ⟨-, rfl, h⟩)
      · exact absurd hc (hn cmd (by simp))
      · unfold plus
        rw [if_neg (by omega)]
        simp
  · rw [Counts.fold_last _ _ _ _ _ hc hp]
    constructor
    · intro h
      exact .inl ⟨pre, cmd, post, rfl, hc, hp, by simpa using h.symm⟩
    · rintro (⟨pre', cmd', post', he, hc', hp', rfl⟩ | ⟨hn, -⟩)
      · have : occurrences (cmd :: post) c = occurrences (cmd' :: post') c := by
          rcases List.append_eq_append_iff.1 he with ⟨as, h1, h2⟩ | ⟨as, h1, h2⟩
          · cases as with
            | nil => simp at h2; rw [h2.1, h2.2]
            | cons a as =>
              simp only [List.cons_append, List.cons.injEq] at h2
              exact absurd hc' (hp cmd' (by rw [h2.2]; simp))
          · cases as with
            | nil => simp at h2; rw [h2.1, h2.2]
            | cons a as =>
              simp only [List.cons_append, List.cons.injEq] at h2
              exact absurd hc (hp' cmd (by rw [h2.2]; simp))
        rw [this]
      · exact absurd hc (hn cmd (by simp))

/-- C54. Otherwise it panics. -/
theorem C54_fails (text : Str) (h : ∀ cs, ¬ TextOf text cs) : symcount text = none := by
  refine Counts.loop_none _ ?_
  by_contra hn
  push Not at hn
  obtain ⟨cs, hc, -⟩ := parseText_ok (text := text) (fun c hc => by simpa using hn c hc)
  exact h cs hc

/-- C54 (documentation: "For every constant appearing in a Dedukti file, output its number of occurrences"), for files without rewrite
rules in which a constant is introduced at most once, and does not occur before. Missing: occurrences in rewrite rules, and occurrences
before the introduction, see `C54_rules_false` and `C54_reset_false`. -/
theorem C54_documented_partial (text : Str) (cs : List (PCmd (PTerm PSymb))) (h : TextOf text cs) (hr : ∀ rs, .rules rs ∉ cs)
    (c : PSymb) (hb : ∀ (pre : List Scoped) (cmd : Scoped) post, cs.map PCmd.scope = pre ++ cmd :: post → cmd.Introduces c →
      (∀ d ∈ pre, c ∉ Scoped.allConsts d) ∧ ∀ d ∈ post, ¬ Scoped.Introduces c d) :
    ∃ m, symcount text = some m ∧ (m c).getD 0 = ((cs.map PCmd.scope).flatMap Scoped.allConsts).count c ∧
      ((∃ d ∈ cs.map PCmd.scope, c ∈ Scoped.allConsts d) → (m c).isSome) := by
  obtain ⟨m, h1, h2⟩ := C54_counts text cs h
  have hr' : ∀ d ∈ cs.map PCmd.scope, Scoped.allConsts d = Scoped.introConsts d := by
    intro d hd
    obtain ⟨e, he, rfl⟩ := List.mem_map.1 hd
    cases e with
    | intro x args it => rfl
    | rules rs => exact absurd he (hr rs)
  generalize cs.map PCmd.scope = l at *
  have hall : (l.flatMap Scoped.allConsts).count c = occurrences l c := by
    unfold occurrences
    congr 1
    clear h2 hb
    induction l with
    | nil => rfl
    | cons d l ih =>
      rw [List.flatMap_cons, List.flatMap_cons, hr' d (by simp), ih (fun e he => hr' e (by simp [he]))]
  refine ⟨m, h1, ?_⟩
  rw [hall]
  rcases last_intro l c with hn | ⟨pre, cmd, post, rfl, hc, hp⟩
  · by_cases h0 : occurrences l c = 0
    · have hm : m c = none := by
        cases hm : m c with
        | none => rfl
        | some n =>
          rcases (h2 c n).1 hm with ⟨pre, cmd, post, rfl, hc, -⟩ | ⟨-, h3, h4⟩
          · exact absurd hc (hn cmd (by simp))
          · omega
      refine ⟨by rw [hm, h0]; rfl, ?_⟩
      rintro ⟨d, hd, hcd⟩
      rw [hr' d hd] at hcd
      have : 0 < occurrences l c := List.count_pos_iff.2 (List.mem_flatMap.2 ⟨d, hd, hcd⟩)
      omega
    · have := (h2 c (occurrences l c)).2 (.inr ⟨hn, rfl, by omega⟩)
      simp [this]
  · have := (h2 c _).2 (.inl ⟨pre, cmd, post, rfl, hc, hp, rfl⟩)
    refine ⟨?_, by simp [this]⟩
    rw [this, Option.getD_some, occurrences_append]
    have h0 : occurrences pre c = 0 := by
      refine List.count_eq_zero.2 ?_
      intro hm
      obtain ⟨d, hd, hx⟩ := List.mem_flatMap.1 hm
      rw [← hr' d (by simp [hd])] at hx
      exact (hb pre cmd post rfl hc).1 d hd hx
    omega

/-- a computed case -/
theorem Counts.any_elim {o : Option Counts} {p : Counts → Bool} (h : o.any p = true) : ∃ m, o = some m ∧ p m = true := by
  cases o with
  | none => cases h
  | some m => exact ⟨m, rfl, h⟩

/-- C54. Occurrences in rewrite rules are not counted: `a` occurs once in this text, and is said not to occur. -/
theorem C54_rules_false : ∃ m, symcount (str "a : Type. def b : Type. [] b --> a.") = some m ∧ m (.new (str "a")) = some 0 := by
  obtain ⟨m, h, h1⟩ := Counts.any_elim (o := symcount (str "a : Type. def b : Type. [] b --> a."))
    (p := fun m => decide (m (.new (str "a")) = some 0)) (by decide +kernel)
  exact ⟨m, h, of_decide_eq_true h1⟩

/-- C54. Occurrences before the introduction are forgotten: `a` occurs twice in this text, and is said to occur once. -/
theorem C54_reset_false : ∃ m, symcount (str "b : a. a : Type. c : a.") = some m ∧ m (.new (str "a")) = some 1 := by
  obtain ⟨m, h, h1⟩ := Counts.any_elim (o := symcount (str "b : a. a : Type. c : a."))
    (p := fun m => decide (m (.new (str "a")) = some 1)) (by decide +kernel)
  exact ⟨m, h, of_decide_eq_true h1⟩

/-- names bound in a term are not counted, names of other modules are -/
example : ∃ m, symcount (str "N : Type.\ninjective S : N -> N.\nthm t (x : N) : m.eq (S x) ((y : N => S y) x)\n  := m.refl.") = some m ∧
    (m (.new (str "N")) = some 4 ∧ m (.new (str "S")) = some 2 ∧ m ⟨[str "m"], str "eq"⟩ = some 1 ∧ m (.new (str "x")) = none) := by
  obtain ⟨m, h, h1⟩ := Counts.any_elim
    (o := symcount (str "N : Type.\ninjective S : N -> N.\nthm t (x : N) : m.eq (S x) ((y : N => S y) x)\n  := m.refl."))
    (p := fun m => decide (m (.new (str "N")) = some 4 ∧ m (.new (str "S")) = some 2 ∧ m ⟨[str "m"], str "eq"⟩ = some 1 ∧
      m (.new (str "x")) = none)) (by decide +kernel)
  exact ⟨m, h, of_decide_eq_true h1⟩

/-- a text that ends within a command -/
example : (symcount (str "a : Type. b :")).isNone = true := by decide +kernel

#print axioms C54_counts
#print axioms C54_fails
#print axioms C54_documented_partial
#print axioms C54_rules_false
#print axioms C54_reset_false

end Kontroli
