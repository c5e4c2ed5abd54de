import Verif.Spec.Bench
import Verif.Spec.Web
import Verif.Props.Parse
import Verif.Props.Grammar
import Verif.Proofs.CorrectProgram
import Verif.Proofs.StaticProgram
import Verif.Proofs.Print

/-!
# Programs of unbounded length, one command on each line
-/

namespace Kontroli

/-! ## Lines -/

/-- The line holds the command and its dot. -/
def LineOf (l : Str) (c : PCmd (PTerm PSymb)) : Prop :=
  (∀ x ∈ l, x ≠ '\n' ∧ x ≠ '{' ∧ x ≠ '\r') ∧ ∃ ts, GCmd ts c ∧ lex l = ts ++ [.dot]

theorem LineOf.closed {l : Str} {c : PCmd (PTerm PSymb)} (h : LineOf l c) : MoustacheClosed l := by
  rintro a b rfl
  exact absurd rfl (h.1 '{' (by simp [str])).2.1

theorem lines_whole {α : Type} (line : α → Str) (cmd : α → PCmd (PTerm PSymb)) (ks : List α) (h : ∀ k ∈ ks, LineOf (line k) (cmd k)) :
    ∃ ts, lex (unlines (ks.map line)) = ts ∧ openOf ts = 0 ∧ ts.filter Token.plain = ts ∧ GStrict ts (ks.map cmd) := by
  induction ks with
  | nil => exact ⟨[], rfl, rfl, rfl, .nil⟩
  | cons k ks ih =>
    obtain ⟨us, h1, h0, h2, h3⟩ := ih fun k hk => h k (List.mem_cons_of_mem _ hk)
    have hl := h k List.mem_cons_self
    obtain ⟨ts, h4, h5⟩ := hl.2
    have h6 := lexFrom_unlines 0 (line k) (ks.map line) hl.closed
    have h8 := lex_parts (line k)
    rw [lexFrom_zero, lexFrom_zero, h5] at h6
    rw [h5] at h8
    have h7 : openOf (ts ++ [Token.dot]) = 0 := by
      apply Classical.byContradiction
      intro hne
      rw [if_neg hne] at h8
      have := congrArg List.getLast? h8
      simp at this
    rw [if_pos h7, List.append_nil] at h8
    rw [h7, lexFrom_zero, h1, ← h8] at h6
    refine ⟨_, h6, ?_, ?_, ?_⟩
    · rw [openOf_append _ _ (fun t ht => ?_), h0]
      rw [h8] at ht
      exact (List.mem_filter.1 ht).2
    · rw [List.filter_append, ← h8, h2]
    · rw [List.append_assoc]
      exact .cmd h4 h3

/-- A text of lines that hold commands. -/
theorem lines_text {α : Type} (line : α → Str) (cmd : α → PCmd (PTerm PSymb)) (ks : List α) (h : ∀ k ∈ ks, LineOf (line k) (cmd k)) :
    WholeTextOf (unlines (ks.map line)) (ks.map cmd) ∧ TextOf (unlines (ks.map line)) (ks.map cmd) := by
  have hw : WholeTextOf (unlines (ks.map line)) (ks.map cmd) := by
    obtain ⟨ts, h1, h2, h3, h4⟩ := lines_whole line cmd ks h
    exact ⟨ts, (lexes_iff _ _ _).2 ⟨by rw [h1, h3], by rw [h1, h2]⟩, h4⟩
  refine ⟨hw, (textOf_iff _ _).2 ?_⟩
  have hs := (C47_strict _ _).2 hw
  have hsplit : splitLines [] (unlines (ks.map line)) = ks.map line := by
    refine ((linesOf_iff _ _).1 ?_).symm
    clear hw hs
    induction ks with
    | nil => exact .nil
    | cons k ks ih =>
      have hl := h k List.mem_cons_self
      have e : unlines ((k :: ks).map line) = line k ++ str "\n" ++ unlines (ks.map line) := by simp [unlines, str]
      rw [e]
      refine .lf (fun hm => (hl.1 _ hm).1 rfl) (fun hm => ?_) (ih fun k hk => h k (List.mem_cons_of_mem _ hk))
      exact (hl.1 _ (List.mem_of_getLast? hm)).2.2 rfl
  rw [hsplit]
  refine lazy_ok (C23_same_commands scopeSymb (ks.map line) ?_ _ hs)
  intro l hm
  obtain ⟨k, hk, rfl⟩ := List.mem_map.1 hm
  exact (h k hk).closed

/-! ## Numbers -/

theorem decimal_digit {n : Nat} {c : Char} (h : c ∈ decimal n) : c.isDigit = true := Nat.isDigit_of_mem_toDigits (b := 10) (n := n) (by decide) (by decide) h

theorem decimal_inj {n m : Nat} (h : decimal n = decimal m) : n = m := by
  have h1 := Nat.ofDigitChars_ten_toDigits (n := n)
  have h2 := Nat.ofDigitChars_ten_toDigits (n := m)
  rw [decimal, decimal] at h
  rw [h] at h1
  exact h1.symm.trans h2

theorem decimal_ne (n : Nat) : decimal n ≠ [] := Nat.toDigits_ne_nil

theorem digit_start {c : Char} (h : c.isDigit = true) : IdentStart c := .inl (by simp [Char.isAlphanum, h])

theorem ident_decimal {x : Str} (h : IsIdent x) (n : Nat) : IsIdent (x ++ decimal n) := by
  obtain ⟨a, t, rfl, h1, h2⟩ := h
  refine ⟨a, t ++ decimal n, rfl, h1, fun d hd => ?_⟩
  rcases List.mem_append.1 hd with hd | hd
  · exact h2 d hd
  · exact .inl (digit_start (decimal_digit hd))

theorem digit_plain {n : Nat} : ∀ x ∈ decimal n, x ≠ '\n' ∧ x ≠ '{' ∧ x ≠ '\r' := by
  intro x hx
  have := decimal_digit hx
  refine ⟨?_, ?_, ?_⟩ <;> rintro rfl <;> exact absurd this (by decide)

/-! ## Commands of unbounded number -/

/-- Introductions, one after another. -/
structure Gen where
  name : Nat → Str
  args : Nat → List (Str × PTerm PSymb)
  it : Nat → Intro (PTerm PSymb)
  /-- the numbers of the constants -/
  f : PSymb → Nat
  ty : Nat → Tm

def Gen.cmd (g : Gen) (k : Nat) : PCmd (PTerm PSymb) := .intro (g.name k) (g.args k) (g.it k)

/-- the introduction for the kernel -/
def Gen.it' (g : Gen) (k : Nat) : Intro LTerm :=
  (((g.it k).scope (teleEnv ((g.args k).map Prod.fst))).telescope (scopeTele PTerm.scope [] (g.args k))).resolve g.f

/-- The introductions are right. -/
structure Gen.Good (g : Gen) : Prop where
  inj : ∀ i j, i < j → g.name i ≠ g.name j
  consts : ∀ k c, c ∈ ((g.it k).scope (teleEnv ((g.args k).map Prod.fst))).consts ∨ c ∈ argConsts (scopeTele PTerm.scope [] (g.args k)) →
    c.path = [] ∧ g.f c < k ∧ g.name (g.f c) = c.name
  intro : ∀ k T, (∀ c, c < k → T.ty c = some (g.ty c)) → ∃ rs, Introduces T k (g.it' k) (g.ty k) rs
  known : ∀ k, (g.cmd k).Known

theorem Gen.Good.shared {g : Gen} (h : g.Good) (m : List Str) (n : Nat) : ∀ k, Shared ((List.range k).map fun i => (m, g.name i))
    ((List.range' k n).map fun i => ⟨m, g.cmd i⟩) ((List.range' k n).map fun i => .intro i (g.it' i)) := by
  induction n with
  | zero => exact fun k => .nil
  | succ n ih =>
    intro k
    rw [List.range'_succ, List.map_cons, List.map_cons]
    have ih := ih (k + 1)
    rw [List.range_succ, List.map_append] at ih
    have hlen : ((List.range k).map fun i => (m, g.name i)).length = k := by simp
    have hs := Shared.intro (x := g.name k) (args := g.args k) (it := g.it k) (it' := g.it' k) (m := m) ?_ ?_ ih
    · rw [hlen] at hs
      exact hs
    · intro hm
      obtain ⟨i, hi, e⟩ := List.mem_map.1 hm
      exact h.inj i k (List.mem_range.1 hi) (Prod.mk.inj e).2
    · refine ⟨g.f, fun c hc => ?_, rfl⟩
      obtain ⟨h1, h2, h3⟩ := h.consts k c hc
      refine ⟨m, List.prefix_refl _, ?_, fun p' hp hl => absurd (hp.length_le) (by omega)⟩
      rw [h1, List.append_nil, List.getElem?_map, List.getElem?_range h2, Option.map_some, h3]

theorem Gen.Good.session {g : Gen} (h : g.Good) (n : Nat) : ∃ T, Session ((List.range n).map fun i => .intro i (g.it' i)) T ∧
    ∀ c, T.ty c = if c < n then some (g.ty c) else none := by
  induction n with
  | zero => exact ⟨.bare false, .nil, fun c => rfl⟩
  | succ n ih =>
    obtain ⟨T, h1, h2⟩ := ih
    obtain ⟨rs, h3⟩ := h.intro n T (fun c hc => by rw [h2, if_pos hc])
    rw [List.range_succ, List.map_append]
    refine ⟨_, .intro h1 (by rw [h2, if_neg (Nat.lt_irrefl n)]) h3, fun c => ?_⟩
    simp only [Theory.declare]
    split
    · next e => rw [e, if_pos (Nat.lt_succ_self n)]
    · next e =>
      rw [h2]
      have : ∀ c n : Nat, c ≠ n → (c < n ↔ c < n + 1) := by omega
      simp only [this c n e]

theorem Gen.Good.correct {g : Gen} (h : g.Good) (m : List Str) (n : Nat) :
    (∃ T, Correct ((firsts g.cmd n).map (Entry.mk m)) T) ∧ Directed ((firsts g.cmd n).map (Entry.mk m)) := by
  constructor
  · obtain ⟨T, h1, -⟩ := h.session n
    refine ⟨T, _, ?_, h1⟩
    have := h.shared m n 0
    rw [← List.range_eq_range'] at this
    rw [firsts, List.map_map]
    exact this
  · intro e he
    obtain ⟨c, hc, rfl⟩ := List.mem_map.1 he
    obtain ⟨k, -, rfl⟩ := List.mem_map.1 hc
    exact h.known k

end Kontroli
