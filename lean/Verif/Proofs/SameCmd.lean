import Verif.Model.Driver

/-!
# A test whether commands are the same

It is used to find out by computation what commands a text stands for.
-/

namespace Kontroli

mutual
  /-- Are the terms the same? -/
  def LTerm.eqb : LTerm → LTerm → Bool
    | .type, .type => true
    | .const s, .const s' => s == s'
    | .var n, .var n' => n == n'
    | .comb c, .comb c' => LComb.eqb c c'
    | _, _ => false
  /-- Are the combinations the same? -/
  def LComb.eqb : Comb Str LTerm → Comb Str LTerm → Bool
    | .appl f as, .appl f' as' => LTerm.eqb f f' && LTerm.eqbs as as'
    | .prod x A b, .prod x' A' b' => x == x' && LTerm.eqb A A' && LTerm.eqb b b'
    | .abst x A b, .abst x' A' b' => x == x' && LTerm.eqbo A A' && LTerm.eqb b b'
    | _, _ => false
  /-- Are the lists the same? -/
  def LTerm.eqbs : List LTerm → List LTerm → Bool
    | [], [] => true
    | a :: as, a' :: as' => LTerm.eqb a a' && LTerm.eqbs as as'
    | _, _ => false
  /-- Are the optional terms the same? -/
  def LTerm.eqbo : Option LTerm → Option LTerm → Bool
    | none, none => true
    | some a, some a' => LTerm.eqb a a'
    | _, _ => false
end

mutual
  theorem LTerm.eqb_sound : (t u : LTerm) → t.eqb u = true → t = u
    | .type, u, h => by cases u <;> simp_all [LTerm.eqb]
    | .const _, u, h => by cases u <;> simp_all [LTerm.eqb]
    | .var _, u, h => by cases u <;> simp_all [LTerm.eqb]
    | .comb c, u, h => by
      cases u with
      | comb c' => rw [LComb.eqb_sound c c' (by simpa [LTerm.eqb] using h)]
      | _ => simp [LTerm.eqb] at h
  theorem LComb.eqb_sound : (c c' : Comb Str LTerm) → LComb.eqb c c' = true → c = c'
    | .appl f as, c', h => by
      cases c' with
      | appl f' as' =>
        simp only [LComb.eqb, Bool.and_eq_true] at h
        rw [LTerm.eqb_sound f f' h.1, LTerm.eqbs_sound as as' h.2]
      | _ => simp [LComb.eqb] at h
    | .prod x A b, c', h => by
      cases c' with
      | prod x' A' b' =>
        simp only [LComb.eqb, Bool.and_eq_true, beq_iff_eq] at h
        rw [h.1.1, LTerm.eqb_sound A A' h.1.2, LTerm.eqb_sound b b' h.2]
      | _ => simp [LComb.eqb] at h
    | .abst x A b, c', h => by
      cases c' with
      | abst x' A' b' =>
        simp only [LComb.eqb, Bool.and_eq_true, beq_iff_eq] at h
        rw [h.1.1, LTerm.eqbo_sound A A' h.1.2, LTerm.eqb_sound b b' h.2]
      | _ => simp [LComb.eqb] at h
  theorem LTerm.eqbs_sound : (as as' : List LTerm) → LTerm.eqbs as as' = true → as = as'
    | [], as', h => by cases as' <;> simp_all [LTerm.eqbs]
    | a :: as, as', h => by
      cases as' with
      | nil => simp [LTerm.eqbs] at h
      | cons a' as' =>
        simp only [LTerm.eqbs, Bool.and_eq_true] at h
        rw [LTerm.eqb_sound a a' h.1, LTerm.eqbs_sound as as' h.2]
  theorem LTerm.eqbo_sound : (a a' : Option LTerm) → LTerm.eqbo a a' = true → a = a'
    | none, a', h => by cases a' <;> simp_all [LTerm.eqbo]
    | some a, a', h => by
      cases a' with
      | none => simp [LTerm.eqbo] at h
      | some a' => rw [LTerm.eqb_sound a a' (by simpa [LTerm.eqbo] using h)]
end

mutual
  /-- Are the patterns the same? -/
  def Pattern.eqb : Pattern → Pattern → Bool
    | .symb s ps, .symb s' ps' => s == s' && Pattern.eqbs ps ps'
    | .mvar m, .mvar m' => m == m'
    | .joker, .joker => true
    | _, _ => false
  /-- Are the lists the same? -/
  def Pattern.eqbs : List Pattern → List Pattern → Bool
    | [], [] => true
    | a :: as, a' :: as' => Pattern.eqb a a' && Pattern.eqbs as as'
    | _, _ => false
end

mutual
  theorem Pattern.eqb_sound : (p q : Pattern) → p.eqb q = true → p = q
    | .symb s ps, q, h => by
      cases q with
      | symb s' ps' =>
        simp only [Pattern.eqb, Bool.and_eq_true, beq_iff_eq] at h
        rw [h.1, Pattern.eqbs_sound ps ps' h.2]
      | _ => simp [Pattern.eqb] at h
    | .mvar _, q, h => by cases q <;> simp_all [Pattern.eqb]
    | .joker, q, h => by cases q <;> simp_all [Pattern.eqb]
  theorem Pattern.eqbs_sound : (as as' : List Pattern) → Pattern.eqbs as as' = true → as = as'
    | [], as', h => by cases as' <;> simp_all [Pattern.eqbs]
    | a :: as, as', h => by
      cases as' with
      | nil => simp [Pattern.eqbs] at h
      | cons a' as' =>
        simp only [Pattern.eqbs, Bool.and_eq_true] at h
        rw [Pattern.eqb_sound a a' h.1, Pattern.eqbs_sound as as' h.2]
end

/-- Are the contexts of rules the same? -/
def ctxEqb : List (Str × Option LTerm) → List (Str × Option LTerm) → Bool
  | [], [] => true
  | a :: as, a' :: as' => a.1 == a'.1 && LTerm.eqbo a.2 a'.2 && ctxEqb as as'
  | _, _ => false

theorem ctxEqb_sound : (as as' : List (Str × Option LTerm)) → ctxEqb as as' = true → as = as'
  | [], as', h => by cases as' <;> simp_all [ctxEqb]
  | (x, A) :: as, as', h => by
    cases as' with
    | nil => simp [ctxEqb] at h
    | cons a' as' =>
      obtain ⟨x', A'⟩ := a'
      simp only [ctxEqb, Bool.and_eq_true, beq_iff_eq] at h
      rw [h.1.1, LTerm.eqbo_sound A A' h.1.2, ctxEqb_sound as as' h.2]

/-- Are the rules the same? -/
def Rule.eqb (r r' : Rule) : Bool := ctxEqb r.ctx r'.ctx && r.lhs.symbol == r'.lhs.symbol && Pattern.eqbs r.lhs.args r'.lhs.args && r.rhs.eqb r'.rhs

theorem Rule.eqb_sound {r r' : Rule} (h : r.eqb r' = true) : r = r' := by
  obtain ⟨c, ⟨s, ps⟩, t⟩ := r
  obtain ⟨c', ⟨s', ps'⟩, t'⟩ := r'
  simp only [Rule.eqb, Bool.and_eq_true, beq_iff_eq] at h
  rw [ctxEqb_sound _ _ h.1.1.1, h.1.1.2, Pattern.eqbs_sound _ _ h.1.2, LTerm.eqb_sound _ _ h.2]

/-- Are the lists of rules the same? -/
def Rule.eqbs : List Rule → List Rule → Bool
  | [], [] => true
  | a :: as, a' :: as' => a.eqb a' && Rule.eqbs as as'
  | _, _ => false

theorem Rule.eqbs_sound : (as as' : List Rule) → Rule.eqbs as as' = true → as = as'
  | [], as', h => by cases as' <;> simp_all [Rule.eqbs]
  | a :: as, as', h => by
    cases as' with
    | nil => simp [Rule.eqbs] at h
    | cons a' as' =>
      simp only [Rule.eqbs, Bool.and_eq_true] at h
      rw [Rule.eqb_sound h.1, Rule.eqbs_sound as as' h.2]

/-- Are the commands the same? -/
def Cmd.eqb : Cmd → Cmd → Bool
  | .intro s (.definition ty tm), .intro s' (.definition ty' tm') => s == s' && LTerm.eqbo ty ty' && LTerm.eqbo tm tm'
  | .intro s (.theorem_ ty tm), .intro s' (.theorem_ ty' tm') => s == s' && ty.eqb ty' && tm.eqb tm'
  | .intro s (.declaration i ty), .intro s' (.declaration i' ty') => s == s' && i == i' && ty.eqb ty'
  | .rules rs, .rules rs' => Rule.eqbs rs rs'
  | _, _ => false

theorem Cmd.eqb_sound {c c' : Cmd} (h : c.eqb c' = true) : c = c' := by
  unfold Cmd.eqb at h
  split at h <;> try simp only [Bool.and_eq_true, beq_iff_eq] at h
  · rw [h.1.1, LTerm.eqbo_sound _ _ h.1.2, LTerm.eqbo_sound _ _ h.2]
  · rw [h.1.1, LTerm.eqb_sound _ _ h.1.2, LTerm.eqb_sound _ _ h.2]
  · rw [h.1.1, h.1.2, LTerm.eqb_sound _ _ h.2]
  · rw [Rule.eqbs_sound _ _ h]
  · cases h

/-- Are the results exactly these commands? -/
def cmdsAre : List (Out Cmd) → List Cmd → Bool
  | [], [] => true
  | .ok c :: cs, c' :: cs' => c.eqb c' && cmdsAre cs cs'
  | _, _ => false

theorem cmdsAre_sound : (cs : List (Out Cmd)) → (cs' : List Cmd) → cmdsAre cs cs' = true → cs = cs'.map .ok
  | [], cs', h => by cases cs' <;> simp_all [cmdsAre]
  | c :: cs, cs', h => by
    cases cs' with
    | nil => cases c <;> simp [cmdsAre] at h
    | cons c' cs' =>
      cases c with
      | ok c =>
        simp only [cmdsAre, Bool.and_eq_true] at h
        rw [Cmd.eqb_sound h.1, cmdsAre_sound cs cs' h.2]
        rfl
      | _ => simp [cmdsAre] at h

end Kontroli
