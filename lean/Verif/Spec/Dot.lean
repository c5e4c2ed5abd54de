import Verif.Spec.Tokens
import Mathlib.Data.List.Forall2

/-!
# The dependencies in a Makefile
-/

namespace Kontroli

/-- between the target and the dependencies -/
def colonSep : Str := str " : "

/-- A line has a target and dependencies: it is cut at the first ` : `, and there is none further on. -/
def RuleLine (l t d : Str) : Prop := l = t ++ colonSep ++ d ∧ (∀ x y, l = x ++ colonSep ++ y → t.length ≤ x.length) ∧ ¬ colonSep <:+: d

/-- white space of Unicode -/
def White (c : Char) : Prop := c ∈ ['\u0009', '\u000a', '\u000b', '\u000c', '\u000d', '\u0020', '\u0085', '\u00a0', '\u1680', '\u2000',
  '\u2001', '\u2002', '\u2003', '\u2004', '\u2005', '\u2006', '\u2007', '\u2008', '\u2009', '\u200a', '\u2028', '\u2029', '\u202f', '\u205f',
  '\u3000']

/-- the words of a text -/
inductive Words : Str → List Str → Prop
  | nil {s : Str} : (∀ c ∈ s, White c) → Words s []
  | cons {s w r : Str} {ws : List Str} : (∀ c ∈ s, White c) → w ≠ [] → (∀ c ∈ w, ¬ White c) → (∀ c, r.head? = some c → White c) → Words r ws →
      Words (s ++ w ++ r) (w :: ws)

/-- A file name without all of its extensions `.dko`. -/
def Trimmed (f g : Str) : Prop := (∃ n, f = g ++ (List.replicate n (str ".dko")).flatten) ∧ ¬ str ".dko" <:+ g

/-- The edges given by a line: from its target to its dependencies, without the first one. -/
def LineEdges (l : Str) (es : List (Str × Str)) : Prop :=
  (∃ t d ws t', RuleLine l t d ∧ Words d ws ∧ Trimmed t t' ∧ List.Forall₂ (fun w e => e.1 = t' ∧ Trimmed w e.2) (ws.drop 1) es) ∨
  ((¬ ∃ t d, RuleLine l t d) ∧ es = [])

end Kontroli
