import Verif.Model.Base
import Mathlib.Logic.Relation

/-!
# Dependencies of files, independent of the graph algorithm

The lines of a make file are lists of file names: a file and the files it depends on.
-/

namespace Kontroli

/-- One of the lines says that `a` depends on `b`. -/
def Dep (rows : List (List Str)) (a b : Str) : Prop := ∃ bs, (a :: bs) ∈ rows ∧ b ∈ bs

/-- A file is mentioned. -/
def Mentioned (rows : List (List Str)) (a : Str) : Prop := ∃ r ∈ rows, a ∈ r

/-- `a` depends on `b` or is `b`, possibly through other files. -/
def Needs (rows : List (List Str)) : Str → Str → Prop := Relation.ReflTransGen (Dep rows)

/-- No file that `a` needs depends on itself, possibly through other files. -/
def NoCycle (rows : List (List Str)) (a : Str) : Prop := ∀ b, Needs rows a b → ¬ Relation.TransGen (Dep rows) b b

/-- The order in which the files must be processed for `a`: exactly the needed files, each once, each after the files it
depends on. -/
structure GoodOrder (rows : List (List Str)) (a : Str) (order : List Str) : Prop where
  nodup : order.Nodup
  mem : ∀ b, b ∈ order ↔ Needs rows a b
  before : ∀ b c, b ∈ order → Dep rows b c → order.idxOf c < order.idxOf b

/-- A row of a make file as text: words separated by spaces. -/
def rowText : List Str → Str
  | [] => []
  | [w] => w
  | w :: ws => w ++ ' ' :: rowText ws

/-- Words of a make file: not empty, no colon alone, no space or line break in it. -/
def IsWord (w : Str) : Prop := w ≠ [] ∧ w ≠ [':'] ∧ ∀ c ∈ w, c ≠ ' ' ∧ c ≠ '\n' ∧ c ≠ '\r'

end Kontroli
