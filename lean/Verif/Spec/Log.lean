import Verif.Model.Log
import Verif.Spec.Program
import Verif.Spec.Correct

/-!
# What the log of a program is

One line for every command, in order, and after the line for some rules one warning for each of them that is not complete.
-/

namespace Kontroli

open Classical in
/-- the number of the rules that have a variable without type or a `_` on the left-hand side -/
noncomputable def incomplete (rs : List (PRule (PTerm PSymb))) : Nat := rs.countP fun r => ¬ r.Full

/-- the log of a program that is accepted -/
inductive LogOf : List Entry → List LogLine → Prop
  | nil : LogOf [] []
  | intro {m : List Str} {x : Str} {args : List (Str × PTerm PSymb)} {it : Intro (PTerm PSymb)} {es : List Entry} {ls : List LogLine} :
      LogOf es ls → LogOf (⟨m, .intro x args it⟩ :: es) (.introduce x :: ls)
  | rules {m : List Str} {rs : List (PRule (PTerm PSymb))} {es : List Entry} {ls : List LogLine} :
      LogOf es ls → LogOf (⟨m, .rules rs⟩ :: es) (.add rs.length :: List.replicate (incomplete rs) .unannotated ++ ls)

end Kontroli
