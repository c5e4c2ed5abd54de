import Verif.Spec.Correct

/-!
# Programs for the web checker
-/

namespace Kontroli

/-- A text consists of some commands, when it is read as a whole. -/
def WholeTextOf (text : Str) (cs : List (PCmd (PTerm PSymb))) : Prop := ∃ ts, Lexes text ts 0 ∧ GStrict ts cs

/-- The program given by named texts. -/
inductive WebProgramOf : List (Str × Str) → List Entry → Prop
  | nil : WebProgramOf [] []
  | cons {name text : Str} {cs : List (PCmd (PTerm PSymb))} {mods : List (Str × Str)} {es : List Entry} :
      WholeTextOf text cs → WebProgramOf mods es → WebProgramOf ((name, text) :: mods) (cs.map (Entry.mk [name]) ++ es)

end Kontroli
