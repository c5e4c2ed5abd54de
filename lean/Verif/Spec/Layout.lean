import Verif.Model.Fmt
import Verif.Spec.Program

/-!
# How commands are laid out by the formatter
-/

namespace Kontroli

/-- what stands between two tokens of a command: nothing after opening and before closing brackets and before commas -/
def gap (a b : Token) : Str := if a ∈ [Token.lbrk, .lpar] ∨ b ∈ [Token.rbrk, .rpar, .comma] then [] else str " "

/-- A line for some tokens: their spellings, with gaps between them. -/
inductive LineFor : List Token → Str → Prop
  | nil : LineFor [] []
  | one {t : Token} {w : Str} : t.display = some w → LineFor [t] w
  | cons {a b : Token} {ts : List Token} {w s : Str} : a.display = some w → LineFor (b :: ts) s → LineFor (a :: b :: ts) (w ++ gap a b ++ s)

/-- A layout of some tokens: every command, up to its dot, is on a line of its own, and the rest is at the end. -/
inductive LayoutFor : List Token → Str → Prop
  | rest {ts : List Token} {s : Str} : Token.dot ∉ ts → LineFor ts s → LayoutFor ts s
  | command {ts ts' : List Token} {s s' : Str} : Token.dot ∉ ts → LineFor ts s → LayoutFor ts' s' →
      LayoutFor (ts ++ .dot :: ts') (s ++ str ".\n" ++ s')

end Kontroli
