import Verif.Model.Base

/-! # Module paths of file paths, on the level of text -/

namespace Kontroli

/-- a path as text: pieces separated by slashes -/
def pathText : List Str → Str
  | [] => []
  | [p] => p
  | p :: ps => p ++ '/' :: pathText ps

/-- The stem of a file name: what precedes the last dot, or everything if there is no dot except for one at the beginning. -/
inductive StemOf : Str → Str → Prop
  | ext {s e : Str} : s ≠ [] → '.' ∉ e → StemOf (s ++ '.' :: e) s
  | plain {s : Str} : '.' ∉ s → StemOf s s
  | hidden {e : Str} : '.' ∉ e → StemOf ('.' :: e) ('.' :: e)

/-- The pieces of a path that name something: pieces that are empty or `.` do not. -/
def naming (pieces : List Str) : List Str := pieces.filter fun p => p ≠ [] ∧ p ≠ ['.']

/-- The module path of a path that is given by its pieces. -/
inductive ModuleOf : List Str → List Str → Prop
  | mk {first : Str} {rest dirs : List Str} {file stem : Str} : first ≠ [] → first ≠ ['.'] →
      naming (first :: rest) = dirs ++ [file] → ['.', '.'] ∉ dirs ++ [file] → StemOf file stem → ModuleOf (first :: rest) (dirs ++ [stem])

end Kontroli
