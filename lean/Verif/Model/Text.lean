import Verif.Model.Base

/-! # Text functions of the standard library -/

namespace Kontroli

/-- `str::lines` (`koweb/src/parse_make.rs` L130) and `BufRead::lines` (`kocheck/src/process.rs` L46): the pieces ended by `\n`, without
it and without a `\r` before it; the last one may lack the `\n`.  The first argument is the piece read so far. -/
def splitLines : Str → Str → List Str
  | [], [] => []
  | acc, [] => [acc]
  | acc, '\n' :: s => (if acc.getLast? = some '\r' then acc.dropLast else acc) :: splitLines [] s
  | acc, c :: s => splitLines (acc ++ [c]) s

end Kontroli
