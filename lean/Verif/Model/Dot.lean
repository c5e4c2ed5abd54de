import Verif.Model.Text
import Verif.Model.Syntax

/-!
# Dependency graphs (`misc/dep2dot.rs`)

The program reads a Makefile and prints a graph.  Errors of reading and writing are not modelled.
-/

namespace Kontroli

/-- the text read so far, and the suffix `.dko` in reverse (see `trimDko`) -/
def dropDkoRev : Str → Str
  | 'o' :: 'k' :: 'd' :: '.' :: s => dropDkoRev s
  | s => s

/-- `trim`, that is `trim_end_matches(".dko")` (`misc/dep2dot.rs` L10-12), which removes the suffix as often as possible -/
def trimDko (s : Str) : Str := (dropDkoRev s.reverse).reverse

/-- `line.split(" : ")` (`misc/dep2dot.rs` L19); the first argument is the piece read so far -/
def splitColon : Str → Str → List Str
  | acc, ' ' :: ':' :: ' ' :: s => acc :: splitColon [] s
  | acc, c :: s => splitColon (acc ++ [c]) s
  | acc, [] => [acc]

/-- `char::is_whitespace` -/
def isWhite (c : Char) : Bool :=
  let n := c.toNat
  (9 ≤ n && n ≤ 13) || n == 0x20 || n == 0x85 || n == 0xA0 || n == 0x1680 || (0x2000 ≤ n && n ≤ 0x200A) || n == 0x2028 || n == 0x2029 ||
    n == 0x202F || n == 0x205F || n == 0x3000

/-- `deps.split_whitespace()` (`misc/dep2dot.rs` L25); the first argument is the word read so far -/
def splitWhite : Str → Str → List Str
  | acc, [] => if acc.isEmpty then [] else [acc]
  | acc, c :: s => if isWhite c then (if acc.isEmpty then splitWhite [] s else acc :: splitWhite [] s) else splitWhite (acc ++ [c]) s

/-- what is printed for a line (`misc/dep2dot.rs` L18-30) -/
def dotLine (line : Str) : Str :=
  match splitColon [] line with
  | [target, deps] => (((splitWhite [] deps).drop 1).map trimDko).flatMap fun dep => trimDko target ++ str " -> " ++ dep ++ str ";\n"
  | _ => []

/-- `main` of `dep2dot` (`misc/dep2dot.rs` L14-34): what is printed for a text -/
def dep2dot (text : Str) : Str := str "digraph G {\n" ++ (splitLines [] text).flatMap dotLine ++ str "}\n"

end Kontroli
