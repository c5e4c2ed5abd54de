import Verif.Model.Lex

/-!
# The programs that print benchmarks (`examples/bench/*.rs`)

Each program prints some commands and then, for all numbers `i`, a command made from `i`, without end.  The model is the text that is printed after some
commands.  (A run that goes on long enough would exceed the range of `i`; this is not modelled.)
-/

namespace Kontroli

/-- `Display` for numbers -/
def decimal (n : Nat) : Str := Nat.toDigits 10 n

/-- A text, from the commands that are printed first and the first `n` commands of the loop. -/
def printed (first : List Str) (loop : Nat → Str) (n : Nat) : Str := first.flatten ++ ((List.range n).map loop).flatten

/-- One round of `main` (`examples/bench/abst_chain.rs` L5-9); `i` counts from 1. -/
def abstChainRound (i : Nat) : Str :=
  str "def a" ++ decimal i ++ str " := " ++ (List.replicate i (str "x : a => ")).flatten ++ str "x.\n"

/-- `main` (`examples/bench/abst_chain.rs` L2-11) -/
def abstChain : Nat → Str := printed [str "a : Type.\n"] fun k => abstChainRound (k + 1)

/-- One round of `main` (`examples/bench/prod_chain.rs` L5-9); `i` counts from 1. -/
def prodChainRound (i : Nat) : Str :=
  str "a" ++ decimal i ++ str " : a" ++ (List.replicate (i - 1) (str " -> a")).flatten ++ str ".\n"

/-- `main` (`examples/bench/prod_chain.rs` L2-11) -/
def prodChain : Nat → Str := printed [str "a : Type.\n"] fun k => prodChainRound (k + 1)

/-- `btree_app` (`examples/bench/btree_app.rs` L15-24) -/
def btreeApp : Nat → Str
  | 0 => str " 0"
  | n + 1 => str " (f" ++ btreeApp n ++ btreeApp n ++ str ")"

/-- One round of `main` (`examples/bench/btree_app.rs` L8-12); `i` counts from 0. -/
def btreeRound (i : Nat) : Str := str "a" ++ decimal i ++ str " : p" ++ btreeApp (i + 1) ++ str ".\n"

/-- `main` (`examples/bench/btree_app.rs` L2-13) -/
def btree : Nat → Str := printed [str "a : Type.\n", str "0 : a.\n", str "p : a -> Type.\n", str "f : a -> a -> a.\n"] btreeRound

/-- `fs` (`examples/bench/fst_snd.rs` L1-11) -/
def fsText (f : Str) : Nat → Str
  | 0 => f ++ str " x y"
  | n + 1 => f ++ str " (" ++ fsText (str "fst") n ++ str ") (" ++ fsText (str "snd") n ++ str ")"

/-- One round of `main` (`examples/bench/fst_snd.rs` L18-22); `i` counts from 1. -/
def fstSndRound (i : Nat) : Str := str "def fs" ++ decimal i ++ str " (x : A) (y : A) := " ++ fsText (str "fst") i ++ str ".\n"

/-- `main` (`examples/bench/fst_snd.rs` L14-23) -/
def fstSnd : Nat → Str :=
  printed [str "A : Type.\n", str "def fst (x : A) (y : A) := x.\n", str "def snd (x : A) (y : A) := y.\n"] fun k => fstSndRound (k + 1)

/-- `id` (`examples/bench/id.rs` L1-9) -/
def idText : Nat → Str
  | 0 => str "x"
  | n + 1 => str "(id " ++ idText n ++ str ")"

/-- One round of `main` (`examples/bench/id.rs` L15-19); `i` counts from 1. -/
def idRound (i : Nat) : Str := str "def id" ++ decimal i ++ str " (x : A) := " ++ idText i ++ str ".\n"

/-- `main` (`examples/bench/id.rs` L12-20) -/
def idChain : Nat → Str := printed [str "A : Type.\n", str "def id (x : A) := x.\n"] fun k => idRound (k + 1)

end Kontroli
