import Verif.Spec.Overlap
import Mathlib.Data.Nat.Factorial.Basic
import Mathlib.Data.Nat.Fib.Basic

/-!
# What examples of the repository say

The texts of `/repo/examples/nat.dk`, `/repo/examples/bool.dk` and `/repo/examples/magic.dk`, the commands that they stand for, and the numbers
and truth values of expressions made of the functions that are defined in them.  The functions are those of Lean and Mathlib.
-/

namespace Kontroli

/-- A text with these lines. -/
def lines (ls : List String) : Str := ls.flatMap fun l => str l ++ ['\n']

/-- `/repo/examples/nat.dk` -/
def natText : Str := lines [
  "(; Natural numbers and elementary operations ;)",
  "",
  "Nat : Type.",
  "succ : Nat -> Nat.",
  "0 : Nat.",
  "",
  "def 1 := succ 0.",
  "def 2 := succ 1.",
  "def 3 := succ 2.",
  "def 4 := succ 3.",
  "def 5 := succ 4.",
  "def 6 := succ 5.",
  "def 7 := succ 6.",
  "def 8 := succ 7.",
  "def 9 := succ 8.",
  "",
  "(; Addition ;)",
  "def add : Nat -> Nat -> Nat.",
  "[X] add 0 X --> X",
  "[X, Y] add (succ X) Y --> succ (add X Y).",
  "",
  "(; Multiplication ;)",
  "def mul : Nat -> Nat -> Nat.",
  "[X] mul 0 X --> 0",
  "[X, Y] mul (succ X) Y --> add Y (mul X Y).",
  "",
  "(; Exponentiation: exp x y = y^x ;)",
  "def exp : Nat -> Nat -> Nat.",
  "[X] exp 0 X --> 1",
  "[X, Y] exp (succ X) Y --> mul Y (exp X Y).",
  "",
  "(; Factorial ;)",
  "def fac : Nat -> Nat.",
  "[] fac 0 --> 1",
  "[] fac (succ 0) --> 1",
  "[X] fac (succ X) --> mul (succ X) (fac X).",
  "",
  "(; Fibonacci ;)",
  "def fib : Nat -> Nat.",
  "[] fib 0 --> 0",
  "[] fib (succ 0) --> 1",
  "[X] fib (succ (succ X)) --> add (fib (succ X)) (fib X).",
  "",
  "(; A dependent type used to check equality ;)",
  "Dep : Nat -> Type.",
  "dep : n : Nat -> Dep n."]

/-- `/repo/examples/bool.dk` -/
def boolText : Str := lines [
  "(; Booleans ;)",
  "",
  "Bool : Type.",
  "T : Bool.",
  "F : Bool.",
  "",
  "def and : Bool -> Bool -> Bool.",
  "[] and F _ --> F",
  "[] and _ F --> F",
  "[] and T T --> T.",
  "",
  "def or : Bool -> Bool -> Bool.",
  "[] or T _ --> T",
  "[] or _ T --> T",
  "[] or F F --> F.",
  "",
  "def not : Bool -> Bool.",
  "[] not T --> F",
  "[] not F --> T.",
  "",
  "def iff : Bool -> Bool -> Bool.",
  "[] iff T T --> T",
  "[] iff T F --> F",
  "[] iff F T --> F",
  "[] iff F F --> T.",
  "",
  "def imp : Bool -> Bool -> Bool.",
  "[] imp F _ --> T",
  "[] imp T T --> T",
  "[] imp T F --> F."]

/-- `/repo/examples/magic.dk` -/
def magicText : Str := lines [
  "(; Adding additional arguments via rewriting, by Gaspard Ferey. ;)",
  "",
  "N : Type.",
  "0 : N.",
  "S : N -> N.",
  "",
  "A : Type.",
  "List : N -> Type.",
  "",
  "def magic : N -> N -> Type.",
  "[n  ] magic n 0      -->  List n",
  "[n,i] magic n (S i)  -->  A -> magic n i.",
  "cons : n : N -> magic n n.",
  "",
  "def checks",
  "  : A -> A -> A -> List (S (S (S 0)))",
  "  := cons (S (S (S 0))).",
  "",
  "(;",
  "def fails",
  "  : A -> A -> A -> List (S (S (S 0)))",
  "  := cons (S (S (0))).",
  ";)"]

/-- the type of functions, where the value does not depend on the argument -/
def LTerm.arrow (A B : LTerm) : LTerm := .comb (.prod ['$'] A B)

/-- an application -/
def LTerm.appl (f : LTerm) (as : List LTerm) : LTerm := .comb (.appl f as)

/-- the successor of a term of `nat.dk` -/
def LTerm.natSucc (t : LTerm) : LTerm := .appl (.const 1) [t]

/-- the rule of `nat.dk` that follows from other rules: `fac (succ 0) --> 1` -/
def facOne : Rule := ⟨[], ⟨15, [.symb 1 [.symb 2 []]]⟩, .const 3⟩

/-- The commands of `nat.dk`.  The symbols are `Nat` (0), `succ` (1), `0` (2), `1` to `9` (3 to 11), `add` (12), `mul` (13), `exp` (14), `fac` (15),
`fib` (16), `Dep` (17) and `dep` (18). -/
def natCmds : List Cmd :=
  let N : LTerm := .const 0
  let X : Str × Option LTerm := (['X'], none)
  let Y : Str × Option LTerm := (['Y'], none)
  [.intro 0 (.declaration false .type), .intro 1 (.declaration false (.arrow N N)), .intro 2 (.declaration false N)] ++
  (List.range 9).map (fun i => .intro (i + 3) (.definition none (some (.natSucc (.const (i + 2)))))) ++
  [.intro 12 (.definition (some (.arrow N (.arrow N N))) none),
   .rules [⟨[X], ⟨12, [.symb 2 [], .mvar 0]⟩, .var 0⟩,
     ⟨[X, Y], ⟨12, [.symb 1 [.mvar 1], .mvar 0]⟩, .natSucc (.appl (.const 12) [.var 1, .var 0])⟩],
   .intro 13 (.definition (some (.arrow N (.arrow N N))) none),
   .rules [⟨[X], ⟨13, [.symb 2 [], .mvar 0]⟩, .const 2⟩,
     ⟨[X, Y], ⟨13, [.symb 1 [.mvar 1], .mvar 0]⟩, .appl (.const 12) [.var 0, .appl (.const 13) [.var 1, .var 0]]⟩],
   .intro 14 (.definition (some (.arrow N (.arrow N N))) none),
   .rules [⟨[X], ⟨14, [.symb 2 [], .mvar 0]⟩, .const 3⟩,
     ⟨[X, Y], ⟨14, [.symb 1 [.mvar 1], .mvar 0]⟩, .appl (.const 13) [.var 0, .appl (.const 14) [.var 1, .var 0]]⟩],
   .intro 15 (.definition (some (.arrow N N)) none),
   .rules [⟨[], ⟨15, [.symb 2 []]⟩, .const 3⟩, facOne,
     ⟨[X], ⟨15, [.symb 1 [.mvar 0]]⟩, .appl (.const 13) [.natSucc (.var 0), .appl (.const 15) [.var 0]]⟩],
   .intro 16 (.definition (some (.arrow N N)) none),
   .rules [⟨[], ⟨16, [.symb 2 []]⟩, .const 2⟩, ⟨[], ⟨16, [.symb 1 [.symb 2 []]]⟩, .const 3⟩,
     ⟨[X], ⟨16, [.symb 1 [.symb 1 [.mvar 0]]]⟩, .appl (.const 12) [.appl (.const 16) [.natSucc (.var 0)], .appl (.const 16) [.var 0]]⟩],
   .intro 17 (.declaration false (.arrow N .type)),
   .intro 18 (.declaration false (.comb (.prod ['n'] N (.appl (.const 17) [.var 0]))))]

/-- The commands of `bool.dk`.  The symbols are `Bool` (0), `T` (1), `F` (2), `and` (3), `or` (4), `not` (5), `iff` (6) and `imp` (7). -/
def boolCmds : List Cmd :=
  let B : LTerm := .const 0
  let t : Pattern := .symb 1 []
  let f : Pattern := .symb 2 []
  let rule (s : Sym) (ps : List Pattern) (v : Sym) : Rule := ⟨[], ⟨s, ps⟩, .const v⟩
  [.intro 0 (.declaration false .type), .intro 1 (.declaration false B), .intro 2 (.declaration false B),
   .intro 3 (.definition (some (.arrow B (.arrow B B))) none),
   .rules [rule 3 [f, .joker] 2, rule 3 [.joker, f] 2, rule 3 [t, t] 1],
   .intro 4 (.definition (some (.arrow B (.arrow B B))) none),
   .rules [rule 4 [t, .joker] 1, rule 4 [.joker, t] 1, rule 4 [f, f] 2],
   .intro 5 (.definition (some (.arrow B B)) none),
   .rules [rule 5 [t] 2, rule 5 [f] 1],
   .intro 6 (.definition (some (.arrow B (.arrow B B))) none),
   .rules [rule 6 [t, t] 1, rule 6 [t, f] 2, rule 6 [f, t] 2, rule 6 [f, f] 1],
   .intro 7 (.definition (some (.arrow B (.arrow B B))) none),
   .rules [rule 7 [f, .joker] 1, rule 7 [t, t] 1, rule 7 [t, f] 2]]

/-- the numeral `S (... (S 0))` of `magic.dk` -/
def magicNum : Nat → LTerm
  | 0 => .const 1
  | n + 1 => .appl (.const 2) [magicNum n]

/-- `A -> ... -> A -> List l`, with `n` arrows -/
def magicType (l : LTerm) : Nat → LTerm
  | 0 => .appl (.const 4) [l]
  | n + 1 => .arrow (.const 3) (magicType l n)

/-- The commands of `magic.dk` before `checks`.  The symbols are `N` (0), `0` (1), `S` (2), `A` (3), `List` (4), `magic` (5) and `cons` (6). -/
def magicCmds : List Cmd :=
  let N : LTerm := .const 0
  let n : Str × Option LTerm := (['n'], none)
  let i : Str × Option LTerm := (['i'], none)
  [.intro 0 (.declaration false .type), .intro 1 (.declaration false N), .intro 2 (.declaration false (.arrow N N)),
   .intro 3 (.declaration false .type), .intro 4 (.declaration false (.arrow N .type)),
   .intro 5 (.definition (some (.arrow N (.arrow N .type))) none),
   .rules [⟨[n], ⟨5, [.mvar 0, .symb 1 []]⟩, .appl (.const 4) [.var 0]⟩,
     ⟨[n, i], ⟨5, [.mvar 1, .symb 2 [.mvar 0]]⟩, .arrow (.const 3) (.appl (.const 5) [.var 2, .var 1])⟩],
   .intro 6 (.declaration false (.comb (.prod ['n'] N (.appl (.const 5) [.var 0, .var 0]))))]

/-- `checks` in `magic.dk`, for the given numbers of arrows and elements -/
def magicCheck (n l m : Nat) : Intro LTerm := .definition (some (magicType (magicNum l) n)) (some (.appl (.const 6) [magicNum m]))

/-- Expressions made of what is defined in `nat.dk`. -/
inductive NExp where
  | zero
  | succ (e : NExp)
  /-- one of the constants `1` to `9` -/
  | digit (i : Fin 9)
  | add (e e' : NExp)
  | mul (e e' : NExp)
  | exp (e e' : NExp)
  | fac (e : NExp)
  | fib (e : NExp)

/-- The number that an expression stands for. -/
def NExp.val : NExp → Nat
  | .zero => 0
  | .succ e => e.val + 1
  | .digit i => i + 1
  | .add e e' => e.val + e'.val
  | .mul e e' => e.val * e'.val
  | .exp e e' => e'.val ^ e.val
  | .fac e => e.val.factorial
  | .fib e => Nat.fib e.val

/-- The expression as a term of `nat.dk`. -/
def NExp.term : NExp → LTerm
  | .zero => .const 2
  | .succ e => .appl (.const 1) [e.term]
  | .digit i => .const (i + 3)
  | .add e e' => .appl (.const 12) [e.term, e'.term]
  | .mul e e' => .appl (.const 13) [e.term, e'.term]
  | .exp e e' => .appl (.const 14) [e.term, e'.term]
  | .fac e => .appl (.const 15) [e.term]
  | .fib e => .appl (.const 16) [e.term]

/-- `thm s : Dep e := dep e'.` -/
def natThm (e e' : NExp) : Intro LTerm := .theorem_ (.appl (.const 17) [e.term]) (.appl (.const 18) [e'.term])

/-- Expressions made of what is defined in `bool.dk`. -/
inductive BExp where
  | tt
  | ff
  | and (e e' : BExp)
  | or (e e' : BExp)
  | not (e : BExp)
  | iff (e e' : BExp)
  | imp (e e' : BExp)

/-- The truth value of an expression. -/
def BExp.val : BExp → Bool
  | .tt => true
  | .ff => false
  | .and e e' => e.val && e'.val
  | .or e e' => e.val || e'.val
  | .not e => !e.val
  | .iff e e' => e.val == e'.val
  | .imp e e' => !e.val || e'.val

/-- The expression as a term of `bool.dk`. -/
def BExp.term : BExp → LTerm
  | .tt => .const 1
  | .ff => .const 2
  | .and e e' => .appl (.const 3) [e.term, e'.term]
  | .or e e' => .appl (.const 4) [e.term, e'.term]
  | .not e => .appl (.const 5) [e.term]
  | .iff e e' => .appl (.const 6) [e.term, e'.term]
  | .imp e e' => .appl (.const 7) [e.term, e'.term]

end Kontroli
