import Verif.Model.Bench
import Verif.Spec.Correct

/-!
# What the benchmark programs are meant to print
-/

namespace Kontroli

/-- an unqualified name as a term -/
def named (x : Str) : PTerm PSymb := symbTerm ⟨[], x⟩

/-- an application of a name -/
def applied (f : Str) (ts : List (PTerm PSymb)) : PTerm PSymb := .app (.atom ⟨[], f⟩) ts

/-- `t -> u` -/
def arrowOf (t u : PTerm PSymb) : PTerm PSymb := .app (.prod none t u) []

/-- `x : a => x : a => ... => x` with `n` abstractions -/
def abstChainTm : Nat → PTerm PSymb
  | 0 => named (str "x")
  | n + 1 => .app (.abst (str "x") (some (named (str "a"))) (abstChainTm n)) []

/-- `a -> ... -> a` with `n + 1` occurrences of `a` -/
def prodChainTy : Nat → PTerm PSymb
  | 0 => named (str "a")
  | n + 1 => arrowOf (named (str "a")) (prodChainTy n)

/-- a complete binary tree of height `n` of applications of `f` to `0` -/
def btreeTm : Nat → PTerm PSymb
  | 0 => named (str "0")
  | n + 1 => applied (str "f") [btreeTm n, btreeTm n]

/-- a complete binary tree of height `n` with `f` at the root, where left sub-trees begin with `fst` and right ones with `snd` -/
def fsTm (f : Str) : Nat → PTerm PSymb
  | 0 => applied f [named (str "x"), named (str "y")]
  | n + 1 => applied f [fsTm (str "fst") n, fsTm (str "snd") n]

/-- `id (id ... x)` with `n` occurrences of `id` -/
def idTm : Nat → PTerm PSymb
  | 0 => named (str "x")
  | n + 1 => applied (str "id") [idTm n]

/-- the commands with numbers less than `n` -/
def firsts (c : Nat → PCmd (PTerm PSymb)) (n : Nat) : List (PCmd (PTerm PSymb)) := (List.range n).map c

/-- `a : Type.`, then `def an := x : a => ... => x.` with `n` abstractions -/
def abstChainCmds : Nat → PCmd (PTerm PSymb)
  | 0 => .intro (str "a") [] (.declaration false (named (str "Type")))
  | n + 1 => .intro (str "a" ++ decimal (n + 1)) [] (.definition none (some (abstChainTm (n + 1))))

/-- `a : Type.`, then `an : a -> ... -> a.` with `n` occurrences of `a` -/
def prodChainCmds : Nat → PCmd (PTerm PSymb)
  | 0 => .intro (str "a") [] (.declaration false (named (str "Type")))
  | n + 1 => .intro (str "a" ++ decimal (n + 1)) [] (.declaration false (prodChainTy n))

/-- `a : Type.`, `0 : a.`, `p : a -> Type.`, `f : a -> a -> a.`, then `an : p t.` where `t` is a tree of height `n + 1` -/
def btreeCmds : Nat → PCmd (PTerm PSymb)
  | 0 => .intro (str "a") [] (.declaration false (named (str "Type")))
  | 1 => .intro (str "0") [] (.declaration false (named (str "a")))
  | 2 => .intro (str "p") [] (.declaration false (arrowOf (named (str "a")) (named (str "Type"))))
  | 3 => .intro (str "f") [] (.declaration false (prodChainTy 2))
  | n + 4 => .intro (str "a" ++ decimal n) [] (.declaration false (applied (str "p") [btreeTm (n + 1)]))

/-- `A : Type.`, `def fst (x : A) (y : A) := x.`, `def snd (x : A) (y : A) := y.`, then `def fsn (x : A) (y : A) := t.` where `t` is a tree of height `n` -/
def fstSndCmds : Nat → PCmd (PTerm PSymb)
  | 0 => .intro (str "A") [] (.declaration false (named (str "Type")))
  | 1 => .intro (str "fst") [(str "x", named (str "A")), (str "y", named (str "A"))] (.definition none (some (named (str "x"))))
  | 2 => .intro (str "snd") [(str "x", named (str "A")), (str "y", named (str "A"))] (.definition none (some (named (str "y"))))
  | n + 3 => .intro (str "fs" ++ decimal (n + 1)) [(str "x", named (str "A")), (str "y", named (str "A"))]
      (.definition none (some (fsTm (str "fst") (n + 1))))

/-- `A : Type.`, `def id (x : A) := x.`, then `def idn (x : A) := id (... x).` with `n` occurrences of `id` -/
def idCmds : Nat → PCmd (PTerm PSymb)
  | 0 => .intro (str "A") [] (.declaration false (named (str "Type")))
  | 1 => .intro (str "id") [(str "x", named (str "A"))] (.definition none (some (named (str "x"))))
  | n + 2 => .intro (str "id" ++ decimal (n + 1)) [(str "x", named (str "A"))] (.definition none (some (idTm (n + 1))))

/-- the benchmarks: what is printed, the commands that are meant, and the number of commands before the loop -/
def benchmarks : List ((Nat → Str) × (Nat → PCmd (PTerm PSymb)) × Nat) :=
  [(abstChain, abstChainCmds, 1), (prodChain, prodChainCmds, 1), (btree, btreeCmds, 4), (fstSnd, fstSndCmds, 3), (idChain, idCmds, 2)]

open Classical in
mutual
  /-- the number of places where a term occurs in a term -/
  noncomputable def PTerm.places (u : PTerm PSymb) : PTerm PSymb → Nat
    | .app h ts => (if PTerm.app h ts = u then 1 else 0) + (if ts = [] then 0 else if PTerm.app h [] = u then 1 else 0) + h.places u + PTerm.placesList u ts
  /-- the same for a head -/
  noncomputable def PHead.places (u : PTerm PSymb) : PHead PSymb → Nat
    | .atom _ => 0
    | .abst _ none t => PTerm.places u t
    | .abst _ (some ty) t => PTerm.places u ty + PTerm.places u t
    | .prod _ t t' => PTerm.places u t + PTerm.places u t'
  /-- the same for arguments -/
  noncomputable def PTerm.placesList (u : PTerm PSymb) : List (PTerm PSymb) → Nat
    | [] => 0
    | t :: ts => PTerm.places u t + PTerm.placesList u ts
end

end Kontroli
