import Verif.Model.Monad
import Verif.Model.Lex
import Verif.Model.Text

/-!
# Dependencies of the web checker (`koweb/src/parse_make.rs`)

Indexing out of bounds and `unwrap` of `None` are `panic`.  The recursion of `get_all_children` follows the graph, which may
be cyclic: it gets fuel, and `timeout` stands for a recursion that is not finished (the code overflows its stack on a cycle).
`Option::clone`, `String::clone` and logging are left out, as is the conversion to JavaScript values in `get_graph_rust`.
-/

namespace Kontroli

/-- `Node` (`koweb/src/parse_make.rs` L13-18). -/
structure MNode where
  index : Nat
  data : Str
  children : List Nat
  deriving Repr, DecidableEq

/-- `Graph` (`koweb/src/parse_make.rs` L8-11). -/
abbrev MGraph := List MNode

/-- `remove_dup` (`koweb/src/parse_make.rs` L29-37): the loop. -/
def removeDupFrom : List Str → List Str → List Str
  | result, [] => result
  | result, e :: es => if e ∈ result then removeDupFrom result es else removeDupFrom (result ++ [e]) es

/-- `remove_dup` (`koweb/src/parse_make.rs` L29-37). -/
def removeDup (l : List Str) : List Str := removeDupFrom [] l

/-- `get_index_node_with_value` (`koweb/src/parse_make.rs` L102-109). -/
def MGraph.indexOf (g : MGraph) (val : Str) : Option Nat := (g.find? fun nd => nd.data = val).map MNode.index

/-- the loop `for dep in deps` (`koweb/src/parse_make.rs` L48-52) -/
def addDeps : List Nat → List Nat → List Nat
  | result, [] => result
  | result, d :: ds => if d ∈ result then addDeps result ds else addDeps (result ++ [d]) ds

/-- the loop over the children in `get_all_children` (`koweb/src/parse_make.rs` L43-66), with the recursive call as argument -/
def childLoop (g : MGraph) (rec : Nat → Res (Option (List Nat))) : List Nat → List Nat → Res (List Nat)
  | result, [] => .ok result
  | result, c :: cs =>
    match g[c]? with
    | none => .panic
    | some nd =>
      match g.indexOf nd.data with
      | none => .panic
      | some _ =>
        if nd.children.isEmpty then childLoop g rec (result ++ [c]) cs
        else
          match rec c with
          | .ok (some deps) => childLoop g rec (addDeps result deps ++ [c]) cs
          | .ok none => childLoop g rec (result ++ [c]) cs
          | .err e => .err e
          | .panic => .panic
          | .timeout => .timeout

/-- `get_all_children` (`koweb/src/parse_make.rs` L40-73). -/
def allChildren (g : MGraph) : Nat → Nat → Res (Option (List Nat))
  | 0, _ => .timeout
  | n + 1, index =>
    match g[index]? with
    | none => .panic
    | some nd =>
      match childLoop g (allChildren g n) [] nd.children with
      | .ok result => .ok (some result)
      | .err e => .err e
      | .panic => .panic
      | .timeout => .timeout

/-- the loop `for child in ..` (`koweb/src/parse_make.rs` L84-86) -/
def pushData (g : MGraph) : List Str → List Nat → Res (List Str)
  | order, [] => .ok order
  | order, c :: cs =>
    match g[c]? with
    | none => .panic
    | some nd => pushData g (order ++ [nd.data]) cs

/-- the loop `for child_node in ..` (`koweb/src/parse_make.rs` L83-88) -/
def depLoop (g : MGraph) (n : Nat) : List Str → List Nat → Res (List Str)
  | order, [] => .ok order
  | order, c :: cs =>
    match allChildren g n c with
    | .ok (some deps) =>
      match pushData g order (deps ++ [c]) with
      | .ok order => depLoop g n order cs
      | .err e => .err e
      | .panic => .panic
      | .timeout => .timeout
    | .ok none => .panic
    | .err e => .err e
    | .panic => .panic
    | .timeout => .timeout

/-- `get_full_dependency_path_inorder` (`koweb/src/parse_make.rs` L75-100). -/
def fullPath (g : MGraph) (n : Nat) (val : Str) : Res (Option (List Str)) :=
  match g.indexOf val with
  | none => .ok none
  | some _ =>
    match g.find? fun nd => nd.data = val with
    | none => .ok none
    | some nd =>
      match depLoop g n [] nd.children with
      | .ok order => .ok (some (removeDup (order ++ [nd.data])))
      | .err e => .err e
      | .panic => .panic
      | .timeout => .timeout

/-- `add_node` (`koweb/src/parse_make.rs` L111-124), without the index that it returns. -/
def MGraph.addNode (g : MGraph) (data : Str) : Option Nat → Res MGraph
  | some p =>
    match g[p]? with
    | none => .panic
    | some nd => .ok (g.set p { nd with children := nd.children ++ [g.length] } ++ [⟨g.length, data, []⟩])
  | none => .ok (g ++ [⟨g.length, data, []⟩])

/-- `split(' ')` -/
def splitSpaces : Str → Str → List Str
  | acc, [] => [acc]
  | acc, ' ' :: s => acc :: splitSpaces [] s
  | acc, c :: s => splitSpaces (acc ++ [c]) s

/-- The removal of `o` from a file name (`koweb/src/parse_make.rs` L150-152). -/
def dropO (file : Str) : Str := if str ".dko" <:+ file then file.dropLast else file

/-- `files` (`koweb/src/parse_make.rs` L129-154): the words of every non-empty line but the first, without colons. -/
def makeFiles (text : Str) : List (List Str) :=
  ((splitLines [] text).filter fun l => !l.isEmpty).map fun l =>
    (((splitSpaces [] l).tail).filter fun x => !x.isEmpty && x != [':']).map dropO

/-- The rest of a line (`koweb/src/parse_make.rs` L164-173); `first` is `line[0]`. -/
def addChildren (first : Str) : MGraph → List Str → Res MGraph
  | g, [] => .ok g
  | g, x :: xs =>
    match g.indexOf x with
    | none =>
      match g.addNode x (g.indexOf first) with
      | .ok g => addChildren first g xs
      | .err e => .err e
      | .panic => .panic
      | .timeout => .timeout
    | some c =>
      match g.indexOf first with
      | none => .panic
      | some p =>
        match g[p]? with
        | none => .panic
        | some nd => addChildren first (g.set p { nd with children := nd.children ++ [c] }) xs

/-- A line (`koweb/src/parse_make.rs` L158-175). -/
def addLine (g : MGraph) : List Str → Res MGraph
  | [] => .ok g
  | first :: rest =>
    match g.indexOf first with
    | none =>
      match g.addNode first none with
      | .ok g => addChildren first g rest
      | .err e => .err e
      | .panic => .panic
      | .timeout => .timeout
    | some _ => addChildren first g rest

/-- The loop over the lines (`koweb/src/parse_make.rs` L157-176). -/
def addLines : MGraph → List (List Str) → Res MGraph
  | g, [] => .ok g
  | g, l :: ls =>
    match addLine g l with
    | .ok g => addLines g ls
    | .err e => .err e
    | .panic => .panic
    | .timeout => .timeout

/-- `create_graph` (`koweb/src/parse_make.rs` L127-179). -/
def createGraph (text : Str) : Res MGraph := addLines [] (makeFiles text)

/-- the calls of `get_full_dependency_path_inorder` in `get_graph_rust` (`koweb/src/parse_make.rs` L199-205) -/
def allPaths (g : MGraph) (n : Nat) : List Str → Res (List (Str × List Str))
  | [] => .ok []
  | x :: xs =>
    match fullPath g n x with
    | .ok (some deps) =>
      match allPaths g n xs with
      | .ok r => .ok ((x, deps) :: r)
      | .err e => .err e
      | .panic => .panic
      | .timeout => .timeout
    | .ok none => .panic
    | .err e => .err e
    | .panic => .panic
    | .timeout => .timeout

/-- `get_graph_rust` (`koweb/src/parse_make.rs` L188-212): every file with its files in order. -/
def getGraph (n : Nat) (text : Str) : Res (List (Str × List Str)) :=
  match createGraph text with
  | .ok g => allPaths g n (removeDup (g.map MNode.data))
  | .err e => .err e
  | .panic => .panic
  | .timeout => .timeout

end Kontroli
