import Verif.Spec.Lex
import Verif.Model.Base
import Verif.Spec.Tm

/-!
# What can be read from a printed term

A printed term shows a tree (`Shape`), in which an application to no arguments cannot be told from its head, nor long terms from
short ones.
-/

namespace Kontroli

/-- Printed terms: the leaves of terms and patterns, applications, products, abstractions without and with type. -/
inductive Shape where
  | kind
  | type
  | const (s : Sym)
  | var (n : Nat)
  | mvar (n : Nat)
  | joker
  | app (head : Shape) (args : List Shape)
  | prod (id : Str) (ty tm : Shape)
  | lam (id : Str) (tm : Shape)
  | alam (id : Str) (ty tm : Shape)

/-- an application, if there are arguments -/
def Shape.appl (head : Shape) : List Shape → Shape
  | [] => head
  | a :: as => .app head (a :: as)

mutual
  /-- the shape of a long term -/
  def LTerm.shape : LTerm → Shape
    | .type => .type
    | .const s => .const s
    | .var n => .var n
    | .comb c => LComb.shape c
  /-- the shape of a combinator -/
  def LComb.shape : Comb Str LTerm → Shape
    | .appl f args => Shape.appl (LTerm.shape f) (LTerm.shapes args)
    | .prod id ty tm => .prod id (LTerm.shape ty) (LTerm.shape tm)
    | .abst id ty tm => LTerm.shapeAbs id ty (LTerm.shape tm)
  /-- the shapes of some terms -/
  def LTerm.shapes : List LTerm → List Shape
    | [] => []
    | t :: ts => LTerm.shape t :: LTerm.shapes ts
  /-- the shape of an abstraction -/
  def LTerm.shapeAbs : Str → Option LTerm → Shape → Shape
    | id, none, tm => .lam id tm
    | id, some ty, tm => .alam id (LTerm.shape ty) tm
end

mutual
  /-- the shape of a short term -/
  def STerm.shape : STerm → Shape
    | .kind => .kind
    | .type => .type
    | .const s => .const s
    | .var n => .var n
    | .lcomb c => LComb.shape c
    | .scomb c => SComb.shape c
  /-- the shape of a combinator -/
  def SComb.shape : Comb Str STerm → Shape
    | .appl f args => Shape.appl (STerm.shape f) (STerm.shapes args)
    | .prod id ty tm => .prod id (STerm.shape ty) (STerm.shape tm)
    | .abst id ty tm => STerm.shapeAbs id ty (STerm.shape tm)
  /-- the shapes of some terms -/
  def STerm.shapes : List STerm → List Shape
    | [] => []
    | t :: ts => STerm.shape t :: STerm.shapes ts
  /-- the shape of an abstraction -/
  def STerm.shapeAbs : Str → Option STerm → Shape → Shape
    | id, none, tm => .lam id tm
    | id, some ty, tm => .alam id (STerm.shape ty) tm
end

mutual
  /-- the shape of a pattern -/
  def Pattern.shape : Pattern → Shape
    | .symb s ps => Shape.appl (.const s) (Pattern.shapes ps)
    | .mvar m => .mvar m
    | .joker => .joker
  /-- the shapes of some patterns -/
  def Pattern.shapes : List Pattern → List Shape
    | [] => []
    | p :: ps => Pattern.shape p :: Pattern.shapes ps
end

/-- Binders as in a text: identifiers, texts between `{|` and `|}`, or empty. -/
def IsBinder (id : Str) : Prop := id = [] ∨ IsComp id

section
variable (K : Sym → Prop)

mutual
  /-- all binders in the term are as in a text, and all symbols are among those considered -/
  def LTerm.Clear : LTerm → Prop
    | .const s => K s
    | .comb c => LComb.Clear c
    | .type => True
    | .var _ => True
  /-- the same for a combinator -/
  def LComb.Clear : Comb Str LTerm → Prop
    | .appl f args => LTerm.Clear f ∧ LTerm.ClearList args
    | .prod id ty tm => IsBinder id ∧ LTerm.Clear ty ∧ LTerm.Clear tm
    | .abst id ty tm => IsBinder id ∧ LTerm.ClearOpt ty ∧ LTerm.Clear tm
  /-- the same for some terms -/
  def LTerm.ClearList : List LTerm → Prop
    | [] => True
    | t :: ts => LTerm.Clear t ∧ LTerm.ClearList ts
  /-- the same for an annotation -/
  def LTerm.ClearOpt : Option LTerm → Prop
    | none => True
    | some t => LTerm.Clear t
end

mutual
  /-- all binders in the term are as in a text, and all symbols are among those considered -/
  def STerm.Clear : STerm → Prop
    | .const s => K s
    | .lcomb c => LComb.Clear K c
    | .scomb c => SComb.Clear c
    | .kind => True
    | .type => True
    | .var _ => True
  /-- the same for a combinator -/
  def SComb.Clear : Comb Str STerm → Prop
    | .appl f args => STerm.Clear f ∧ STerm.ClearList args
    | .prod id ty tm => IsBinder id ∧ STerm.Clear ty ∧ STerm.Clear tm
    | .abst id ty tm => IsBinder id ∧ STerm.ClearOpt ty ∧ STerm.Clear tm
  /-- the same for some terms -/
  def STerm.ClearList : List STerm → Prop
    | [] => True
    | t :: ts => STerm.Clear t ∧ STerm.ClearList ts
  /-- the same for an annotation -/
  def STerm.ClearOpt : Option STerm → Prop
    | none => True
    | some t => STerm.Clear t
end

mutual
  /-- all symbols of the pattern are among those considered -/
  def Pattern.Clear : Pattern → Prop
    | .symb s ps => K s ∧ Pattern.ClearList ps
    | .mvar _ => True
    | .joker => True
  /-- the same for some patterns -/
  def Pattern.ClearList : List Pattern → Prop
    | [] => True
    | p :: ps => Pattern.Clear p ∧ Pattern.ClearList ps
end

/-- The names of the symbols considered are as in a text, they differ, and none of them is one of the words `Kind`, `Type`, `_`. -/
structure GoodNames (nm : Sym → Str) : Prop where
  comp : ∀ s, K s → IsComp (nm s)
  inj : ∀ s s', K s → K s' → nm s = nm s' → s = s'
  free : ∀ s, K s → nm s ∉ [str "Kind", str "Type", str "_"]

end

end Kontroli
