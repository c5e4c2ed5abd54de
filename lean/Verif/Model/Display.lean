import Verif.Model.Bench

/-!
# How terms of the kernel are printed in the log

`Display` for the terms, patterns and rules of the kernel.  The name of a symbol is the text in its arena cell
(`kontroli/src/symbol.rs` L79-83); `nm` gives it.
-/

namespace Kontroli

/-- `format` (`kontroli/src/app.rs` L24-37): parentheses only if there are arguments. -/
def showApp (head : Str) (tail : List Str) : Str :=
  if tail.isEmpty then head else str "(" ++ head ++ tail.flatMap (fun t => str " " ++ t) ++ str ")"

section
variable (nm : Sym → Str)

mutual
  /-- `Display for LTerm` (`kontroli/src/lterm.rs` L40-49). -/
  def LTerm.show : LTerm → Str
    | .type => str "Type"
    | .var v => str "β" ++ decimal v
    | .const c => nm c
    | .comb c => LComb.show c
  /-- `Display for Comb` (`kontroli/src/comb.rs` L65-74), at `LComb`. -/
  def LComb.show : Comb Str LTerm → Str
    | .appl head tail => showApp (LTerm.show head) (LTerm.showList tail)
    | .prod id ty tm => str "(Π " ++ id ++ str " : " ++ LTerm.show ty ++ str ". " ++ LTerm.show tm ++ str ")"
    | .abst id ty tm => LTerm.showAbst id ty (LTerm.show tm)
  /-- the arguments -/
  def LTerm.showList : List LTerm → List Str
    | [] => []
    | t :: ts => LTerm.show t :: LTerm.showList ts
  /-- the two cases of abstractions (`kontroli/src/comb.rs` L70-71) -/
  def LTerm.showAbst : Str → Option LTerm → Str → Str
    | id, none, tm => str "(λ " ++ id ++ str ". " ++ tm ++ str ")"
    | id, some ty, tm => str "(λ " ++ id ++ str " : " ++ LTerm.show ty ++ str ". " ++ tm ++ str ")"
end

mutual
  /-- `Display for STerm` (`kontroli/src/kernel/sterm.rs` L91-102). -/
  def STerm.show : STerm → Str
    | .kind => str "Kind"
    | .type => str "Type"
    | .var v => str "β" ++ decimal v
    | .const c => nm c
    | .lcomb c => LComb.show nm c
    | .scomb c => SComb.show c
  /-- `Display for Comb` (`kontroli/src/comb.rs` L65-74), at `SComb`. -/
  def SComb.show : Comb Str STerm → Str
    | .appl head tail => showApp (STerm.show head) (STerm.showList tail)
    | .prod id ty tm => str "(Π " ++ id ++ str " : " ++ STerm.show ty ++ str ". " ++ STerm.show tm ++ str ")"
    | .abst id ty tm => STerm.showAbst id ty (STerm.show tm)
  /-- the arguments -/
  def STerm.showList : List STerm → List Str
    | [] => []
    | t :: ts => STerm.show t :: STerm.showList ts
  /-- the two cases of abstractions (`kontroli/src/comb.rs` L70-71) -/
  def STerm.showAbst : Str → Option STerm → Str → Str
    | id, none, tm => str "(λ " ++ id ++ str ". " ++ tm ++ str ")"
    | id, some ty, tm => str "(λ " ++ id ++ str " : " ++ STerm.show ty ++ str ". " ++ tm ++ str ")"
end

mutual
  /-- `Display for Pattern` (`kontroli/src/pattern.rs` L74-82). -/
  def Pattern.show : Pattern → Str
    | .symb s pats => showApp (nm s) (Pattern.showList pats)
    | .mvar m => str "μ" ++ decimal m
    | .joker => str "_"
  /-- the arguments -/
  def Pattern.showList : List Pattern → List Str
    | [] => []
    | p :: ps => Pattern.show p :: Pattern.showList ps
end

/-- `Display for App` (`kontroli/src/app.rs` L18-22), at `TopPattern`. -/
def TopPattern.show (p : TopPattern) : Str := showApp (nm p.symbol) (Pattern.showList nm p.args)

/-- `Display for Rule` (`kontroli/src/rule.rs` L42-46). The context is not printed. -/
def Rule.show (r : Rule) : Str := r.lhs.show nm ++ str " ⟶ " ++ LTerm.show nm r.rhs

end

end Kontroli
