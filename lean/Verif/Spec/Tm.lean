import Verif.Model.Base

/-!
# Plain lambda-Pi terms with de Bruijn indices, and parallel substitution

This is the textbook syntax against which the kernel is specified: binary application, no sharing, no binder names.
-/

namespace Kontroli

/-- Plain terms. `dlam` is the abstraction without annotation. -/
inductive Tm where
  | kind
  | type
  | const (s : Sym)
  | var (n : Nat)
  | app (f a : Tm)
  | lam (A b : Tm)
  | dlam (b : Tm)
  | pi (A B : Tm)
  deriving DecidableEq, Repr

namespace Tm

/-- lift a renaming under a binder -/
def upr (ρ : Nat → Nat) : Nat → Nat
  | 0 => 0
  | n + 1 => ρ n + 1

/-- renaming -/
def ren : Tm → (Nat → Nat) → Tm
  | kind, _ => kind
  | type, _ => type
  | const s, _ => const s
  | var n, ρ => var (ρ n)
  | app f a, ρ => app (f.ren ρ) (a.ren ρ)
  | lam A b, ρ => lam (A.ren ρ) (b.ren (upr ρ))
  | dlam b, ρ => dlam (b.ren (upr ρ))
  | pi A B, ρ => pi (A.ren ρ) (B.ren (upr ρ))

/-- lift a substitution under a binder -/
def up (σ : Nat → Tm) : Nat → Tm
  | 0 => var 0
  | n + 1 => (σ n).ren (· + 1)

/-- capture-avoiding parallel substitution -/
def sub : Tm → (Nat → Tm) → Tm
  | kind, _ => kind
  | type, _ => type
  | const s, _ => const s
  | var n, σ => σ n
  | app f a, σ => app (f.sub σ) (a.sub σ)
  | lam A b, σ => lam (A.sub σ) (b.sub (up σ))
  | dlam b, σ => dlam (b.sub (up σ))
  | pi A B, σ => pi (A.sub σ) (B.sub (up σ))

/-- shift all free variables by `k` -/
def shift (t : Tm) (k : Nat) : Tm := t.ren (· + k)

/-- the substitution of variable 0 by `u`, lowering the others -/
def one (u : Tm) : Nat → Tm
  | 0 => u
  | n + 1 => var n

/-- `t[u/0]` -/
def inst (t u : Tm) : Tm := t.sub (one u)

/-- application to several arguments -/
def apps : Tm → List Tm → Tm
  | f, [] => f
  | f, a :: as => apps (app f a) as

end Tm

mutual
  /-- The plain term denoted by a long term. -/
  def LTerm.den : LTerm → Tm
    | .type => .type
    | .const s => .const s
    | .var n => .var n
    | .comb c => LComb.den c
  /-- The plain term denoted by a long combinator term. -/
  def LComb.den : Comb Str LTerm → Tm
    | .appl f args => Tm.apps (LTerm.den f) (LTerm.denList args)
    | .prod _ ty tm => .pi (LTerm.den ty) (LTerm.den tm)
    | .abst _ ty tm => LTerm.denAbs ty (LTerm.den tm)
  /-- The plain terms denoted by a list of long terms. -/
  def LTerm.denList : List LTerm → List Tm
    | [] => []
    | t :: ts => LTerm.den t :: LTerm.denList ts
  /-- The plain abstraction with an optional annotation. -/
  def LTerm.denAbs : Option LTerm → Tm → Tm
    | none, b => .dlam b
    | some A, b => .lam (LTerm.den A) b
end

mutual
  /-- The plain term denoted by a short term. -/
  def STerm.den : STerm → Tm
    | .kind => .kind
    | .type => .type
    | .const s => .const s
    | .var n => .var n
    | .lcomb c => LComb.den c
    | .scomb c => SComb.den c
  /-- The plain term denoted by a short combinator term. -/
  def SComb.den : Comb Str STerm → Tm
    | .appl f args => Tm.apps (STerm.den f) (STerm.denList args)
    | .prod _ ty tm => .pi (STerm.den ty) (STerm.den tm)
    | .abst _ ty tm => STerm.denAbs ty (STerm.den tm)
  /-- The plain terms denoted by a list of short terms. -/
  def STerm.denList : List STerm → List Tm
    | [] => []
    | t :: ts => STerm.den t :: STerm.denList ts
  /-- The plain abstraction with an optional annotation. -/
  def STerm.denAbs : Option STerm → Tm → Tm
    | none, b => .dlam b
    | some A, b => .lam (STerm.den A) b
end

end Kontroli
