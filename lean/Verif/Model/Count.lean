import Verif.Model.Files

/-!
# Counting of symbols (`dedukti-parse/examples/symcount.rs`)

The lines of a file are parsed one by one, and the atoms are scoped (`Atom<Symb<String>>`).  The hash map is a partial function; the
program prints its entries in some order.
-/

namespace Kontroli

mutual
  /-- `atoms` (`dedukti-parse/examples/symcount.rs` L7-15) -/
  def PTerm.atoms {A : Type} : PTerm A → List A
    | .app h args => PHead.atoms h ++ PTerm.atomsList args
  /-- the atoms of a head (`dedukti-parse/examples/symcount.rs` L9-13) -/
  def PHead.atoms {A : Type} : PHead A → List A
    | .atom a => [a]
    | .abst _ ty tm => PTerm.atomsOpt ty ++ PTerm.atoms tm
    | .prod _ ty tm => PTerm.atoms ty ++ PTerm.atoms tm
  /-- `t.args.iter().flat_map(|a| atoms(a))` (`dedukti-parse/examples/symcount.rs` L14) -/
  def PTerm.atomsList {A : Type} : List (PTerm A) → List A
    | [] => []
    | t :: ts => PTerm.atoms t ++ PTerm.atomsList ts
  /-- `ty.iter().flat_map(|ty| atoms(ty))` (`dedukti-parse/examples/symcount.rs` L11) -/
  def PTerm.atomsOpt {A : Type} : Option (PTerm A) → List A
    | none => []
    | some t => PTerm.atoms t
end

/-- `HashMap<Symb<String>, usize>` -/
abbrev Counts := PSymb → Option Nat

/-- `map.insert(c, n)` -/
def Counts.set (m : Counts) (c : PSymb) (n : Nat) : Counts := fun d => if d = c then some n else m d

/-- `insert` (`dedukti-parse/examples/symcount.rs` L17-21): `or_default` is 0. -/
def Counts.add (m : Counts) : Atom → Counts
  | .const c => m.set c ((m c).getD 0 + 1)
  | .var _ => m
  | .type => m

/-- the closure `f` (`dedukti-parse/examples/symcount.rs` L28) -/
def Counts.term (m : Counts) (t : PTerm Atom) : Counts := t.atoms.foldl Counts.add m

/-- the types that `map_type` visits (`dedukti-parse/src/cmd.rs` L57-63) -/
def Intro.types {Tm : Type} : Intro Tm → List Tm
  | .definition ty _ => ty.toList
  | .theorem_ ty _ => [ty]
  | .declaration _ ty => [ty]

/-- the terms that `map_term` visits (`dedukti-parse/src/cmd.rs` L66-72) -/
def Intro.terms {Tm : Type} : Intro Tm → List Tm
  | .definition _ tm => tm.toList
  | .theorem_ _ tm => [tm]
  | .declaration _ _ => []

/-- one command (`dedukti-parse/examples/symcount.rs` L39-50): an introduction sets the count of its name to 0; rules are not visited. -/
def Counts.cmd (m : Counts) : Scoped → Counts
  | .intro name args it =>
    let m := m.set (.new name) 0
    let m := (args.map Prod.snd).foldl Counts.term m
    let m := it.types.foldl Counts.term m
    it.terms.foldl Counts.term m
  | .rules _ => m

/-- the loop (`dedukti-parse/examples/symcount.rs` L35-51); `unwrap` panics on the first failure of the parser, which is `none` here -/
def Counts.loop (m : Counts) : List (Out Scoped) → Option Counts
  | [] => some m
  | .ok c :: cs => Counts.loop (m.cmd c) cs
  | _ :: _ => none

/-- `main` of `symcount` (`dedukti-parse/examples/symcount.rs` L23-57) on the text of a file: the final map. -/
def symcount (text : Str) : Option Counts := Counts.loop (fun _ => none) (parseText text)

end Kontroli
