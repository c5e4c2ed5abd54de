import Verif.Model.Share

/-!
# Specification of name lookup and of sharing
-/

namespace Kontroli

/-- module `m` provides the name: the module exists and has the name, as `sym` -/
def Symbols.Provides (s : Symbols) (m : List Str) (name : Str) (sym : Sym) : Prop :=
  ∃ names, s.mods m = some names ∧ names name = some sym

/-- `path.name`, looked up with `s.path` open, resolves to `sym`: there is an open module `m` such that `m.path` provides the name,
and no open module inside of `m` does so. -/
def Symbols.Resolves (s : Symbols) (path : List Str) (name : Str) (sym : Sym) : Prop :=
  ∃ m, m <+: s.path ∧ s.Provides (m ++ path) name sym ∧
    ∀ m', m' <+: s.path → m.length < m'.length → ∀ sym', ¬ s.Provides (m' ++ path) name sym'

/-- Well-formed symbol tables: all open modules exist. -/
def Symbols.Wf (s : Symbols) : Prop := ∀ m, m <+: s.path → (s.mods m).isSome

end Kontroli
