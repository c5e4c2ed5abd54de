import Verif.Model.Syntax
import Verif.Model.Driver

/-!
# The symbol table (`kontroli/src/symbols.rs`)

The crate `nested_modules` is not part of the repository.  A `Context` is a tree of modules, each with data (here a table of
names), together with the path of open modules from the root to the current module.  Here a tree is a partial function from
absolute paths to the data of the module at that path.
-/

namespace Kontroli

/-- the data of a module: `FnvHashMap<String, &'s symbol::Owned>` (`kontroli/src/symbols.rs` L16) -/
abbrev Names := Str → Option Sym

/-- `kontroli/src/symbols.rs` L16 (`Symbols`), `nested_modules::Context`. -/
structure Symbols where
  /-- the modules, by absolute path -/
  mods : List Str → Option Names
  /-- the open modules, outermost first -/
  path : List Str

namespace Symbols

/-- `kontroli/src/symbols.rs` L19-21 (`new`): there is only the root module, without names. -/
def new : Symbols := ⟨fun p => if p = [] then some (fun _ => none) else none, []⟩

/-- the prefixes of a path, the longest first -/
def prefixes : List Str → List (List Str)
  | [] => [[]]
  | x :: xs => (prefixes xs).map (x :: ·) ++ [[]]

/-- `nested_modules::Context::find`: starting from the current module outwards, the module at the relative path `rel` under
each open module, where it exists. -/
def find (s : Symbols) (rel : List Str) : List Names := (prefixes s.path).filterMap fun p => s.mods (p ++ rel)

/-- `kontroli/src/symbols.rs` L23-30 (`get`). -/
def get (s : Symbols) (path : List Str) (name : Str) : Option Sym := ((s.find path).filterMap fun m => m name).head?

/-- the data of the current module (`Context::get_mut`); the current module always exists, see `Symbols.Wf` -/
def cur (s : Symbols) : Names := (s.mods s.path).getD fun _ => none

/-- `kontroli/src/symbols.rs` L32-38 (`insert`).  The table is overwritten also when the error is returned. -/
def insert (s : Symbols) (name : Str) (sym : Sym) : Symbols × Except SymError Sym :=
  ({ s with mods := fun p => if p = s.path then some (fun n => if n = name then some sym else s.cur n) else s.mods p },
    if (s.cur name).isSome then .error .reinsertion else .ok sym)

/-- `nested_modules::Context::open_or_default` -/
def openOrDefault (s : Symbols) (x : Str) : Symbols :=
  ⟨fun p => if p = s.path ++ [x] then some ((s.mods p).getD fun _ => none) else s.mods p, s.path ++ [x]⟩

/-- `while self.0.close() {}` (`kontroli/src/symbols.rs` L41): close all modules. -/
def closeAll (s : Symbols) : Symbols := { s with path := [] }

/-- `kontroli/src/symbols.rs` L40-43 (`set_path`). -/
def setPath (s : Symbols) (path : List Str) : Symbols := path.foldl openOrDefault s.closeAll

end Symbols

end Kontroli
