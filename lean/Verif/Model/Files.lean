import Verif.Model.Process
import Verif.Model.Parse
import Verif.Model.Text

/-!
# Files and module paths (`kocheck/src/path_read.rs`, `process.rs`)

Paths are Unix paths that are valid UTF-8; `components`, `parent`, `fileName` and `fileStem` model the functions of `std::path`.  The file
system is a partial function from paths to contents, which are valid UTF-8 and do not change during a run.
-/

namespace Kontroli

/-- `std::path::Component` -/
inductive PComp where
  | rootDir
  | curDir
  | parentDir
  | normal (s : Str)
  deriving Repr, DecidableEq

/-- the pieces of a path between slashes; the first argument is the piece read so far -/
def splitSlashes : Str → Str → List Str
  | acc, [] => [acc]
  | acc, '/' :: s => acc :: splitSlashes [] s
  | acc, c :: s => splitSlashes (acc ++ [c]) s

/-- `Components::parse_single_component`: empty pieces and `.` are left out -/
def pieceComp (s : Str) : Option PComp :=
  if s = [] then none else if s = ['.'] then none else if s = ['.', '.'] then some .parentDir else some (.normal s)

/-- `Path::components`: a slash at the beginning is the root, `.` counts only as first piece. -/
def components (path : Str) : List PComp :=
  (if path.head? = some '/' then [.rootDir] else if (splitSlashes [] path).head? = some ['.'] then [.curDir] else []) ++
    (splitSlashes [] path).filterMap pieceComp

/-- `Path::parent` and its components; the parent of a path that is empty or a root is `None`, for which `module_path` uses the empty
list. -/
def parentComponents (path : Str) : List PComp :=
  match (components path).getLast? with
  | some .rootDir => []
  | _ => (components path).dropLast

/-- `Path::file_name`: the last component, if it is an ordinary one. -/
def fileName (path : Str) : Option Str :=
  match (components path).getLast? with
  | some (.normal s) => some s
  | _ => none

/-- `std::path::rsplit_file_at_dot` and the choice of `Path::file_stem`: what precedes the last dot, unless there is none or it is the
first character. -/
def stemOf (name : Str) : Str :=
  if name = ['.', '.'] then name
  else if '.' ∈ name then
    (match (name.reverse.dropWhile (· ≠ '.')).tail.reverse with
      | [] => name
      | before => before)
  else name

/-- `Path::file_stem` -/
def fileStem (path : Str) : Option Str := (fileName path).map stemOf

/-- `Component::Normal(name) => Some(name), _ => None` (`kocheck/src/path_read.rs` L44-47) -/
def PComp.name? : PComp → Option Str
  | .normal s => some s
  | _ => none

/-- `collect` into an `Option` (`kocheck/src/path_read.rs` L42-48) -/
def namesOf : List PComp → Option (List Str)
  | [] => some []
  | c :: cs => match c.name?, namesOf cs with
    | some s, some ss => some (s :: ss)
    | _, _ => none

/-- `module_path` (`kocheck/src/path_read.rs` L37-55); names are valid UTF-8. -/
def modulePath (path : Str) : Option (List Str) :=
  match namesOf (parentComponents path) with
  | none => none
  | some mpath => match fileStem path with
    | none => none
    | some stem => some (mpath ++ [stem])

/-- `is_dash` (`kocheck/src/path_read.rs` L13-19). -/
def isDash (path : Str) : Bool := components path == [.normal ['-']]

/-- Where the contents of files come from; `none` is an I/O error. -/
abbrev FileSystem := Str → Option Str

/-- `parse` (`kocheck/src/process.rs` L44-50): the stream of a text.  After a failure, which ends the processing, the stream may be infinite;
so many items are kept that the first failure is among them (see `parseText_ok`). -/
def parseText (text : Str) : List (Out Scoped) :=
  ((LazyP.new (splitLines [] text)).items scopeAtom (text.length + 3)).map fun i => match i with
    | .ok c => .ok c
    | .err _ => .err .parse
    | .panic => .panic

/-- `PathRead::try_from` (`kocheck/src/path_read.rs` L22-34) for a list of files, and their parsing.  The standard input is read to its
end by the first dash. -/
def openFiles (fs : FileSystem) : Str → List Str → List (Out ParsedFile)
  | _, [] => []
  | stdin, p :: ps =>
    match modulePath p with
    | none => .err .module :: openFiles fs stdin ps
    | some path =>
      if isDash p then .ok ⟨path, parseText stdin⟩ :: openFiles fs [] ps
      else match fs p with
        | none => .err .io :: openFiles fs stdin ps
        | some text => .ok ⟨path, parseText text⟩ :: openFiles fs stdin ps

/-- `kocheck` without a channel on files (`kocheck/src/main.rs` L46, `process.rs` L56-74). -/
def RunPaths (k : Kern) (opt : Opt) (fs : FileSystem) (stdin : Str) (paths : List Str) (gc : GCtx) (res : Out Unit) : Prop :=
  Run k opt (openFiles fs stdin paths) gc res

/-- `kocheck` with a channel on files (`kocheck/src/main.rs` L27-45). -/
def PipePaths (k : Kern) (opt : Opt) (fs : FileSystem) (stdin : Str) (paths : List Str) (res : Out Unit) : Prop :=
  Piped k opt (openFiles fs stdin paths) res

end Kontroli
