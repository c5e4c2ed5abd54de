import Verif.Model.Files

/-!
# The web checker (`koweb/src/lib.rs`)

The output of the events to the page, the conversion of JavaScript values and the panic hook are left out: what remains is the verdict.  It is
shown on the page if it is an error.  `fetch` is a parameter: the text of an address, or `none`, upon which the code panics.
-/

namespace Kontroli

/-- `produce` (`koweb/src/lib.rs` L25-31): the events of a module. -/
def webEvents (name text : Str) : List (Out Event) :=
  .ok (.module [name]) :: (strict scopeAtom text).map fun i => match i with
    | .ok c => .ok (.command c)
    | .err _ => .err .parse
    | .panic => .panic

/-- `get_omit` (`koweb/src/lib.rs` L41-49); `none` is the panic. -/
def getOmit : Nat → Option (Option Stage)
  | 0 => some (some .share)
  | 1 => some (some .infer)
  | 2 => some (some .check)
  | 3 => some none
  | _ => none

/-- `check_single` (`koweb/src/lib.rs` L51-65) with `consume` (L33-39). -/
def CheckSingle (k : Kern) (text : Str) (eta : Bool) (level : Nat) (gc : GCtx) (res : Out Unit) : Prop :=
  match getOmit level with
  | none => gc = GCtx.start eta ∧ res = .panic
  | some om => Consume k ⟨eta, om, false⟩ (webEvents (str "main") text) gc res

/-- `Program` (`koweb/src/lib.rs` L67-73); `raw_url` is not used. -/
structure WebProgram where
  name : Str
  dependency : List Str
  urls : List Str
  deriving Repr, DecidableEq

/-- `str::len`: the number of bytes in UTF-8 -/
def utf8Len : Str → Nat
  | [] => 0
  | c :: s => c.utf8Size + utf8Len s

/-- `&s[0..n]` of a string in UTF-8; `none` is the panic when `n` is not the end of a character. -/
def sliceTo : Str → Nat → Option Str
  | [], n => if n = 0 then some [] else none
  | c :: s, n => if n = 0 then some [] else if c.utf8Size ≤ n then (sliceTo s (n - c.utf8Size)).map (c :: ·) else none

/-- `filename[0..filename.len() - 3]` (`koweb/src/lib.rs` L100) -/
def dropDk (filename : Str) : Option Str := if utf8Len filename < 3 then none else sliceTo filename (utf8Len filename - 3)

/-- The loop over the dependencies (`koweb/src/lib.rs` L96-107): names and texts of modules; `none` is a panic. -/
def webModules (fetch : Str → Option Str) : List (Str × Str) → Option (List (Str × Str))
  | [] => some []
  | (filename, url) :: l =>
    match dropDk filename with
    | none => none
    | some name =>
      match fetch url with
      | none => none
      | some text => (webModules fetch l).map ((name, text) :: ·)

/-- `check_multiple` (`koweb/src/lib.rs` L75-113); nothing happens if there is no such module. -/
def CheckMultiple (k : Kern) (fetch : Str → Option Str) (programs : List WebProgram) (main : Str) (eta : Bool) (level : Nat) (gc : GCtx)
    (res : Option (Out Unit)) : Prop :=
  match getOmit level with
  | none => gc = GCtx.start eta ∧ res = some .panic
  | some om =>
    match programs.find? fun p => p.name = main with
    | none => gc = GCtx.start eta ∧ res = none
    | some p =>
      match webModules fetch (p.dependency.zip p.urls) with
      | none => gc = GCtx.start eta ∧ res = some .panic
      | some ms => ∃ r, res = some r ∧ Consume k ⟨eta, om, false⟩ (ms.flatMap fun m => webEvents m.1 m.2) gc r

end Kontroli
