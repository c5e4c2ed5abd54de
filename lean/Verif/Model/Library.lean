import Verif.Model.Web

/-!
# The loop of users of the library (`kontroli/src/lib.rs`, `kontroli/benches/bench.rs`)

The documentation of the library shows a loop that checks commands; the benchmarks use the same loop.  It does not check rewrite rules.  The global context is
lost when an error is returned.
-/

namespace Kontroli

/-- The `match` on a shared command (`kontroli/src/lib.rs` L59-76, `kontroli/benches/bench.rs` L15-32). -/
def libCmd (k : Kern) (gc : GCtx) : Cmd → Out GCtx
  | .intro sym it =>
    (k.intro gc it).out.bind fun r =>
      (match r.2 with
        | some c => (k.check gc c).out
        | none => .ok ()).bind fun _ =>
        (gctxOut (gc.insert sym r.1 it.rewritable).2).bind fun _ => .ok (gc.insert sym r.1 it.rewritable).1
  | .rules rs => (gctxOut (addRules gc rs).2).bind fun _ => .ok (addRules gc rs).1

/-- The loop of the documentation (`kontroli/src/lib.rs` L56-77).  Sharing and the insertion of the name (L58, L62-64) are `shareCmd`.  `cmd.unwrap()` (L58)
panics upon a parse error. -/
def libLoop (k : Kern) : ShState → GCtx → List (POut ParseError Scoped) → Out GCtx
  | _, gc, [] => .ok gc
  | st, gc, .ok c :: cs => (shareCmd st c).2.bind fun cmd => (libCmd k gc cmd).bind fun gc => libLoop k (shareCmd st c).1 gc cs
  | _, _, .err _ :: _ => .panic
  | _, _, .panic :: _ => .panic

/-- The example of the documentation (`kontroli/src/lib.rs` L52-78) on a text. -/
def libCheck (k : Kern) (text : Str) : Out GCtx := libLoop k ShState.new GCtx.new (strict scopeAtom text)

/-- `parse` (`kontroli/benches/bench.rs` L38-42); `none` is the panic. -/
def benchParse (text : Str) : Option (List Scoped) :=
  (strict scopeAtom text).foldr (fun c cs => match c with
    | .ok c => cs.map (c :: ·)
    | _ => none) (some [])

/-- `check` (`kontroli/benches/bench.rs` L7-36). -/
def benchCheck (k : Kern) (cmds : List Scoped) : Out GCtx := libLoop k ShState.new GCtx.new (cmds.map .ok)

end Kontroli
