import Verif.Model.Channel
import Verif.Model.Files

/-!
# The program `kocheck` (`kocheck/src/main.rs`)

Reading of options (crate `clap`), logging and the number of threads are left out: the model of the thread pool has no bound on threads.
-/

namespace Kontroli

/-- `main` (`kocheck/src/main.rs` L11-48); `channel` is the option `channel_capacity` (`kocheck/src/opt.rs` L31): without it there is no
channel, `some none` is a channel without bound. -/
def Main (k : Kern) (opt : Opt) (channel : Option (Option Nat)) (fs : FileSystem) (stdin : Str) (paths : List Str) (res : Out Unit) :
    Prop :=
  match channel with
  | none => ∃ gc, RunPaths k opt fs stdin paths gc res
  | some capacity => Channel k opt capacity (openFiles fs stdin paths) res

/-- The exit status of a program whose `main` returns a `Result` (trait `std::process::Termination`), or panics; there is none if it
does not end. -/
def exitStatus : Out Unit → Option Nat
  | .ok _ => some 0
  | .err _ => some 1
  | .panic => some 101
  | .timeout => none

end Kontroli
