import Verif.Proofs.Panic
import Verif.Props.Channel

/-!
# C65: the program does not panic, and what its exit status means
-/

namespace Kontroli

/-- **C65.** With any options, with or without a channel and threads, and for all files, paths and schedules, the program does not panic. -/
theorem C65_no_panic (k : Kern) (hk : k.Exact) (opt : Opt) (channel : Option (Option Nat)) (fs : FileSystem) (stdin : Str)
    (paths : List Str) (res : Out Unit) (h : Main k opt channel fs stdin paths res) : res ≠ .panic := by
  cases channel with
  | none =>
    obtain ⟨gc, h⟩ := h
    exact RunFiles.noPanic hk.safe h (openFiles_safe fs stdin paths)
  | some capacity =>
    exact Piped.noPanic hk.safe (openFiles_safe fs stdin paths) (C53_refines k opt capacity _ (sendable_openFiles fs stdin paths) res h)

/-- **C65.** Hence a run that ends has the exit status 0 or 1: 0 if there is no error, 1 if there is. -/
theorem C65_status (k : Kern) (hk : k.Exact) (opt : Opt) (channel : Option (Option Nat)) (fs : FileSystem) (stdin : Str)
    (paths : List Str) (res : Out Unit) (h : Main k opt channel fs stdin paths res) :
    (exitStatus res = some 0 ∧ res = .ok ()) ∨ (exitStatus res = some 1 ∧ ∃ e, res = .err e) ∨ (exitStatus res = none ∧ res = .timeout) := by
  have h1 := C65_no_panic k hk opt channel fs stdin paths res h
  cases res with
  | ok u => exact .inl ⟨rfl, rfl⟩
  | err e => exact .inr (.inl ⟨rfl, e, rfl⟩)
  | panic => exact absurd rfl h1
  | timeout => exact .inr (.inr ⟨rfl, rfl⟩)

/-- **C65.** A run that ends has the exit status 1 exactly if the paths do not denote texts of a correct and directed program (conditions as in
C49). -/
theorem C65_refused (k : Kern) (hk : k.Exact) (opt : Opt) (ho : opt.omitted = none) (channel : Option (Option Nat))
    (fs : FileSystem) (stdin : Str) (paths : List Str) (hR : ∀ srcs es, Sources fs stdin paths srcs → ProgramOf srcs es → RegularIn opt.eta es)
    (gc' : GCtx) (res' : Out Unit) (h' : RunPaths k { opt with jobs := false } fs stdin paths gc' res') (hd : res' ≠ .timeout)
    (res : Out Unit) (h : Main k opt channel fs stdin paths res) (hd' : res ≠ .timeout) :
    exitStatus res = some 1 ↔ ¬ ∃ srcs es T, Sources fs stdin paths srcs ∧ ProgramOf srcs es ∧ CorrectIn opt.eta es T ∧ Directed es := by
  rw [← C53_main k hk opt ho channel fs stdin paths hR gc' res' h' hd res h]
  rcases C65_status k hk opt channel fs stdin paths res h with ⟨h1, -⟩ | ⟨h1, -⟩ | ⟨-, h2⟩
  · rw [h1]; decide
  · rw [h1]; decide
  · exact absurd h2 hd'

/-! ## Example -/

/-- the wrong program of C49 gives status 1 -/
example : ∃ res, Main (Kern.std 30 fun _ => true) ⟨false, none, false⟩ none (Example.oneFile Example.badText) [] [str "a.dk"] res ∧
    exitStatus res = some 1 := by
  obtain ⟨gc, h⟩ := Example.run (res := _) rfl Example.badCmds rfl
  have hres : (seqLoop (Kern.std 30 fun _ => true) ⟨false, none, false⟩ (GCtx.start false) ((Example.cmds Example.badBody).map .ok)).2.isErr = true := by
    decide +kernel
  generalize (seqLoop (Kern.std 30 fun _ => true) ⟨false, none, false⟩ (GCtx.start false) ((Example.cmds Example.badBody).map .ok)).2 = res at h hres
  refine ⟨res, ⟨gc, h⟩, ?_⟩
  rcases C65_status _ (Kern.std_exact ..) _ none _ _ _ _ ⟨gc, h⟩ with ⟨-, rfl⟩ | ⟨h1, -⟩ | ⟨-, rfl⟩
  · cases hres
  · exact h1
  · cases hres

#print axioms C65_no_panic
#print axioms C65_status
#print axioms C65_refused

end Kontroli
