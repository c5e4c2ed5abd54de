import Verif.Spec.Arith

/-! # The benchmark on Fibonacci numbers -/

namespace Kontroli

/-- `/repo/examples/bench/fib24.dk` -/
def fib24Text : Str := lines [
  "def eq :",
  "  Dep (fib (mul 3 8)) :=",
  "  dep (fib (mul 8 3))."]

/-- `def s : Dep e := dep e'.` -/
def natDef (e e' : NExp) : Intro LTerm := .definition (some (.appl (.const 17) [e.term])) (some (.appl (.const 18) [e'.term]))

/-- `fib (mul 3 8)` -/
def fib24 : NExp := .fib (.mul (.digit 2) (.digit 7))

/-- `fib (mul 8 3)` -/
def fib24' : NExp := .fib (.mul (.digit 7) (.digit 2))

end Kontroli
