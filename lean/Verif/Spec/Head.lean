import Verif.Spec.Eta
import Verif.Spec.Whnf

/-!
# Head reduction

One step at the head of a term: an abstraction that is applied, or a definition that is unfolded, possibly with further arguments.
Nothing is done in arguments.
-/

namespace Kontroli

/-- One step at the head. -/
inductive HStep (R : RuleMap) : Tm → Tm → Prop
  | beta {f b a : Tm} : f.IsAbs b → HStep R (.app f a) (b.inst a)
  | delta {s : Sym} {d : Tm} : Defines R s d → HStep R (.const s) d
  | app {f f' a : Tm} : HStep R f f' → HStep R (.app f a) (.app f' a)

end Kontroli
