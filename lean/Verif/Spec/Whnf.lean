import Verif.Spec.Red

/-!
# Weak-head normal forms and terms that are visibly different

`Whnf t`: nothing can be done at the head of `t`.  For a constant applied to arguments this means that every rule of the
constant is refused, for a reason that can be read off the arguments:
too few of them, or at the place of a constant in the pattern there stands a weak-head normal form with another head,
or two arguments that should be convertible are not (`Apart`).

`Apart t u`: `t` and `u` reduce to weak-head normal forms that differ, at the head or in some component.
-/

namespace Kontroli

/-- Terms that may be the head of a weak-head normal form with arguments. -/
inductive Tm.Atom : Tm → Prop
  | kind : Tm.Atom .kind
  | type : Tm.Atom .type
  | const (s : Sym) : Tm.Atom (.const s)
  | var (n : Nat) : Tm.Atom (.var n)
  | pi (A B : Tm) : Tm.Atom (.pi A B)

/-- Abstractions, with and without annotation. `t.IsAbs b`: `t` is an abstraction with body `b`. -/
inductive Tm.IsAbs : Tm → Tm → Prop
  | lam (A b : Tm) : Tm.IsAbs (.lam A b) b
  | dlam (b : Tm) : Tm.IsAbs (.dlam b) b

/-- Heads that look the same (the components of products are not compared). -/
inductive Tm.SameHead : Tm → Tm → Prop
  | kind : Tm.SameHead .kind .kind
  | type : Tm.SameHead .type .type
  | const (s : Sym) : Tm.SameHead (.const s) (.const s)
  | var (n : Nat) : Tm.SameHead (.var n) (.var n)
  | pi (A B A' B' : Tm) : Tm.SameHead (.pi A B) (.pi A' B')

mutual
  /-- Weak-head normal forms. -/
  inductive Whnf (R : RuleMap) (eta : Bool) : Tm → Prop
    | kind (ts : List Tm) : Whnf R eta (Tm.apps .kind ts)
    | type (ts : List Tm) : Whnf R eta (Tm.apps .type ts)
    | var (n : Nat) (ts : List Tm) : Whnf R eta (Tm.apps (.var n) ts)
    | pi (A B : Tm) (ts : List Tm) : Whnf R eta (Tm.apps (.pi A B) ts)
    | abs {t b : Tm} : t.IsAbs b → Whnf R eta t
    | const {s : Sym} {ts : List Tm} :
        (∀ rs r, R s = some rs → r ∈ rs → Refused R eta r ts) → Whnf R eta (Tm.apps (.const s) ts)
  /-- The rule cannot be used on these arguments. -/
  inductive Refused (R : RuleMap) (eta : Bool) : Rule → List Tm → Prop
    /-- there are fewer arguments than patterns -/
    | short {r : Rule} {ts : List Tm} : ts.length < r.lhs.args.length → Refused R eta r ts
    /-- the rule is not well-scoped -/
    | unscoped {r : Rule} {ts : List Tm} : ¬ r.Scoped → Refused R eta r ts
    /-- a constant of the pattern is not met -/
    | clash {r : Rule} {ts : List Tm} : Clashes R eta r.lhs.args ts → Refused R eta r ts
    /-- all constants of the pattern are met, but two occurrences of the same variable (at different
    positions) stand for different terms -/
    | apart {r : Rule} {ts : List Tm} {bs : List (Nat × Tm)} {m : Nat} {t u t' u' : Tm} :
        WBinds R eta r.lhs.args (ts.take r.lhs.args.length) bs → [(m, t), (m, u)].Sublist bs →
        Conv R eta t t' → Conv R eta u u' → Apart R eta t' u' → Refused R eta r ts
  /-- The term has the shape of the pattern, and is evaluated wherever the pattern has a constant. -/
  inductive WBind (R : RuleMap) (eta : Bool) : Pattern → Tm → List (Nat × Tm) → Prop
    | mvar (m : Nat) (t : Tm) : WBind R eta (.mvar m) t [(m, t)]
    | joker (t : Tm) : WBind R eta .joker t []
    | symb {s : Sym} {ps : List Pattern} {ts : List Tm} {bs : List (Nat × Tm)} :
        Whnf R eta (Tm.apps (.const s) ts) → WBinds R eta ps ts bs →
        WBind R eta (.symb s ps) (Tm.apps (.const s) ts) bs
  /-- Pointwise `WBind`. -/
  inductive WBinds (R : RuleMap) (eta : Bool) : List Pattern → List Tm → List (Nat × Tm) → Prop
    | nil : WBinds R eta [] [] []
    | cons {p : Pattern} {t : Tm} {ps : List Pattern} {ts : List Tm} {bs bs' : List (Nat × Tm)} :
        WBind R eta p t bs → WBinds R eta ps ts bs' → WBinds R eta (p :: ps) (t :: ts) (bs ++ bs')
  /-- The pattern has a constant where the term has something else that is in weak-head normal form. -/
  inductive Clash (R : RuleMap) (eta : Bool) : Pattern → Tm → Prop
    | head {s : Sym} {ps : List Pattern} {t : Tm} : Whnf R eta t →
        (∀ us, t = Tm.apps (.const s) us → us.length ≠ ps.length) → Clash R eta (.symb s ps) t
    | arg {s : Sym} {ps : List Pattern} {us : List Tm} : Whnf R eta (Tm.apps (.const s) us) →
        us.length = ps.length → Clashes R eta ps us → Clash R eta (.symb s ps) (Tm.apps (.const s) us)
  /-- Some pattern clashes with the term at the same position. -/
  inductive Clashes (R : RuleMap) (eta : Bool) : List Pattern → List Tm → Prop
    | here {p : Pattern} {t : Tm} {ps : List Pattern} {ts : List Tm} :
        Clash R eta p t → Clashes R eta (p :: ps) (t :: ts)
    | there {p : Pattern} {t : Tm} {ps : List Pattern} {ts : List Tm} :
        Clashes R eta ps ts → Clashes R eta (p :: ps) (t :: ts)
  /-- The terms evaluate to weak-head normal forms that differ. -/
  inductive Apart (R : RuleMap) (eta : Bool) : Tm → Tm → Prop
    | mk {t t' u u' : Tm} : Red R eta t t' → Red R eta u u' → Whnf R eta t' → Whnf R eta u' →
        Differ R eta t' u' → Apart R eta t u
  /-- Weak-head normal forms that differ, at the head or in a component. -/
  inductive Differ (R : RuleMap) (eta : Bool) : Tm → Tm → Prop
    /-- different numbers of arguments -/
    | length {h h' : Tm} {ts ts' : List Tm} : h.Atom → h'.Atom → ts.length ≠ ts'.length →
        Differ R eta (h.apps ts) (h'.apps ts')
    /-- different heads -/
    | atom {h h' : Tm} : h.Atom → h'.Atom → ¬ h.SameHead h' → Differ R eta h h'
    /-- heads that are apart -/
    | head {h h' : Tm} {ts ts' : List Tm} : h.Atom → h'.Atom → ts.length = ts'.length → Apart R eta h h' →
        Differ R eta (h.apps ts) (h'.apps ts')
    /-- arguments at the same position that are apart -/
    | arg {h h' a a' : Tm} {ts ts' : List Tm} : h.Atom → h'.Atom → ts.length = ts'.length →
        (a, a') ∈ ts.zip ts' → Apart R eta a a' → Differ R eta (h.apps ts) (h'.apps ts')
    /-- domains of products that are apart -/
    | dom {A B A' B' : Tm} : Apart R eta A A' → Differ R eta (.pi A B) (.pi A' B')
    /-- codomains of products that are apart -/
    | cod {A B A' B' : Tm} : Apart R eta B B' → Differ R eta (.pi A B) (.pi A' B')
    /-- bodies of abstractions that are apart -/
    | body {t u b b' : Tm} : t.IsAbs b → u.IsAbs b' → Apart R eta b b' → Differ R eta t u
    /-- an abstraction and something else, without eta -/
    | absL {t b h : Tm} {ts : List Tm} : eta = false → t.IsAbs b → h.Atom → Differ R eta t (h.apps ts)
    /-- something else and an abstraction, without eta -/
    | absR {t b h : Tm} {ts : List Tm} : eta = false → t.IsAbs b → h.Atom → Differ R eta (h.apps ts) t
    /-- an abstraction and something else, with eta: the body and the other term applied to the variable -/
    | etaL {t b h : Tm} {ts : List Tm} : eta = true → t.IsAbs b → h.Atom →
        Apart R eta b (.app ((h.apps ts).shift 1) (.var 0)) → Differ R eta t (h.apps ts)
    /-- something else and an abstraction, with eta -/
    | etaR {t b h : Tm} {ts : List Tm} : eta = true → t.IsAbs b → h.Atom →
        Apart R eta b (.app ((h.apps ts).shift 1) (.var 0)) → Differ R eta (h.apps ts) t
end

end Kontroli
