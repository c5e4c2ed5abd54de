import Verif.Model.Lex

/-!
# The grammar of Dedukti

What sequences of tokens are terms, commands and texts, and what they denote; written without reference to the parser, except for the
types of tokens and of parsed terms and commands.  The grammar is

```
term  ::= app | app "->" term | x ":" app "->" term | x ":" app "=>" term | x "=>" term
app   ::= atom | app atom
atom  ::= symbol | "(" term ")"
args  ::= { "(" x ":" term ")" }
cmd   ::= x args ":" term | "injective" x args ":" term | "def" x args ":" term | "def" x args ":=" term
        | "def" x args ":" term ":=" term | "thm" x args ":" term ":=" term | rule { rule }
rule  ::= "[" vars "]" term "-->" term
vars  ::= [ var ] | var "," vars
var   ::= x | x ":" term
text  ::= { cmd "." | "#" { any token but "." } "." }
```

where `x` is a symbol without path.
-/

namespace Kontroli

/-- an unqualified name as a token -/
def nameTok (x : Str) : Token := .symb ⟨[], x⟩

/-- a symbol as a term -/
def symbTerm (s : PSymb) : PTerm PSymb := .app (.atom s) []

mutual
  /-- Some tokens are a term. -/
  inductive GTerm : List Token → PTerm PSymb → Prop
    | app {ts : List Token} {t : PTerm PSymb} : GApp ts t → GTerm ts t
    | arrow {ts us : List Token} {t u : PTerm PSymb} : GApp ts t → GTerm us u → GTerm (ts ++ .arrow :: us) (.app (.prod none t u) [])
    | prod {x : Str} {ts us : List Token} {t u : PTerm PSymb} : GApp ts t → GTerm us u →
        GTerm (nameTok x :: .colon :: ts ++ .arrow :: us) (.app (.prod (some x) t u) [])
    | abstTy {x : Str} {ts us : List Token} {t u : PTerm PSymb} : GApp ts t → GTerm us u →
        GTerm (nameTok x :: .colon :: ts ++ .fatArrow :: us) (.app (.abst x (some t) u) [])
    | abst {x : Str} {us : List Token} {u : PTerm PSymb} : GTerm us u → GTerm (nameTok x :: .fatArrow :: us) (.app (.abst x none u) [])
  /-- Some tokens are an application; an application of an application is an application to more arguments. -/
  inductive GApp : List Token → PTerm PSymb → Prop
    | symb {s : PSymb} : GApp [.symb s] (symbTerm s)
    | par {ts : List Token} {t : PTerm PSymb} : GTerm ts t → GApp (.lpar :: ts ++ [.rpar]) t
    | symbArg {s : PSymb} {ts : List Token} {h : PHead PSymb} {as : List (PTerm PSymb)} : GApp ts (.app h as) →
        GApp (ts ++ [.symb s]) (.app h (as ++ [symbTerm s]))
    | parArg {ts us : List Token} {h : PHead PSymb} {as : List (PTerm PSymb)} {u : PTerm PSymb} : GApp ts (.app h as) → GTerm us u →
        GApp (ts ++ .lpar :: us ++ [.rpar]) (.app h (as ++ [u]))
end

/-- the arguments of a command -/
inductive GArgs : List Token → List (Str × PTerm PSymb) → Prop
  | nil : GArgs [] []
  | cons {x : Str} {ts us : List Token} {t : PTerm PSymb} {as : List (Str × PTerm PSymb)} : GTerm ts t → GArgs us as →
      GArgs (.lpar :: nameTok x :: .colon :: ts ++ .rpar :: us) ((x, t) :: as)

/-- a variable of a rule -/
inductive GVar : List Token → Str × Option (PTerm PSymb) → Prop
  | name {x : Str} : GVar [nameTok x] (x, none)
  | typed {x : Str} {ts : List Token} {t : PTerm PSymb} : GTerm ts t → GVar (nameTok x :: .colon :: ts) (x, some t)

/-- the variables of a rule; there may be a comma after the last one -/
inductive GVars : List Token → List (Str × Option (PTerm PSymb)) → Prop
  | nil : GVars [] []
  | one {v : Str × Option (PTerm PSymb)} {ts : List Token} : GVar ts v → GVars ts [v]
  | cons {v : Str × Option (PTerm PSymb)} {vs : List (Str × Option (PTerm PSymb))} {ts us : List Token} : GVar ts v → GVars us vs →
      GVars (ts ++ .comma :: us) (v :: vs)

/-- a sequence of rules -/
inductive GRules : List Token → List (PRule (PTerm PSymb)) → Prop
  | nil : GRules [] []
  | cons {vs : List (Str × Option (PTerm PSymb))} {l r : PTerm PSymb} {rs : List (PRule (PTerm PSymb))} {as bs cs ts : List Token} :
      GVars as vs → GTerm bs l → GTerm cs r → GRules ts rs →
      GRules (.lbrk :: as ++ .rbrk :: bs ++ .longArrow :: cs ++ ts) (⟨vs, l, r⟩ :: rs)

/-- a command, without the `.` at its end -/
inductive GCmd : List Token → PCmd (PTerm PSymb) → Prop
  | decl {x : Str} {as : List (Str × PTerm PSymb)} {ts us : List Token} {t : PTerm PSymb} : GArgs ts as → GTerm us t →
      GCmd (nameTok x :: ts ++ .colon :: us) (.intro x as (.declaration false t))
  | inj {x : Str} {as : List (Str × PTerm PSymb)} {ts us : List Token} {t : PTerm PSymb} : GArgs ts as → GTerm us t →
      GCmd (.inj :: nameTok x :: ts ++ .colon :: us) (.intro x as (.declaration true t))
  | defTy {x : Str} {as : List (Str × PTerm PSymb)} {ts us : List Token} {t : PTerm PSymb} : GArgs ts as → GTerm us t →
      GCmd (.def_ :: nameTok x :: ts ++ .colon :: us) (.intro x as (.definition (some t) none))
  | defTm {x : Str} {as : List (Str × PTerm PSymb)} {ts us : List Token} {t : PTerm PSymb} : GArgs ts as → GTerm us t →
      GCmd (.def_ :: nameTok x :: ts ++ .colonEq :: us) (.intro x as (.definition none (some t)))
  | defBoth {x : Str} {as : List (Str × PTerm PSymb)} {ts us vs : List Token} {ty tm : PTerm PSymb} : GArgs ts as → GTerm us ty →
      GTerm vs tm → GCmd (.def_ :: nameTok x :: ts ++ .colon :: us ++ .colonEq :: vs) (.intro x as (.definition (some ty) (some tm)))
  | thm {x : Str} {as : List (Str × PTerm PSymb)} {ts us vs : List Token} {ty tm : PTerm PSymb} : GArgs ts as → GTerm us ty →
      GTerm vs tm → GCmd (.thm :: nameTok x :: ts ++ .colon :: us ++ .colonEq :: vs) (.intro x as (.theorem_ ty tm))
  | rules {rs : List (PRule (PTerm PSymb))} {ts : List Token} : rs ≠ [] → GRules ts rs → GCmd ts (.rules rs)

/-- a sequence of commands and pragmas; the latter have no meaning -/
inductive GText : List Token → List (PCmd (PTerm PSymb)) → Prop
  | nil : GText [] []
  | cmd {c : PCmd (PTerm PSymb)} {cs : List (PCmd (PTerm PSymb))} {ts us : List Token} : GCmd ts c → GText us cs →
      GText (ts ++ .dot :: us) (c :: cs)
  | pragma {cs : List (PCmd (PTerm PSymb))} {ps us : List Token} : .dot ∉ ps → GText us cs → GText (.hash :: ps ++ .dot :: us) cs

/-- the same without a pragma at the end -/
inductive GStrict : List Token → List (PCmd (PTerm PSymb)) → Prop
  | nil : GStrict [] []
  | cmd {c : PCmd (PTerm PSymb)} {cs : List (PCmd (PTerm PSymb))} {ts us : List Token} : GCmd ts c → GStrict us cs →
      GStrict (ts ++ .dot :: us) (c :: cs)
  | pragma {cs : List (PCmd (PTerm PSymb))} {ps us : List Token} : .dot ∉ ps → GStrict us cs → us ≠ [] →
      GStrict (.hash :: ps ++ .dot :: us) cs

end Kontroli
