import Mathlib.Data.Rat.Cast.Order
import Mathlib.Algebra.Order.Field.Basic
import Verif.Model.Reduce
import Verif.Proofs.RedLemmas
import Verif.Spec.Whnf

/-!
# Ghost state of the evaluator

Every cell of the heap gets a ghost term (what the cell stands for, up to reduction) and a ghost rank (a rational).
The ghost state also records the contents of the cells that are marked as evaluated; they do not change any more.
-/

namespace Kontroli

/-- Ghost terms and ranks of states and thunks, the number of cells allocated, and the contents of evaluated cells. -/
structure Ghost where
  gs : Nat → Tm
  gt : Nat → Tm
  rs : Nat → ℚ
  rt : Nat → ℚ
  ns : Nat
  nt : Nat
  /-- the state of a cell that is marked as evaluated -/
  wn : Nat → Option State

namespace Ghost

/-- The substitution denoted by a machine context. -/
def ctxSub (G : Ghost) (ctx : List Nat) (n : Nat) : Tm :=
  match ctx[n]? with
  | some a => G.gt a
  | none => .var (n - ctx.length)

/-- The term denoted by a machine state. -/
def den (G : Ghost) (st : State) : Tm :=
  (st.term.den.sub (G.ctxSub st.ctx)).apps (st.stack.map G.gs)

/-- All references of a state are allocated and of rank below `q`. -/
def StOk (G : Ghost) (q : ℚ) (st : State) : Prop :=
  (∀ a ∈ st.ctx, a < G.nt ∧ G.rt a < q) ∧ (∀ r ∈ st.stack, r < G.ns ∧ G.rs r < q)

/-- `G'` extends `G` by newly allocated cells. -/
structure Ext (G G' : Ghost) : Prop where
  ns : G.ns ≤ G'.ns
  nt : G.nt ≤ G'.nt
  gs : ∀ r < G.ns, G'.gs r = G.gs r
  rs : ∀ r < G.ns, G'.rs r = G.rs r
  gt : ∀ a < G.nt, G'.gt a = G.gt a
  rt : ∀ a < G.nt, G'.rt a = G.rt a
  wn : ∀ r st, G.wn r = some st → G'.wn r = some st

theorem Ext.refl (G : Ghost) : Ext G G :=
  ⟨Nat.le_refl _, Nat.le_refl _, fun _ _ => rfl, fun _ _ => rfl, fun _ _ => rfl, fun _ _ => rfl, fun _ _ h => h⟩

theorem Ext.trans {G G' G'' : Ghost} (h : Ext G G') (h' : Ext G' G'') : Ext G G'' where
  ns := Nat.le_trans h.ns h'.ns
  nt := Nat.le_trans h.nt h'.nt
  gs r hr := by rw [h'.gs r (Nat.lt_of_lt_of_le hr h.ns), h.gs r hr]
  rs r hr := by rw [h'.rs r (Nat.lt_of_lt_of_le hr h.ns), h.rs r hr]
  gt r hr := by rw [h'.gt r (Nat.lt_of_lt_of_le hr h.nt), h.gt r hr]
  rt r hr := by rw [h'.rt r (Nat.lt_of_lt_of_le hr h.nt), h.rt r hr]
  wn r st hw := h'.wn r st (h.wn r st hw)

theorem StOk.ext {G G' : Ghost} {q : ℚ} {st : State} (h : G.StOk q st) (e : Ext G G') : G'.StOk q st := by
  refine ⟨fun a ha => ?_, fun r hr => ?_⟩
  · obtain ⟨h1, h2⟩ := h.1 a ha
    exact ⟨Nat.lt_of_lt_of_le h1 e.nt, by rw [e.rt a h1]; exact h2⟩
  · obtain ⟨h1, h2⟩ := h.2 r hr
    exact ⟨Nat.lt_of_lt_of_le h1 e.ns, by rw [e.rs r h1]; exact h2⟩

theorem StOk.mono {G : Ghost} {q q' : ℚ} {st : State} (h : G.StOk q st) (hq : q ≤ q') : G.StOk q' st :=
  ⟨fun a ha => ⟨(h.1 a ha).1, lt_of_lt_of_le (h.1 a ha).2 hq⟩,
   fun r hr => ⟨(h.2 r hr).1, lt_of_lt_of_le (h.2 r hr).2 hq⟩⟩

theorem ctxSub_ext {G G' : Ghost} (e : Ext G G') {ctx : List Nat} (h : ∀ a ∈ ctx, a < G.nt) :
    G'.ctxSub ctx = G.ctxSub ctx := by
  funext n
  unfold ctxSub
  split
  · next a ha => exact e.gt a (h a (List.mem_of_getElem? ha))
  · rfl

theorem map_gs_ext {G G' : Ghost} (e : Ext G G') {l : List Nat} (h : ∀ a ∈ l, a < G.ns) :
    l.map G'.gs = l.map G.gs := by
  apply List.map_congr_left
  intro a ha
  exact e.gs a (h a ha)

theorem den_ext {G G' : Ghost} (e : Ext G G') {q : ℚ} {st : State} (h : G.StOk q st) : G'.den st = G.den st := by
  unfold den
  rw [ctxSub_ext e (fun a ha => (h.1 a ha).1), map_gs_ext e (fun a ha => (h.2 a ha).1)]

end Ghost

/-! ### Evaluated states -/

/-- products -/
def STerm.isPi : STerm → Prop
  | .lcomb (.prod _ _ _) => True
  | .scomb (.prod _ _ _) => True
  | _ => False

/-- abstractions -/
def STerm.isAbs : STerm → Prop
  | .lcomb (.abst _ _ _) => True
  | .scomb (.abst _ _ _) => True
  | _ => False

section
variable (G : Ghost)

variable (R : RuleMap) (eta : Bool)

mutual
  /-- The state is in weak-head normal form. -/
  inductive MWhnf : State → Prop
    | kind {st : State} : st.term = .kind → MWhnf st
    | type {st : State} : st.term = .type → MWhnf st
    | var {st : State} {n : Nat} : st.term = .var n → st.ctx = [] → MWhnf st
    | pi {st : State} : st.term.isPi → MWhnf st
    | abs {st : State} : st.term.isAbs → st.stack = [] → MWhnf st
    | const {st : State} {s : Sym} : st.term = .const s →
        (∀ rs r, R s = some rs → r ∈ rs → MRefused r st.stack) → MWhnf st
  /-- The rule cannot be used on this stack. -/
  inductive MRefused : Rule → List Nat → Prop
    | short {r : Rule} {l : List Nat} : l.length < r.lhs.args.length → MRefused r l
    | unscoped {r : Rule} {l : List Nat} : ¬ r.Scoped → MRefused r l
    | clash {r : Rule} {l : List Nat} : MClashes r.lhs.args l → MRefused r l
    | apart {r : Rule} {l : List Nat} {bs : List (Nat × Nat)} {m a b : Nat} {t u : Tm} :
        MBinds r.lhs.args (l.take r.lhs.args.length) bs → [(m, a), (m, b)].Sublist bs → a < G.ns → b < G.ns →
        Red R eta (G.gs a) t → Red R eta (G.gs b) u → Apart R eta t u → MRefused r l
  /-- The bindings that matching a closure with a pattern gives; constants are looked for in evaluated cells only. -/
  inductive MBind : Pattern → Nat → List (Nat × Nat) → Prop
    | mvar (m r : Nat) : MBind (.mvar m) r [(m, r)]
    | joker (r : Nat) : MBind .joker r []
    | symb {s : Sym} {ps : List Pattern} {r : Nat} {st : State} {bs : List (Nat × Nat)} :
        G.wn r = some st → MWhnf st → st.term = .const s → MBinds ps st.stack bs → MBind (.symb s ps) r bs
  /-- Pointwise `MBind`. -/
  inductive MBinds : List Pattern → List Nat → List (Nat × Nat) → Prop
    | nil : MBinds [] [] []
    | cons {p : Pattern} {r : Nat} {ps : List Pattern} {rs : List Nat} {bs bs' : List (Nat × Nat)} :
        MBind p r bs → MBinds ps rs bs' → MBinds (p :: ps) (r :: rs) (bs ++ bs')
  /-- The pattern has a constant where the closure has something else in weak-head normal form. -/
  inductive MClash : Pattern → Nat → Prop
    | head {s : Sym} {ps : List Pattern} {r : Nat} {st : State} : G.wn r = some st → MWhnf st →
        ¬ (st.term = .const s ∧ st.stack.length = ps.length) → MClash (.symb s ps) r
    | arg {s : Sym} {ps : List Pattern} {r : Nat} {st : State} : G.wn r = some st → MWhnf st →
        st.term = .const s → st.stack.length = ps.length → MClashes ps st.stack → MClash (.symb s ps) r
  /-- Some pattern clashes with the closure at the same position. -/
  inductive MClashes : List Pattern → List Nat → Prop
    | here {p : Pattern} {r : Nat} {ps : List Pattern} {rs : List Nat} : MClash p r → MClashes (p :: ps) (r :: rs)
    | there {p : Pattern} {r : Nat} {ps : List Pattern} {rs : List Nat} : MClashes ps rs → MClashes (p :: ps) (r :: rs)
end

end

section
variable {R : RuleMap} {eta : Bool}

mutual
  theorem MWhnf.ext {G G' : Ghost} (e : Ghost.Ext G G') {st : State} (h : MWhnf G R eta st) : MWhnf G' R eta st :=
    match h with
    | .kind h => .kind h
    | .type h => .type h
    | .var h h' => .var h h'
    | .pi h => .pi h
    | .abs h h' => .abs h h'
    | .const h hr => .const h fun rs r h1 h2 => MRefused.ext e (hr rs r h1 h2)
  theorem MRefused.ext {G G' : Ghost} (e : Ghost.Ext G G') {r : Rule} {l : List Nat} (h : MRefused G R eta r l) :
      MRefused G' R eta r l :=
    match h with
    | .short h => .short h
    | .unscoped h => .unscoped h
    | .clash h => .clash (MClashes.ext e h)
    | .apart h1 h2 h4 h5 h6 h7 h8 =>
      .apart (MBinds.ext e h1) h2 (Nat.lt_of_lt_of_le h4 e.ns) (Nat.lt_of_lt_of_le h5 e.ns)
        (by rw [e.gs _ h4]; exact h6) (by rw [e.gs _ h5]; exact h7) h8
  theorem MBind.ext {G G' : Ghost} (e : Ghost.Ext G G') {p : Pattern} {r : Nat} {bs : List (Nat × Nat)}
      (h : MBind G R eta p r bs) : MBind G' R eta p r bs :=
    match h with
    | .mvar m r => .mvar m r
    | .joker r => .joker r
    | .symb h1 hw h2 h3 => .symb (e.wn _ _ h1) (MWhnf.ext e hw) h2 (MBinds.ext e h3)
  theorem MBinds.ext {G G' : Ghost} (e : Ghost.Ext G G') {ps : List Pattern} {rs : List Nat} {bs : List (Nat × Nat)}
      (h : MBinds G R eta ps rs bs) : MBinds G' R eta ps rs bs :=
    match h with
    | .nil => .nil
    | .cons h1 h2 => .cons (MBind.ext e h1) (MBinds.ext e h2)
  theorem MClash.ext {G G' : Ghost} (e : Ghost.Ext G G') {p : Pattern} {r : Nat} (h : MClash G R eta p r) :
      MClash G' R eta p r :=
    match h with
    | .head h1 h2 h3 => .head (e.wn _ _ h1) (MWhnf.ext e h2) h3
    | .arg h1 h2 h3 h4 h5 => .arg (e.wn _ _ h1) (MWhnf.ext e h2) h3 h4 (MClashes.ext e h5)
  theorem MClashes.ext {G G' : Ghost} (e : Ghost.Ext G G') {ps : List Pattern} {rs : List Nat}
      (h : MClashes G R eta ps rs) : MClashes G' R eta ps rs :=
    match h with
    | .here h => .here (MClash.ext e h)
    | .there h => .there (MClashes.ext e h)
end

end

/-! ### Reading back -/

/-- The shape of the term read back from the term and the context of a state. -/
def RdHead (st : State) (f : STerm) : Prop :=
  (st.term = .kind → f = .kind) ∧ (st.term = .type → f = .type) ∧ (∀ s, st.term = .const s → f = .const s) ∧
  (∀ n, st.term = .var n → st.ctx = [] → f = .var n) ∧ (st.term.isPi → f.isPi) ∧ (st.term.isAbs → f.isAbs)

section
variable (G : Ghost) (R : RuleMap) (eta : Bool)

mutual
  /-- The term may be read back from the state. -/
  inductive RdS : State → STerm → Prop
    | nil {st : State} {t : STerm} : st.stack = [] → RdHead st t → RdS st t
    | app {st : State} {f t : STerm} {args : List STerm} : st.stack ≠ [] → RdHead st f → RdRs st.stack args →
        t.den = f.den.apps (args.map STerm.den) → ((∀ g as, f ≠ .scomb (.appl g as)) → t = .scomb (.appl f args)) →
        RdS st t
  /-- The term may be read back from the closure. -/
  inductive RdR : Nat → STerm → Prop
    | mk {r : Nat} {t : STerm} : Red R eta (G.gs r) t.den → (∀ st, G.wn r = some st → RdS st t) → RdR r t
  /-- Pointwise `RdR`. -/
  inductive RdRs : List Nat → List STerm → Prop
    | nil : RdRs [] []
    | cons {r : Nat} {t : STerm} {rs : List Nat} {ts : List STerm} : RdR r t → RdRs rs ts → RdRs (r :: rs) (t :: ts)
end

end

end Kontroli
