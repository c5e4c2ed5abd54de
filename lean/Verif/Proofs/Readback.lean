import Mathlib.Data.List.Induction
import Verif.Proofs.Ghost

/-!
# What is read back from an evaluated state is a weak-head normal form
-/

namespace Kontroli

namespace Tm

/-- not an application -/
def NotApp (t : Tm) : Prop := ∀ f a, t ≠ .app f a

theorem Atom.notApp {h : Tm} (ha : h.Atom) : h.NotApp := by cases ha <;> intro f a e <;> cases e

theorem IsAbs.notApp {t b : Tm} (h : t.IsAbs b) : t.NotApp := by cases h <;> intro f a e <;> cases e

theorem Atom.not_abs {h b : Tm} (ha : h.Atom) : ¬ h.IsAbs b := by cases ha <;> intro h' <;> cases h'

theorem apps_snoc (f : Tm) (as : List Tm) (a : Tm) : f.apps (as ++ [a]) = .app (f.apps as) a := by
  rw [apps_append]; rfl

/-- the head and the arguments of an application are unique -/
theorem apps_inj {h h' : Tm} (hh : h.NotApp) (hh' : h'.NotApp) {ts ts' : List Tm} (e : h.apps ts = h'.apps ts') :
    h = h' ∧ ts = ts' := by
  induction ts using List.reverseRecOn generalizing ts' with
  | nil =>
    cases ts' using List.reverseRecOn with
    | nil => exact ⟨e, rfl⟩
    | append_singleton as a => rw [apps_snoc] at e; exact absurd e (hh _ _)
  | append_singleton bs b ih =>
    cases ts' using List.reverseRecOn with
    | nil => rw [apps_snoc] at e; exact absurd e.symm (hh' _ _)
    | append_singleton as a =>
      rw [apps_snoc, apps_snoc] at e
      injection e with e1 e2
      obtain ⟨h1, h2⟩ := ih e1
      exact ⟨h1, by rw [h2, e2]⟩

end Tm

/-- heads of evaluated terms with arguments -/
def STerm.IsAtom : STerm → Prop
  | .kind => True
  | .type => True
  | .const _ => True
  | .var _ => True
  | .lcomb (.prod _ _ _) => True
  | .scomb (.prod _ _ _) => True
  | _ => False

/-- the forms of evaluated terms -/
inductive HForm : STerm → Prop
  | atom {t : STerm} : t.IsAtom → HForm t
  | abs {t : STerm} : t.isAbs → HForm t
  | app {f : STerm} {args : List STerm} : f.IsAtom → args ≠ [] → HForm (.scomb (.appl f args))

theorem STerm.IsAtom.atom {t : STerm} (h : t.IsAtom) : t.den.Atom := by
  cases t with
  | kind => exact .kind
  | type => exact .type
  | const s => exact .const s
  | var n => exact .var n
  | lcomb c => cases c <;> first | exact .pi _ _ | exact absurd h (by simp [STerm.IsAtom])
  | scomb c => cases c <;> first | exact .pi _ _ | exact absurd h (by simp [STerm.IsAtom])

theorem STerm.isPi.isAtom {t : STerm} (h : t.isPi) : t.IsAtom ∧ ∃ A B, t.den = .pi A B := by
  cases t with
  | lcomb c => cases c <;> first | exact ⟨trivial, _, _, rfl⟩ | exact absurd h (by simp [STerm.isPi])
  | scomb c => cases c <;> first | exact ⟨trivial, _, _, rfl⟩ | exact absurd h (by simp [STerm.isPi])
  | _ => exact absurd h (by simp [STerm.isPi])

theorem STerm.isAbs.abs {t : STerm} (h : t.isAbs) : ∃ b, t.den.IsAbs b := by
  cases t with
  | lcomb c =>
    cases c with
    | abst id ty b => cases ty <;> exact ⟨_, by constructor⟩
    | _ => exact absurd h (by simp [STerm.isAbs])
  | scomb c =>
    cases c with
    | abst id ty b => cases ty <;> exact ⟨_, by constructor⟩
    | _ => exact absurd h (by simp [STerm.isAbs])
  | _ => exact absurd h (by simp [STerm.isAbs])

theorem STerm.IsAtom.not_appl {t : STerm} (h : t.IsAtom) : ∀ g as, t ≠ .scomb (.appl g as) := by
  rintro g as rfl
  exact h

section
variable {G : Ghost} {R : RuleMap} {eta : Bool}

theorem RdRs.length {rs : List Nat} {ts : List STerm} (h : RdRs G R eta rs ts) : rs.length = ts.length :=
  match h with
  | .nil => rfl
  | .cons _ h => by simp [RdRs.length h]

/-- head and arguments of what is read back from an evaluated state -/
theorem RdS.atom {st : State} {t : STerm} (hr : RdS G R eta st t)
    (ha : ∀ f, RdHead st f → f.IsAtom) :
    ∃ f args, RdHead st f ∧ f.IsAtom ∧ RdRs G R eta st.stack args ∧ t.den = f.den.apps (args.map STerm.den) ∧ HForm t := by
  cases hr with
  | nil h1 h2 => exact ⟨t, [], h2, ha t h2, by rw [h1]; exact .nil, rfl, .atom (ha t h2)⟩
  | @app _ f _ args h1 h2 h3 h4 h5 =>
    refine ⟨f, args, h2, ha f h2, h3, h4, ?_⟩
    rw [h5 (ha f h2).not_appl]
    refine .app (ha f h2) ?_
    rintro rfl
    exact h1 (List.length_eq_zero_iff.1 h3.length)

/-- an evaluated state is read back with an atom as head, unless it is an abstraction without arguments -/
theorem MWhnf.cases {st : State} (h : MWhnf G R eta st) :
    (st.term.isAbs ∧ st.stack = []) ∨ ∀ f, RdHead st f → f.IsAtom ∧ ∀ s, f.den = .const s → st.term = .const s := by
  cases h with
  | kind h => exact .inr fun f hf => by rw [hf.1 h]; exact ⟨trivial, by intro s h; cases h⟩
  | type h => exact .inr fun f hf => by rw [hf.2.1 h]; exact ⟨trivial, by intro s h; cases h⟩
  | var h h' => exact .inr fun f hf => by rw [hf.2.2.2.1 _ h h']; exact ⟨trivial, by intro s h; cases h⟩
  | pi h =>
    refine .inr fun f hf => ?_
    obtain ⟨h1, A, B, h2⟩ := (hf.2.2.2.2.1 h).isAtom
    exact ⟨h1, by rw [h2]; intro s h; cases h⟩
  | abs h h' => exact .inl ⟨h, h'⟩
  | const h _ => exact .inr fun f hf => by rw [hf.2.2.1 _ h]; exact ⟨trivial, by intro s h'; cases h'; exact h⟩

/-- if the head that is read back is a constant, it is the one of the state -/
theorem RdS.const {st : State} {t : STerm} (hr : RdS G R eta st t) (h : MWhnf G R eta st) {s : Sym} {us : List Tm}
    (e : t.den = Tm.apps (.const s) us) : st.term = .const s ∧ st.stack.length = us.length := by
  rcases h.cases with ⟨h1, h2⟩ | h1
  · cases hr with
    | nil _ hh =>
      obtain ⟨b, hb⟩ := (hh.2.2.2.2.2 h1).abs
      rw [e] at hb
      have : us = [] := by
        cases us using List.reverseRecOn with
        | nil => rfl
        | append_singleton as a => rw [Tm.apps_snoc] at hb; cases hb
      subst this
      cases hb
    | app hne => exact absurd h2 hne
  · obtain ⟨f, args, h3, h4, h5, h6, -⟩ := hr.atom fun f hf => (h1 f hf).1
    rw [h6] at e
    obtain ⟨e1, e2⟩ := Tm.apps_inj h4.atom.notApp (Tm.Atom.const s).notApp e
    refine ⟨(h1 f h3).2 s e1, ?_⟩
    rw [h5.length, ← e2]
    simp

/-- the bindings of the pattern, read back -/
def BsRed (G : Ghost) (R : RuleMap) (eta : Bool) : List (Nat × Nat) → List (Nat × Tm) → Prop :=
  List.Forall₂ fun b b' => b.1 = b'.1 ∧ Red R eta (G.gs b.2) b'.2

theorem BsRed.sublist {bs l : List (Nat × Nat)} {bs' : List (Nat × Tm)} (h : BsRed G R eta bs bs') (hl : l.Sublist bs) :
    ∃ l', l'.Sublist bs' ∧ BsRed G R eta l l' := by
  induction hl generalizing bs' with
  | slnil => exact ⟨[], List.nil_sublist _, .nil⟩
  | cons a _ ih =>
    cases h with
    | cons h1 h2 =>
      obtain ⟨l', h3, h4⟩ := ih h2
      exact ⟨l', .cons _ h3, h4⟩
  | cons_cons a _ ih =>
    cases h with
    | cons h1 h2 =>
      obtain ⟨l', h3, h4⟩ := ih h2
      exact ⟨_, .cons_cons _ h3, .cons h1 h4⟩

theorem RdRs.take {rs : List Nat} {ts : List STerm} (h : RdRs G R eta rs ts) (n : Nat) :
    RdRs G R eta (rs.take n) (ts.take n) := by
  induction n generalizing rs ts with
  | zero => simpa using RdRs.nil
  | succ n ih =>
    cases h with
    | nil => simpa using RdRs.nil
    | cons h hs => exact .cons h (ih hs)

mutual
  /-- What is read back from an evaluated state is a weak-head normal form. -/
  theorem MWhnf.read {st : State} (h : MWhnf G R eta st) {t : STerm} (hr : RdS G R eta st t) :
      Whnf R eta t.den :=
    match h with
    | .kind h => by
      obtain ⟨f, args, h3, -, -, h6, -⟩ := hr.atom fun f hf => by rw [hf.1 h]; trivial
      rw [h6, h3.1 h]; exact .kind _
    | .type h => by
      obtain ⟨f, args, h3, -, -, h6, -⟩ := hr.atom fun f hf => by rw [hf.2.1 h]; trivial
      rw [h6, h3.2.1 h]; exact .type _
    | .var h h' => by
      obtain ⟨f, args, h3, -, -, h6, -⟩ := hr.atom fun f hf => by rw [hf.2.2.2.1 _ h h']; trivial
      rw [h6, h3.2.2.2.1 _ h h']; exact .var _ _
    | .pi h => by
      obtain ⟨f, args, h3, -, -, h6, -⟩ := hr.atom fun f hf => (hf.2.2.2.2.1 h).isAtom.1
      obtain ⟨A, B, h7⟩ := (h3.2.2.2.2.1 h).isAtom.2
      rw [h6, h7]; exact .pi _ _ _
    | .abs h h' => by
      cases hr with
      | nil _ hh =>
        obtain ⟨b, hb⟩ := (hh.2.2.2.2.2 h).abs
        exact .abs hb
      | app hne => exact absurd h' hne
    | .const h hrs => by
      obtain ⟨f, args, h3, -, h5, h6, -⟩ := hr.atom fun f hf => by rw [hf.2.2.1 _ h]; trivial
      rw [h6, h3.2.2.1 _ h]
      exact .const fun rs r h1 h2 => MRefused.read (hrs rs r h1 h2) h5
  theorem MRefused.read {r : Rule} {l : List Nat} (h : MRefused G R eta r l) {ts : List STerm}
      (hr : RdRs G R eta l ts) : Refused R eta r (ts.map STerm.den) :=
    match h with
    | .short h => .short (by rw [List.length_map, ← hr.length]; exact h)
    | .unscoped h => .unscoped h
    | .clash h => .clash (MClashes.read h hr)
    | .apart h1 h2 _ _ h6 h7 h8 => by
      obtain ⟨bs', p1, p2⟩ := MBinds.read h1 (hr.take _)
      obtain ⟨l', p3, p4⟩ := p2.sublist h2
      match l', p3, p4 with
      | [(m1, u1), (m2, u2)], p3, .cons ⟨e1, r1⟩ (.cons ⟨e2, r2⟩ .nil) =>
        simp only at e1 e2 r1 r2
        subst e1 e2
        rw [List.map_take] at p1
        exact .apart p1 p3 (r1.conv.symm.trans h6.conv) (r2.conv.symm.trans h7.conv) h8
  theorem MBind.read {p : Pattern} {r : Nat} {bs : List (Nat × Nat)} (h : MBind G R eta p r bs) {t : STerm}
      (hr : RdR G R eta r t) :
      ∃ bs', WBind R eta p t.den bs' ∧ BsRed G R eta bs bs' :=
    match h, hr with
    | .mvar m r, .mk hred _ => ⟨[(m, t.den)], .mvar m _, .cons ⟨rfl, hred⟩ .nil⟩
    | .joker r, _ => ⟨[], .joker _, .nil⟩
    | .symb (s := s) hw hm hs hb, .mk _ hst => by
      have hsr := hst _ hw
      obtain ⟨f, args, h3, -, h5, h6, -⟩ := hsr.atom fun f hf => by rw [hf.2.2.1 _ hs]; trivial
      have hf := h3.2.2.1 _ hs
      subst hf
      obtain ⟨bs', h7, h8⟩ := MBinds.read hb h5
      refine ⟨bs', ?_, h8⟩
      have := MWhnf.read hm hsr
      rw [h6] at this ⊢
      exact .symb this h7
  theorem MBinds.read {ps : List Pattern} {rs : List Nat} {bs : List (Nat × Nat)} (h : MBinds G R eta ps rs bs)
      {ts : List STerm} (hr : RdRs G R eta rs ts) :
      ∃ bs', WBinds R eta ps (ts.map STerm.den) bs' ∧ BsRed G R eta bs bs' :=
    match h, hr with
    | .nil, .nil => ⟨[], .nil, .nil⟩
    | .cons h1 h2, .cons h3 h4 => by
      obtain ⟨b1, p1, q1⟩ := MBind.read h1 h3
      obtain ⟨b2, p2, q2⟩ := MBinds.read h2 h4
      exact ⟨b1 ++ b2, .cons p1 p2, List.rel_append q1 q2⟩
  theorem MClash.read {p : Pattern} {r : Nat} (h : MClash G R eta p r) {t : STerm} (hr : RdR G R eta r t) :
      Clash R eta p t.den :=
    match h, hr with
    | .head h1 h2 h3, .mk _ hst => by
      have hs := hst _ h1
      refine .head (MWhnf.read h2 hs) ?_
      intro us e hlen
      obtain ⟨e1, e2⟩ := hs.const h2 e
      exact h3 ⟨e1, e2.trans hlen⟩
    | .arg h1 h2 h3 h4 h5, .mk _ hst => by
      have hs := hst _ h1
      have hw := MWhnf.read h2 hs
      obtain ⟨f, args, g3, -, g5, g6, -⟩ := hs.atom fun f hf => by rw [hf.2.2.1 _ h3]; trivial
      have hf := g3.2.2.1 _ h3
      subst hf
      rw [g6] at hw ⊢
      exact .arg hw (by rw [List.length_map, ← g5.length, h4]) (MClashes.read h5 g5)
  theorem MClashes.read {ps : List Pattern} {rs : List Nat} (h : MClashes G R eta ps rs) {ts : List STerm}
      (hr : RdRs G R eta rs ts) : Clashes R eta ps (ts.map STerm.den) :=
    match h, hr with
    | .here h, .cons hr _ => .here (MClash.read h hr)
    | .there h, .cons _ hr => .there (MClashes.read h hr)
end

/-- the form of what is read back from an evaluated state -/
theorem MWhnf.hform {st : State} (h : MWhnf G R eta st) {t : STerm} (hr : RdS G R eta st t) : HForm t := by
  rcases h.cases with ⟨h1, h2⟩ | h1
  · cases hr with
    | nil _ hh => exact .abs (hh.2.2.2.2.2 h1)
    | app hne => exact absurd h2 hne
  · obtain ⟨_, _, -, -, -, -, h⟩ := hr.atom fun f hf => (h1 f hf).1
    exact h

end

end Kontroli
