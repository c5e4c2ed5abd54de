import Verif.Proofs.Sim

/-!
# Simulation of evaluation

The functions of the evaluator, for two sets of recursive entry points that simulate each other.
-/

namespace Kontroli

/-- constraints denote the same, possibly with the sides exchanged -/
def PRel (p q : STerm × STerm) : Prop :=
  (p.1.den = q.1.den ∧ p.2.den = q.2.den) ∨ (p.1.den = q.2.den ∧ p.2.den = q.1.den)

/-- the entry points simulate each other -/
structure SimOps (gc : GCtx) (o o' : Ops) : Prop where
  wh : ∀ P : Prop, (P → gc.ProperRules) → ∀ w a b, StRel P w a b →
    Sim P w (o.wh a) (o'.wh b) (fun w' a b => StRel P w' a b ∧ a.Nf ∧ b.Nf)
  rd : ∀ (P : Prop) w a b, StRel P w a b → Sim P w (o.rd a) (o'.rd b) (fun _ => TEq P)
  cv : ∀ l l', List.Forall₂ PRel l l' → ∀ s1 s2 b s1' b' s2', o.cv l s1 = .ok (b, s1') → o'.cv l' s2 = .ok (b', s2') →
    Old s1.heap s1'.heap ∧ Old s2.heap s2'.heap ∧ b = b'

theorem forall₂_get {α β : Type} {R : α → β → Prop} {l : List α} {l' : List β} (h : List.Forall₂ R l l') (n : Nat) :
    (l[n]? = none ∧ l'[n]? = none) ∨ ∃ a b, l[n]? = some a ∧ l'[n]? = some b ∧ R a b := by
  induction h generalizing n with
  | nil => exact .inl ⟨rfl, rfl⟩
  | cons h _ ih =>
    cases n with
    | zero => exact .inr ⟨_, _, rfl, rfl, h⟩
    | succ n => exact ih n

section
variable {P : Prop} {w : Pairs} {rd rd' : State → M STerm}
  (hrd : ∀ w a b, StRel P w a b → Sim P w (rd a) (rd' b) (fun _ => TEq P))
include hrd

theorem Sim.readR {r r' : Nat} (h : w.st r r') : Sim P w (readR rd r) (readR rd' r') (fun _ => TEq P) :=
  (Sim.borrowState h).bind fun _ _ _ _ h => hrd _ _ _ h

theorem Sim.readArgs {l l' : List Nat} (h : List.Forall₂ w.st l l') :
    Sim P w (readArgs rd l) (readArgs rd' l') (fun _ ts us => List.Forall₂ (TEq P) ts us ∧ ts.length = l.length) := by
  induction l generalizing w l' with
  | nil => cases h; exact .pure ⟨.nil, rfl⟩
  | cons r l ih =>
    cases h with
    | cons h hs =>
      refine (Sim.readR hrd h).bind fun w1 t u hw ht => ?_
      refine (ih (hs.imp fun _ _ => hw.st)).bind fun w2 ts us _ hts => ?_
      exact .pure ⟨.cons ht hts.1, by simp [hts.2]⟩

theorem Sim.force {a a' : Nat} (h : w.th a a') : Sim P w (force rd a) (force rd' a') (fun _ => TEq P) := by
  refine (Sim.getThunk h).bind fun w1 t u hw ht => ?_
  cases t <;> cases u <;> simp only [ThRel] at ht
  · refine (Sim.setThunk (c := .busy) (c' := .busy) (hw.th h) trivial).bind fun w2 _ _ _ e => ?_
    subst e
    refine (Sim.readR hrd ht).bind fun w3 t u hw3 htu => ?_
    refine (Sim.setThunk (c := .done t) (c' := .done u) (hw3.th (hw.th h)) htu).bind fun w4 _ _ _ e => ?_
    exact .pure htu
  · exact .panic_l
  · exact .pure ht

theorem Sim.psubst {c c' : List Nat} (h : List.Forall₂ w.th c c') (n k : Nat) :
    Sim P w (psubst rd c n k) (psubst rd' c' n k) (fun _ => TEq P) := by
  unfold Kontroli.psubst
  split
  · exact .panic_l
  · rw [h.length_eq]
    rcases forall₂_get h (n - k) with ⟨e, e'⟩ | ⟨a, a', e, e', ha⟩ <;> rw [e, e'] <;> dsimp only
    · split
      · exact .panic_l
      · exact .pure ⟨rfl, fun _ => ⟨trivial, trivial⟩⟩
    · exact (Sim.force hrd ha).bind fun _ _ _ _ ht => .shift ht k

theorem Sim.psubstTerm {c c' : List Nat} (h : List.Forall₂ w.th c c') {t u : STerm} (ht : TEq P t u) :
    Sim P w (psubstTerm rd t c) (psubstTerm rd' u c') (fun _ => TEq P) := by
  unfold Kontroli.psubstTerm
  cases h with
  | nil => exact .pure ht
  | cons h hs =>
    refine Sim.bind (Sim.applySubst (fun w' n k hw _ => ?_) ht 0) fun _ _ _ _ h => .pure h
    exact Sim.psubst hrd ((List.Forall₂.cons h hs).imp fun _ _ => hw.th) n k

theorem Sim.readBody {a b : State} (h : StRel P w a b) : Sim P w (readBody rd a) (readBody rd' b) (fun _ => TEq P) := by
  unfold Kontroli.readBody
  refine (Sim.psubstTerm hrd h.ctx h.term).bind fun w1 t u hw ht => ?_
  have hs := h.stack.imp fun _ _ => hw.st
  generalize a.stack = l, b.stack = l' at hs
  cases hs with
  | nil => exact .pure ht
  | cons hx hs =>
    refine (Sim.readArgs hrd (.cons hx hs)).bind fun w2 ts us _ hts => ?_
    exact .applyArgs ht hts.1 (by rintro rfl; simp at hts)

end

/-! ## Heads -/

/-- related terms that are not applications -/
inductive HeadRel (P : Prop) : STerm → STerm → Prop
  | kind : HeadRel P .kind .kind
  | type : HeadRel P .type .type
  | const (s : Sym) : HeadRel P (.const s) (.const s)
  | var (n : Nat) : HeadRel P (.var n) (.var n)
  | prod {t u a b a' b' : STerm} {i i' : Str} : t.getComb = some (.prod i a b) → u.getComb = some (.prod i' a' b') →
      TEq P a a' → TEq P b b' → HeadRel P t u
  | abst {t u b b' : STerm} {a a' : Option STerm} {i i' : Str} : t.getComb = some (.abst i a b) →
      u.getComb = some (.abst i' a' b') → TEq P b b' → HeadRel P t u

theorem STerm.proper_getComb {t : STerm} {c : SComb} (h : t.getComb = some c) : t.Proper ↔ SComb.Proper c := by
  cases t <;> simp only [STerm.getComb, Option.some.injEq, reduceCtorEq] at h
  · subst h; simp [STerm.Proper]
  · subst h; rfl

/-- the cases of a term that is not an application -/
inductive HeadForm : STerm → Prop
  | kind : HeadForm .kind
  | type : HeadForm .type
  | const (s : Sym) : HeadForm (.const s)
  | var (n : Nat) : HeadForm (.var n)
  | prod {t a b : STerm} {i : Str} : t.getComb = some (.prod i a b) → HeadForm t
  | abst {t b : STerm} {a : Option STerm} {i : Str} : t.getComb = some (.abst i a b) → HeadForm t

theorem STerm.NonAppl.form {t : STerm} (h : t.NonAppl) : HeadForm t := by
  have key : ∀ c : SComb, t.getComb = some c → HeadForm t := by
    intro c e
    cases c with
    | appl f as => exact absurd e (h f as)
    | prod i a b => exact .prod e
    | abst i a b => exact .abst e
  cases t with
  | kind => exact .kind
  | type => exact .type
  | const s => exact .const s
  | var n => exact .var n
  | lcomb c => exact key _ rfl
  | scomb c => exact key _ rfl

theorem STerm.den_abst {t b : STerm} {a : Option STerm} {i : Str} (h : t.getComb = some (.abst i a b)) :
    t.den = .dlam b.den ∨ ∃ A, t.den = .lam A b.den := by
  rw [STerm.den_getComb h]
  cases a with
  | none => exact .inl rfl
  | some a => exact .inr ⟨_, rfl⟩

theorem STerm.den_prod {t a b : STerm} {i : Str} (h : t.getComb = some (.prod i a b)) : t.den = .pi a.den b.den := by
  rw [STerm.den_getComb h]; rfl

theorem STerm.NonAppl.notApp {t : STerm} (h : t.NonAppl) : t.den.NotApp := by
  intro f a e
  cases h.form with
  | prod h => rw [STerm.den_prod h] at e; cases e
  | abst h => rcases STerm.den_abst h with h | ⟨A, h⟩ <;> rw [h] at e <;> cases e
  | _ => cases e

theorem TEq.head {P : Prop} {t u : STerm} (h : TEq P t u) (ht : t.NonAppl) (hu : u.NonAppl) : HeadRel P t u := by
  obtain ⟨e, hp⟩ := h
  cases ht.form with
  | kind =>
    cases hu.form with
    | kind => exact .kind
    | prod h => rw [STerm.den_prod h] at e; cases e
    | abst h => rcases STerm.den_abst h with h | ⟨A, h⟩ <;> rw [h] at e <;> cases e
    | _ => cases e
  | type =>
    cases hu.form with
    | type => exact .type
    | prod h => rw [STerm.den_prod h] at e; cases e
    | abst h => rcases STerm.den_abst h with h | ⟨A, h⟩ <;> rw [h] at e <;> cases e
    | _ => cases e
  | const s =>
    cases hu.form with
    | const s' => cases e; exact .const s
    | prod h => rw [STerm.den_prod h] at e; cases e
    | abst h => rcases STerm.den_abst h with h | ⟨A, h⟩ <;> rw [h] at e <;> cases e
    | _ => cases e
  | var n =>
    cases hu.form with
    | var n' => cases e; exact .var n
    | prod h => rw [STerm.den_prod h] at e; cases e
    | abst h => rcases STerm.den_abst h with h | ⟨A, h⟩ <;> rw [h] at e <;> cases e
    | _ => cases e
  | prod h =>
    rw [STerm.den_prod h] at e
    cases hu.form with
    | prod h' =>
      rw [STerm.den_prod h'] at e
      injection e with e1 e2
      rw [STerm.proper_getComb h, STerm.proper_getComb h'] at hp
      exact .prod h h' ⟨e1, fun p => ⟨(hp p).1.1, (hp p).2.1⟩⟩ ⟨e2, fun p => ⟨(hp p).1.2, (hp p).2.2⟩⟩
    | abst h => rcases STerm.den_abst h with h | ⟨A, h⟩ <;> rw [h] at e <;> cases e
    | _ => cases e
  | @abst _ b _ _ h =>
    cases hu.form with
    | @abst _ b' _ _ h' =>
      have : b.den = b'.den := by
        rcases STerm.den_abst h with h1 | ⟨A, h1⟩ <;> rcases STerm.den_abst h' with h2 | ⟨A', h2⟩ <;> rw [h1, h2] at e
        · exact Tm.dlam.inj e
        · cases e
        · cases e
        · exact (Tm.lam.inj e).2
      rw [STerm.proper_getComb h, STerm.proper_getComb h'] at hp
      exact .abst h h' ⟨this, fun p => ⟨(hp p).1.2, (hp p).2.2⟩⟩
    | prod h' => rw [STerm.den_prod h'] at e; rcases STerm.den_abst h with h | ⟨A, h⟩ <;> rw [h] at e <;> cases e
    | _ => rcases STerm.den_abst h with h | ⟨A, h⟩ <;> rw [h] at e <;> cases e

theorem M.bind_assoc {α β γ : Type} (m : M α) (f : α → M β) (g : β → M γ) :
    M.bind (M.bind m f) g = M.bind m fun a => M.bind (f a) g := by
  funext s
  unfold M.bind
  rcases m s with ⟨a, s'⟩ | _ | _ | _ <;> rfl

/-! ## Matching -/

section
variable {P : Prop} {gc : GCtx} {w : Pairs} {o o' : Ops} (ho : SimOps gc o o') (hP : P → gc.ProperRules)
include ho hP

theorem Sim.rwhnfBorrow {r r' : Nat} (h : w.st r r') :
    Sim P w (M.bind (rwhnf o r) fun _ => Kontroli.borrowState r) (M.bind (rwhnf o' r') fun _ => Kontroli.borrowState r')
      (fun w' a b => StRel P w' a b ∧ a.Nf ∧ b.Nf) := by
  intro s1 s2 a s1' b s2' hr h1 h2
  obtain ⟨_, t1, h1, b1⟩ := bind_ok' h1
  obtain ⟨_, t2, h2, b2⟩ := bind_ok' h2
  unfold rwhnf at h1 h2
  obtain ⟨c1, u1, l1, h1⟩ := bind_ok' h1
  obtain ⟨c2, u2, l2, h2⟩ := bind_ok' h2
  obtain ⟨d1, v1, m1, h1⟩ := bind_ok' h1
  obtain ⟨d2, v2, m2, h2⟩ := bind_ok' h2
  unfold unlockState at h1 h2
  cases h1; cases h2
  obtain ⟨e1, f1, rfl⟩ := lockState_ok l1
  obtain ⟨e2, f2, rfl⟩ := lockState_ok l2
  obtain ⟨x, x', ex, ex', q⟩ := hr.st h
  rw [show s1.heap.1[r]? = some c1 from e1] at ex
  rw [show s2.heap.1[r']? = some c2 from e2] at ex'
  cases ex; cases ex'
  obtain ⟨hr1, hx1⟩ := hr.set_st h (c := { c1 with borrowed := true }) (c' := { c2 with borrowed := true })
    ⟨rfl, fun h => (nomatch h), fun h => (nomatch h), fun h => (nomatch h)⟩
  have key : ∃ w', HExt w w' (s1.states.set r { c1 with borrowed := true }, s1.thunks)
      (s2.states.set r' { c2 with borrowed := true }, s2.thunks) v1.heap v2.heap ∧ HRel P w' v1.heap v2.heap ∧
      StRel P w' d1.state d2.state ∧ d1.state.Nf ∧ d2.state.Nf ∧ d1.whnfed = true ∧ d2.whnfed = true := by
    have hw := q.whnfed f1
    by_cases hc : c1.whnfed = true
    · rw [if_pos hc] at m1
      rw [if_pos (hw ▸ hc)] at m2
      obtain ⟨rfl, rfl⟩ := pure_ok m1
      obtain ⟨rfl, rfl⟩ := pure_ok m2
      exact ⟨w, .refl _ _ _, hr1, q.state f1, (q.nf f1 hc).1, (q.nf f1 hc).2, hc, hw ▸ hc⟩
    · rw [if_neg hc] at m1
      rw [if_neg (hw ▸ hc)] at m2
      obtain ⟨y1, z1, mm1, n1⟩ := bind_ok' m1
      obtain ⟨y2, z2, mm2, n2⟩ := bind_ok' m2
      obtain ⟨rfl, rfl⟩ := pure_ok n1
      obtain ⟨rfl, rfl⟩ := pure_ok n2
      obtain ⟨w', a1, a2, a3, a4, a5⟩ := ho.wh P hP w _ _ (q.state f1) _ _ _ _ _ _ (by exact hr1) mm1 mm2
      exact ⟨w', a1, a2, a3, a4, a5, rfl, rfl⟩
  obtain ⟨w', a1, a2, a3, a4, a5, a6, a7⟩ := key
  have h' := a1.le.st h
  obtain ⟨hr2, hx2⟩ := a2.set_st h' (c := { d1 with borrowed := false }) (c' := { d2 with borrowed := false })
    ⟨rfl, fun _ => by rw [a6, a7], fun _ => a3, fun _ _ => ⟨a4, a5⟩⟩
  obtain ⟨x, x', ex, ex', -⟩ := a2.st h'
  have k1 := (List.getElem?_eq_some_iff.1 ex).1
  have k2 := (List.getElem?_eq_some_iff.1 ex').1
  obtain ⟨rfl, y, ey, -, rfl⟩ := borrowState_ok b1
  obtain ⟨rfl, y', ey', -, rfl⟩ := borrowState_ok b2
  simp only [St.heap] at k1 k2
  simp only [List.getElem?_set_self k1, Option.some.injEq] at ey
  simp only [List.getElem?_set_self k2, Option.some.injEq] at ey'
  subst ey; subst ey'
  exact ⟨w', hx1.trans (a1.trans hx2), hr2, a3, a4, a5⟩

end

/-- related assignments -/
abbrev SubRel (w : Pairs) (s s' : Sub) : Prop := List.Forall₂ (List.Forall₂ w.st) s s'

theorem SubRel.mono {w w' : Pairs} {s s' : Sub} (h : SubRel w s s') (hw : w.Le w') : SubRel w' s s' :=
  h.imp fun _ _ h => h.imp fun _ _ => hw.st

theorem forall₂_set {α β : Type} {R : α → β → Prop} {l : List α} {l' : List β} (h : List.Forall₂ R l l') (n : Nat) {a : α}
    {b : β} (hab : R a b) : List.Forall₂ R (l.set n a) (l'.set n b) := by
  induction h generalizing n with
  | nil => exact .nil
  | cons h hs ih =>
    cases n with
    | zero => exact .cons hab hs
    | succ n => exact .cons h (ih n)

theorem pushSub_rel {w : Pairs} {s s' : Sub} (h : SubRel w s s') (m : Nat) {r r' : Nat} (hr : w.st r r') :
    Option.Rel (SubRel w) (pushSub s m r) (pushSub s' m r') := by
  unfold pushSub
  rcases forall₂_get h m with ⟨e, e'⟩ | ⟨a, b, e, e', hab⟩ <;> rw [e, e']
  · exact .none
  · exact .some (forall₂_set h m (List.rel_append hab (.cons hr .nil)))

section
variable {P : Prop} {gc : GCtx} {o o' : Ops} (ho : SimOps gc o o') (hP : P → gc.ProperRules)
include ho hP

mutual
  theorem Sim.matchPat {w : Pairs} (p : Pattern) {r r' : Nat} (hr : w.st r r') {s s' : Sub} (hs : SubRel w s s') :
      Sim P w (matchPat (rwhnf o) p r s) (matchPat (rwhnf o') p r' s') (fun w' => Option.Rel (SubRel w')) := by
    cases p with
    | symb sp pats =>
      unfold Kontroli.matchPat
      rw [← M.bind_assoc, ← M.bind_assoc]
      refine (Sim.rwhnfBorrow ho hP hr).bind fun w1 a b hw hab => ?_
      obtain ⟨hab, na, nb⟩ := hab
      have hd := hab.term.head na.head nb.head
      generalize a.term = t, b.term = u at hd
      cases hd with
      | const c =>
        dsimp only
        rw [hab.stack.length_eq]
        split
        · exact Sim.matchPats pats hab.stack (hs.mono hw)
        · exact .pure .none
      | prod h h' => 
        cases t <;> cases u <;> first | exact .pure .none | (cases h; done) | (cases h'; done)
      | abst h h' => 
        cases t <;> cases u <;> first | exact .pure .none | (cases h; done) | (cases h'; done)
      | _ => exact .pure .none
    | mvar m => unfold Kontroli.matchPat; exact .pure (pushSub_rel hs m hr)
    | joker => unfold Kontroli.matchPat; exact .pure (.some hs)
  theorem Sim.matchPats {w : Pairs} (ps : List Pattern) {l l' : List Nat} (hl : List.Forall₂ w.st l l') {s s' : Sub}
      (hs : SubRel w s s') :
      Sim P w (matchPats (rwhnf o) ps l s) (matchPats (rwhnf o') ps l' s') (fun w' => Option.Rel (SubRel w')) := by
    cases ps with
    | nil => cases hl <;> exact .pure (.some hs)
    | cons p ps =>
      cases hl with
      | nil => exact .pure (.some hs)
      | cons h hl =>
        unfold Kontroli.matchPats
        refine (Sim.matchPat p h hs).bind fun w1 x y hw hxy => ?_
        cases hxy with
        | none => exact .pure .none
        | some hxy => exact Sim.matchPats ps (hl.imp fun _ _ => hw.st) hxy
end

theorem Sim.matchRule {w : Pairs} (rule : Rule) {l l' : List Nat} (hl : List.Forall₂ w.st l l') :
    Sim P w (matchRule (rwhnf o) rule l) (matchRule (rwhnf o') rule l') (fun w' => Option.Rel (SubRel w')) := by
  unfold Kontroli.matchRule
  rw [hl.length_eq]
  split
  · exact .pure .none
  · refine Sim.matchPats ho hP _ hl ?_
    induction rule.ctx.length with
    | zero => exact .nil
    | succ n ih => exact .cons .nil ih

omit hP in
theorem Sim.allConvRest {w : Pairs} {a a' : Nat} (ha : w.th a a') {l l' : List Nat} (hl : List.Forall₂ w.st l l') :
    Sim P w (allConvRest o a l) (allConvRest o' a' l') (fun w' => Option.Rel w'.th) := by
  induction l generalizing w l' with
  | nil => cases hl; exact .pure (.some ha)
  | cons r l ih =>
    cases hl with
    | cons h hl =>
      refine (Sim.force (ho.rd P) ha).bind fun w1 t u hw htu => ?_
      refine (Sim.readR (ho.rd P) (hw.st h)).bind fun w2 t' u' hw2 htu' => ?_
      refine Sim.bind (Q := fun _ b b' => b = b') (.old (ho.cv _ _ (.cons (.inl ⟨htu.1, htu'.1⟩) .nil)))
        fun w3 b b' hw3 e => ?_
      subst e
      split
      · exact ih (hw3.th (hw2.th (hw.th ha))) (hl.imp fun _ _ h => hw3.st (hw2.st (hw.st h)))
      · exact .pure .none

omit hP in
theorem Sim.allConv {w : Pairs} {l l' : List Nat} (hl : List.Forall₂ w.st l l') :
    Sim P w (allConv o l) (allConv o' l') (fun w' => Option.Rel w'.th) := by
  cases hl with
  | nil => exact .pure .none
  | cons h hl => exact (Sim.newThunk h).bind fun w1 a b hw hab => Sim.allConvRest ho hab (hl.imp fun _ _ => hw.st)

omit hP in
theorem Sim.flattenSub {w : Pairs} {s s' : Sub} (hs : SubRel w s s') :
    Sim P w (flattenSub o s) (flattenSub o' s') (fun w' => Option.Rel (List.Forall₂ w'.th)) := by
  induction s generalizing w s' with
  | nil => cases hs; exact .pure (.some .nil)
  | cons l s ih =>
    cases hs with
    | cons h hs =>
      refine (ih hs).bind fun w1 x y hw hxy => ?_
      cases hxy with
      | none => exact .pure .none
      | some hxy =>
        refine (Sim.allConv ho (h.imp fun _ _ => hw.st)).bind fun w2 x y hw hxy' => ?_
        cases hxy' with
        | none => exact .pure .none
        | some h => exact .pure (.some (.cons h (hxy.imp fun _ _ => hw.th)))

theorem Sim.matchFlatten {w : Pairs} (rule : Rule) {l l' : List Nat} (hl : List.Forall₂ w.st l l') :
    Sim P w (matchFlatten o rule l) (matchFlatten o' rule l') (fun w' => Option.Rel (List.Forall₂ w'.th)) := by
  refine (Sim.matchRule ho hP rule hl).bind fun w1 x y hw hxy => ?_
  cases hxy with
  | none => exact .pure .none
  | some h => exact Sim.flattenSub ho h

theorem Sim.firstMatch {w : Pairs} (rs : List Rule) {l l' : List Nat} (hl : List.Forall₂ w.st l l') :
    Sim P w (firstMatch o l rs) (firstMatch o' l' rs)
      (fun w' => Option.Rel fun p q => List.Forall₂ w'.th p.1 q.1 ∧ p.2 = q.2 ∧ p.2 ∈ rs) := by
  induction rs generalizing w with
  | nil => exact .pure .none
  | cons r rs ih =>
    refine (Sim.matchFlatten ho hP r hl).bind fun w1 x y hw hxy => ?_
    cases hxy with
    | none =>
      refine (ih (hl.imp fun _ _ => hw.st)).mono fun w2 x y _ h => ?_
      cases h with
      | none => exact .none
      | some h => exact .some ⟨h.1, h.2.1, List.mem_cons_of_mem _ h.2.2⟩
    | some h => exact .pure (.some ⟨h, rfl, List.mem_cons_self⟩)

/-! ## One step of evaluation -/

omit ho hP in
theorem Sim.newStates {w : Pairs} {c c' : List Nat} (hc : List.Forall₂ w.th c c') {ts us : List STerm}
    (h : List.Forall₂ (TEq P) ts us) :
    Sim P w (newStates c ts) (newStates c' us) (fun w' => List.Forall₂ w'.st) := by
  induction ts generalizing w us with
  | nil => cases h; exact .pure .nil
  | cons t ts ih =>
    cases h with
    | cons h hs =>
      refine (ih hc hs).bind fun w1 x y hw hxy => ?_
      refine (Sim.newState ⟨hc.imp fun _ _ => hw.th, h, .nil⟩).bind fun w2 r r' hw2 hr => ?_
      exact .pure (.cons hr (hxy.imp fun _ _ => hw2.st))

omit ho hP in
theorem whnfBody_comb {st : State} {c : SComb} (h : st.term.getComb = some c) :
    whnfBody gc o st = if c.isWhnf st.stack.isEmpty then finish st else stepComb o st c := by
  obtain ⟨ctx, term, stack⟩ := st
  cases term <;> simp only [STerm.getComb, Option.some.injEq, reduceCtorEq] at h
  · subst h
    rename_i c
    cases c <;> rfl
  · subst h; rfl

omit ho hP in
theorem finish_of {st : State} (h : ∀ n, st.term ≠ .var n) : finish st = M.pure st := by
  unfold finish
  split
  · next n e => exact absurd e (h n)
  · rfl

omit ho hP in
theorem getComb_not_var {t : STerm} {c : SComb} (h : t.getComb = some c) : ∀ n, t ≠ .var n := by
  rintro n rfl
  cases h

theorem Sim.whnfBody {w : Pairs} {a b : State} (h : StRel P w a b) (na : a.term.NonAppl) (nb : b.term.NonAppl) :
    Sim P w (whnfBody gc o a) (whnfBody gc o' b) (fun w' a b => StRel P w' a b ∧ a.Nf ∧ b.Nf) := by
  obtain ⟨c, t, l⟩ := a
  obtain ⟨c', u, l'⟩ := b
  have hd := h.term.head na nb
  obtain ⟨hc, ht, hl⟩ := h
  dsimp only at hc ht hl na nb hd
  have fin : (∀ n, t ≠ .var n) → (∀ n, u ≠ .var n) →
      Sim P w (finish ⟨c, t, l⟩) (finish ⟨c', u, l'⟩) (fun w' a b => StRel P w' a b ∧ a.Nf ∧ b.Nf) := by
    intro h h'
    rw [finish_of h, finish_of h']
    exact .pure ⟨⟨hc, ht, hl⟩, ⟨na, fun n e => absurd e (h n)⟩, ⟨nb, fun n e => absurd e (h' n)⟩⟩
  cases hd with
  | kind => exact fin (fun _ h => by cases h) fun _ h => by cases h
  | type => exact fin (fun _ h => by cases h) fun _ h => by cases h
  | const s =>
    simp only [Kontroli.whnfBody]
    cases hg : gc.getRules s with
    | none => exact fin (fun _ h => by cases h) fun _ h => by cases h
    | some rules =>
      dsimp only
      refine (Sim.firstMatch ho hP rules hl).bind fun w1 x y hw hxy => ?_
      cases hxy with
      | none =>
        rw [finish_of (by simp), finish_of (by simp)]
        exact .pure ⟨⟨hc.imp fun _ _ => hw.th, ht, hl.imp fun _ _ => hw.st⟩, ⟨na, fun n e => by cases e⟩,
          ⟨nb, fun n e => by cases e⟩⟩
      | @some p q hpq =>
        obtain ⟨d, r⟩ := p
        obtain ⟨d', r'⟩ := q
        obtain ⟨hd, rfl, hm⟩ := hpq
        dsimp only at *
        rw [hl.length_eq]
        split
        · exact .panic_l
        · refine ho.wh P hP w1 _ _ ⟨hd, ⟨rfl, fun p => ?_⟩, ?_⟩
          · have := hP p s rules hg r hm
            exact ⟨(STerm.proper_ofL _).2 this, (STerm.proper_ofL _).2 this⟩
          · exact List.forall₂_drop _ (hl.imp fun _ _ => hw.st)
  | var n =>
    simp only [Kontroli.whnfBody]
    rcases forall₂_get hc n with ⟨e, e'⟩ | ⟨x, y, e, e', hxy⟩ <;> rw [e, e'] <;> dsimp only
    · cases hc with
      | nil => exact .pure ⟨⟨.nil, ht, hl⟩, ⟨na, fun _ _ => rfl⟩, ⟨nb, fun _ _ => rfl⟩⟩
      | @cons _ _ cs cs' h hs =>
        simp only [List.isEmpty_cons, Bool.false_eq_true, if_false, List.length_cons, hs.length_eq]
        split
        · exact .panic_l
        · exact .pure ⟨⟨.nil, ⟨rfl, fun _ => ⟨trivial, trivial⟩⟩, hl⟩, ⟨fun _ _ h => (nomatch h), fun _ _ => rfl⟩,
            ⟨fun _ _ h => (nomatch h), fun _ _ => rfl⟩⟩
    · exact (Sim.force (ho.rd P) hxy).bind fun w1 t u hw htu => ho.wh P hP w1 _ _ ⟨.nil, htu, hl.imp fun _ _ => hw.st⟩
  | prod hg hg' =>
    rw [whnfBody_comb hg, whnfBody_comb hg']
    exact fin (getComb_not_var hg) (getComb_not_var hg')
  | abst hg hg' htu =>
    rw [whnfBody_comb hg, whnfBody_comb hg']
    cases hl with
    | nil => exact fin (getComb_not_var hg) (getComb_not_var hg')
    | cons h hl =>
      rw [if_neg (by simp [Comb.isWhnf]), if_neg (by simp [Comb.isWhnf])]
      simp only [stepComb]
      refine (Sim.newThunk h).bind fun w1 x y hw hxy => ?_
      exact ho.wh P hP w1 _ _ ⟨.cons hxy (hc.imp fun _ _ => hw.th), htu, hl.imp fun _ _ => hw.st⟩

end

/-! ## Applications -/

theorem newStates_append (c : List Nat) (as bs : List STerm) :
    newStates c (as ++ bs) = M.bind (newStates c bs) fun rs => M.bind (newStates c as) fun rs' => M.pure (rs' ++ rs) := by
  induction as with
  | nil =>
    funext s
    simp only [List.nil_append, newStates, M.bind, M.pure]
    rcases newStates c bs s with ⟨a, s'⟩ | _ | _ | _ <;> rfl
  | cons a as ih =>
    simp only [List.cons_append, newStates, ih, M.bind_assoc]
    rfl

theorem bind_ok_mk {α β : Type} {m : M α} {f : α → M β} {s s' : St} {a : α} (h : m s = .ok (a, s')) :
    M.bind m f s = f a s' := by
  unfold M.bind; rw [h]

/-- evaluation first takes all applications apart, however they are nested -/
theorem wh_canon (gc : GCtx) (n : Nat) {st st' : State} {s s' : St} (h : (ops gc n).wh st s = .ok (st', s')) :
    ∃ n' hd args rs s0, n' ≤ n ∧ hd.NonAppl ∧ st.term.den = hd.den.apps (args.map STerm.den) ∧
      (st.term.Proper → hd.Proper ∧ ∀ a ∈ args, a.Proper) ∧ newStates st.ctx args s = .ok (rs, s0) ∧
      (ops gc n').wh ⟨st.ctx, hd, rs ++ st.stack⟩ s0 = .ok (st', s') := by
  induction n generalizing st s with
  | zero => cases h
  | succ n ih =>
    by_cases hn : st.term.NonAppl
    · exact ⟨n + 1, st.term, [], [], s, Nat.le_refl _, hn, rfl, fun h => ⟨h, by simp⟩, rfl, h⟩
    · unfold STerm.NonAppl at hn
      simp only [ne_eq, not_forall, not_not] at hn
      obtain ⟨f, as, e⟩ := hn
      have h' := h
      simp only [ops] at h'
      rw [whnfBody_comb e] at h'
      obtain ⟨rs, s1, h1, h2⟩ := bind_ok' (show M.bind (newStates st.ctx as) _ s = _ from h')
      obtain ⟨n', hd, args, rs', s0, hn', hh, e1, e2, e3, e4⟩ := ih h2
      refine ⟨n', hd, args ++ as, rs' ++ rs, s0, by omega, hh, ?_, ?_, ?_, ?_⟩
      · rw [STerm.den_getComb e, List.map_append, Tm.apps_append, ← e1]
        simp [SComb.den, STerm.denList_eq]
      · intro hp
        rw [STerm.proper_getComb e] at hp
        obtain ⟨p1, p2⟩ := e2 hp.1
        refine ⟨p1, fun a ha => ?_⟩
        rcases List.mem_append.1 ha with ha | ha
        · exact p2 a ha
        · exact (STerm.properList_iff _).1 hp.2.1 a ha
      · rw [newStates_append, bind_ok_mk h1, bind_ok_mk e3]
        rfl
      · simpa using e4

theorem forall₂_of_den {P : Prop} {ts us : List STerm} (h : ts.map STerm.den = us.map STerm.den)
    (hp : P → (∀ t ∈ ts, t.Proper) ∧ ∀ u ∈ us, u.Proper) : List.Forall₂ (TEq P) ts us := by
  induction ts generalizing us with
  | nil => cases us with
    | nil => exact .nil
    | cons u us => cases h
  | cons t ts ih =>
    cases us with
    | nil => cases h
    | cons u us =>
      simp only [List.map_cons, List.cons.injEq] at h
      refine .cons ⟨h.1, fun p => ⟨(hp p).1 t (by simp), (hp p).2 u (by simp)⟩⟩ (ih h.2 fun p => ⟨?_, ?_⟩)
      · intro t ht; exact (hp p).1 t (List.mem_cons_of_mem _ ht)
      · intro t ht; exact (hp p).2 t (List.mem_cons_of_mem _ ht)

/-- evaluation of states that are related, from simulations at smaller depth -/
theorem Sim.wh {gc : GCtx} {N : Nat} (ih : ∀ n m, n ≤ N → m ≤ N → SimOps gc (ops gc n) (ops gc m)) {n m : Nat}
    (hn : n ≤ N + 1) (hm : m ≤ N + 1) {P : Prop} (hP : P → gc.ProperRules) {w : Pairs} {a b : State} (h : StRel P w a b) :
    Sim P w ((ops gc n).wh a) ((ops gc m).wh b) (fun w' a b => StRel P w' a b ∧ a.Nf ∧ b.Nf) := by
  intro s1 s2 a' s1' b' s2' hr h1 h2
  obtain ⟨n', hd, args, rs, s0, hn', nh, e1, p1, q1, r1⟩ := wh_canon gc n h1
  obtain ⟨m', hd', args', rs', s0', hm', nh', e2, p2, q2, r2⟩ := wh_canon gc m h2
  have he := h.term.1
  rw [e1, e2] at he
  obtain ⟨he1, he2⟩ := Tm.apps_inj nh.notApp nh'.notApp he
  have hargs : List.Forall₂ (TEq P) args args' :=
    forall₂_of_den he2 fun p => ⟨(p1 (h.term.2 p).1).2, (p2 (h.term.2 p).2).2⟩
  obtain ⟨w1, x1, y1, z1⟩ := Sim.newStates h.ctx hargs _ _ _ _ _ _ hr q1 q2
  have hst : StRel P w1 ⟨a.ctx, hd, rs ++ a.stack⟩ ⟨b.ctx, hd', rs' ++ b.stack⟩ :=
    ⟨h.ctx.imp fun _ _ => x1.le.th, ⟨he1, fun p => ⟨(p1 (h.term.2 p).1).1, (p2 (h.term.2 p).2).1⟩⟩,
      List.rel_append z1 (h.stack.imp fun _ _ => x1.le.st)⟩
  cases n' with
  | zero => cases r1
  | succ n' =>
    cases m' with
    | zero => cases r2
    | succ m' =>
      obtain ⟨w2, x2, y2, z2⟩ := Sim.whnfBody (ih n' m' (by omega) (by omega)) hP hst nh nh' _ _ _ _ _ _ y1 r1 r2
      exact ⟨w2, x1.trans x2, y2, z2⟩

end Kontroli
