import Verif.Proofs.SimConv
import Verif.Proofs.Complete

/-!
# Simulation of inference and checking

Two runs on the same term, in local and global contexts that denote the same.
-/

namespace Kontroli

/-- the two computations agree, in any two heaps -/
def Agree {α β : Type} (m : M α) (m' : M β) (Q : α → β → Prop) : Prop :=
  ∀ s s', ResRel (fun p q => Q p.1 q.1) (m s) (m' s')

section
variable {α β α' β' : Type}

theorem Agree.pure {a : α} {b : β} {Q : α → β → Prop} (h : Q a b) : Agree (M.pure a) (M.pure b) Q := fun _ _ => h

theorem Agree.throw {e : KError} {Q : α → β → Prop} : Agree (M.throw e) (M.throw e) Q := fun _ _ => rfl

theorem Agree.timeout_l {m : M β} {Q : α → β → Prop} : Agree M.timeout m Q := fun _ s' => by
  unfold M.timeout ResRel; rcases m s' with _ | _ | _ | _ <;> trivial

theorem Agree.timeout_r {m : M α} {Q : α → β → Prop} : Agree m M.timeout Q := fun s _ => by
  unfold M.timeout ResRel; rcases m s with _ | _ | _ | _ <;> trivial

theorem Agree.bind {m : M α} {m' : M β} {f : α → M α'} {f' : β → M β'} {Q : α → β → Prop} {Q' : α' → β' → Prop}
    (h : Agree m m' Q) (h' : ∀ a b, Q a b → Agree (f a) (f' b) Q') : Agree (M.bind m f) (M.bind m' f') Q' := by
  intro s s'
  have := h s s'
  unfold M.bind
  rcases e : m s with ⟨a, s1⟩ | x | _ | _ <;> rcases e' : m' s' with ⟨b, s1'⟩ | y | _ | _ <;> rw [e, e'] at this <;>
    try trivial
  · exact h' a b this s1 s1'
  · dsimp only
    generalize f a s1 = r
    cases r <;> trivial
  · dsimp only
    generalize f a s1 = r
    cases r <;> trivial

theorem Agree.mono {m : M α} {m' : M β} {Q Q' : α → β → Prop} (h : Agree m m' Q) (hq : ∀ a b, Q a b → Q' a b) :
    Agree m m' Q' := by
  intro s s'
  have := h s s'
  rcases e : m s with ⟨a, s1⟩ | x | _ | _ <;> rcases e' : m' s' with ⟨b, s1'⟩ | y | _ | _ <;> rw [e, e'] at this <;>
    first | exact hq _ _ this | exact this

/-- computations without errors -/
theorem Agree.noErr {m : M α} {m' : M β} {Q : α → β → Prop} (h : NoErr m) (h' : NoErr m')
    (hq : ∀ s1 s2 a s1' b s2', m s1 = .ok (a, s1') → m' s2 = .ok (b, s2') → Q a b) : Agree m m' Q := by
  intro s s'
  rcases e : m s with ⟨a, s1⟩ | x | _ | _ <;> rcases e' : m' s' with ⟨b, s1'⟩ | y | _ | _ <;>
    first | exact hq _ _ _ _ _ _ e e' | exact absurd e (h _ _) | exact absurd e' (h' _ _) | trivial

theorem Agree.okOr {e : KError} {o : Option α} {o' : Option β} {Q : α → β → Prop} (h : Option.Rel Q o o') :
    Agree (M.okOr e o) (M.okOr e o') Q := by
  cases h with
  | some h => exact .pure h
  | none => exact .throw

end

/-- proper terms that denote the same -/
abbrev TEqP (t u : STerm) : Prop := TEq True t u

theorem TEqP.mk {t u : STerm} (h : t.den = u.den) (ht : t.Proper) (hu : u.Proper) : TEqP t u := ⟨h, fun _ => ⟨ht, hu⟩⟩
theorem TEqP.refl {t : STerm} (ht : t.Proper) : TEqP t t := .mk rfl ht ht

/-- local contexts that denote the same -/
abbrev LRel (lc lc' : LCtx) : Prop := List.Forall₂ TEqP lc lc'

/-- proper types that denote the same -/
def LEqP (t u : LTerm) : Prop := t.den = u.den ∧ t.Proper ∧ u.Proper

theorem LEqP.ofL {t u : LTerm} (h : LEqP t u) : TEqP (STerm.ofL t) (STerm.ofL u) :=
  .mk (by simpa using h.1) ((STerm.proper_ofL _).2 h.2.1) ((STerm.proper_ofL _).2 h.2.2)

theorem LEqP.refl {t : LTerm} (h : t.Proper) : LEqP t t := ⟨rfl, h, h⟩

/-- global contexts with the same rules and types that denote the same -/
structure GRel (gc gc' : GCtx) : Prop where
  rules : gc'.rules = gc.rules
  eta : gc'.eta = gc.eta
  proper : gc.ProperRules
  types : ∀ s, Option.Rel LEqP (gc.types s) (gc'.types s)

/-- the evaluator does not look at types -/
theorem ops_congr {gc gc' : GCtx} (hr : gc'.rules = gc.rules) (he : gc'.eta = gc.eta) (n : Nat) : ops gc' n = ops gc n := by
  induction n with
  | zero => rfl
  | succ n ih =>
    have h1 : whnfBody gc' = whnfBody gc := by
      funext o st
      unfold whnfBody GCtx.getRules
      rw [hr]
    have h2 : cvBody gc' = cvBody gc := by
      funext o l
      unfold cvBody
      rw [he]
    simp only [ops, ih, h1, h2]

theorem STerm.Proper.atom {t : STerm} (h : t.Proper) (ha : t.den = .kind ∨ t.den = .type) :
    (t.den = .kind → t = .kind) ∧ (t.den = .type → t = .type) := by
  have key : ∀ c, t.getComb = some c → False := by
    intro c hc
    rw [STerm.proper_getComb hc] at h
    rw [STerm.den_getComb hc] at ha
    cases c with
    | prod i a b => simp [SComb.den] at ha
    | abst i a b => cases a <;> simp [SComb.den, STerm.denAbs] at ha
    | appl f args =>
      rw [show SComb.den (.appl f args) = (STerm.scomb (.appl f args)).den from rfl] at ha
      by_cases hn : args = []
      · obtain ⟨s, rfl⟩ := h.2.2 hn
        subst hn
        simp [SComb.den, STerm.denList, STerm.den, Tm.apps] at ha
      · obtain ⟨g, a, e⟩ := den_appl_app f hn
        rw [e] at ha
        simp at ha
  cases t with
  | kind => exact ⟨fun _ => rfl, fun h => by cases h⟩
  | type => exact ⟨fun h => (by cases h), fun _ => rfl⟩
  | const s => simp [STerm.den] at ha
  | var s => simp [STerm.den] at ha
  | lcomb c => exact absurd rfl (key _)
  | scomb c => exact absurd rfl (key _)

/-- the cases made by inference on inferred types -/
inductive SortCase : STerm → STerm → Prop
  | kind : SortCase .kind .kind
  | type : SortCase .type .type
  | other {t u : STerm} : t ≠ .kind → t ≠ .type → u ≠ .kind → u ≠ .type → SortCase t u

theorem TEqP.sort {t u : STerm} (h : TEqP t u) : SortCase t u := by
  obtain ⟨e, hp⟩ := h
  obtain ⟨p, p'⟩ := hp trivial
  by_cases hk : t.den = .kind
  · have h1 := (p.atom (.inl hk)).1 hk
    have h2 := (p'.atom (.inl (e ▸ hk))).1 (e ▸ hk)
    rw [h1, h2]; exact .kind
  · by_cases ht : t.den = .type
    · have h1 := (p.atom (.inr ht)).2 ht
      have h2 := (p'.atom (.inr (e ▸ ht))).2 (e ▸ ht)
      rw [h1, h2]; exact .type
    · refine .other ?_ ?_ ?_ ?_
      · rintro rfl; exact hk rfl
      · rintro rfl; exact ht rfl
      · rintro rfl; exact hk e
      · rintro rfl; exact ht e

theorem Sh.getProd {t u : STerm} (ht : Sh t) (hu : Sh u) (h : TEqP t u) :
    Option.Rel (fun p q => TEqP p.2.1 q.2.1 ∧ TEqP p.2.2 q.2.2) t.getProd u.getProd := by
  have happ : ∀ f args, (STerm.scomb (.appl f args)).getProd = none := fun _ _ => rfl
  cases ht with
  | head nt =>
    cases hu with
    | head nu =>
      have hd := h.head nt nu
      cases hd with
      | prod h1 h2 e1 e2 =>
        simp only [STerm.getProd, h1, h2]
        exact .some ⟨e1, e2⟩
      | abst h1 h2 _ =>
        simp only [STerm.getProd, h1, h2]
        exact .none
      | _ => exact .none
    | @app f args _ hn =>
      obtain ⟨g, a, e⟩ := den_appl_app f hn
      exact absurd (h.1.trans e) (nt.notApp g a)
  | @app f args _ hn =>
    obtain ⟨g, a, e⟩ := den_appl_app f hn
    cases hu with
    | head nu => exact absurd (h.1.symm.trans e) (nu.notApp g a)
    | app => exact .none

section
variable {gc gc' : GCtx} (hg : GRel gc gc')
include hg

theorem Agree.whnfTerm {n m : Nat} {t u : STerm} (h : TEqP t u) :
    Agree (whnfTerm (ops gc n) t) (whnfTerm (ops gc' m) u) (fun t u => TEqP t u ∧ Sh t ∧ Sh u) := by
  rw [ops_congr hg.rules hg.eta]
  refine .noErr (.whnfTerm (opsNE gc n) t) (.whnfTerm (opsNE gc m) u) fun s1 s2 a s1' b s2' h1 h2 => ?_
  exact (whnfTerm_sim (simOps gc n m) (fun _ => hg.proper) h h1 h2).2.2

theorem Agree.cv {n m : Nat} {t u t' u' : STerm} (h : t.den = t'.den) (h' : u.den = u'.den) :
    Agree ((ops gc n).cv [(t, u)]) ((ops gc' m).cv [(t', u')]) (fun b b' => b = b') := by
  rw [ops_congr hg.rules hg.eta]
  refine .noErr ((opsNE gc n).cv _) ((opsNE gc m).cv _) fun s1 s2 a s1' b s2' h1 h2 => ?_
  exact ((simOps gc n m).cv _ _ (.cons (.inl ⟨h, h'⟩) .nil) _ _ _ _ _ _ h1 h2).2.2

omit hg in
theorem Agree.shift {t u : STerm} (h : TEqP t u) (k : Nat) : Agree (shift t k) (shift u k) TEqP := by
  refine .noErr (.shift t k) (.shift u k) fun s1 s2 a s1' b s2' h1 h2 => ?_
  obtain ⟨-, e1, p1⟩ := shift_heap h1
  obtain ⟨-, e2, p2⟩ := shift_heap h2
  exact .mk (by rw [e1, e2, h.1]) (p1 (h.2 trivial).1) (p2 (h.2 trivial).2)

omit hg in
theorem Agree.subst {t u v : STerm} (h : TEqP t u) (hv : v.Proper) : Agree (subst t v) (subst u v) TEqP := by
  refine .noErr (.subst t v) (.subst u v) fun s1 s2 a s1' b s2' h1 h2 => ?_
  obtain ⟨-, e1, p1⟩ := subst_heap h1
  obtain ⟨-, e2, p2⟩ := subst_heap h2
  exact .mk (by rw [e1, e2, h.1]) (p1 (h.2 trivial).1 hv) (p2 (h.2 trivial).2 hv)

omit hg in
theorem Agree.lctxGet {lc lc' : LCtx} (h : LRel lc lc') (n : Nat) : Agree (lctxGet lc n) (lctxGet lc' n) TEqP := by
  unfold Kontroli.lctxGet
  rcases forall₂_get h n with ⟨e, e'⟩ | ⟨a, b, e, e', hab⟩ <;> rw [e, e']
  · exact .throw
  · exact .shift hab _

/-- entry points of inference that agree -/
structure AgreeI (ic ic' : IOps) : Prop where
  inf : ∀ {lc lc' : LCtx} {t : STerm}, LRel lc lc' → t.Proper →
    Agree (ic.inf lc t) (ic'.inf lc' t) (fun r r' => TEqP r.1 r'.1 ∧ LRel r.2 r'.2)
  chk : ∀ {lc lc' : LCtx} {t ty ty' : STerm}, LRel lc lc' → t.Proper → TEqP ty ty' →
    Agree (ic.chk lc t ty) (ic'.chk lc' t ty') (fun r r' => r.1 = r'.1 ∧ LRel r.2 r'.2)

variable {n m : Nat} {ic ic' : IOps} (hi : AgreeI ic ic')
include hi

omit hg hi in
theorem Agree.bindL {α β : Type} {lc lc' : LCtx} (h : LRel lc lc') {A A' : STerm} (hA : TEqP A A') {f : LCtx → M (α × LCtx)}
    {f' : LCtx → M (β × LCtx)} {Q : α → β → Prop}
    (hf : ∀ lc lc', LRel lc lc' → Agree (f lc) (f' lc') (fun r r' => Q r.1 r'.1 ∧ LRel r.2 r'.2)) :
    Agree (bindL lc A f) (bindL lc' A' f') (fun r r' => Q r.1 r'.1 ∧ LRel r.2 r'.2) := by
  refine (hf _ _ (.cons hA h)).bind fun r r' hr => .pure ⟨hr.1, ?_⟩
  obtain ⟨-, hr⟩ := hr
  generalize r.2 = l, r'.2 = l' at hr
  cases hr with
  | nil => exact .nil
  | cons _ h => exact h

omit hg in
theorem Agree.bindOfType {α β : Type} {lc lc' : LCtx} (h : LRel lc lc') {A : STerm} (hA : A.Proper)
    {f : LCtx → M (α × LCtx)} {f' : LCtx → M (β × LCtx)} {Q : α → β → Prop}
    (hf : ∀ lc lc', LRel lc lc' → Agree (f lc) (f' lc') (fun r r' => Q r.1 r'.1 ∧ LRel r.2 r'.2)) :
    Agree (bindOfType ic lc A f) (bindOfType ic' lc' A f') (fun r r' => Q r.1 r'.1 ∧ LRel r.2 r'.2) := by
  refine (hi.inf h hA).bind fun r r' hr => ?_
  obtain ⟨ty, lc1⟩ := r
  obtain ⟨ty', lc1'⟩ := r'
  obtain ⟨hr, hl⟩ := hr
  have hs := hr.sort
  dsimp only at *
  cases hs with
  | kind => exact .throw
  | type => exact .bindL hl (.refl hA) hf
  | other h1 h2 h3 h4 => cases ty <;> cases ty' <;> first | exact .throw | exact absurd rfl h2 | exact absurd rfl h4

theorem Agree.inferArgs {args : List STerm} (ha : ∀ a ∈ args, a.Proper) {ty ty' : STerm} (ht : TEqP ty ty') {lc lc' : LCtx}
    (h : LRel lc lc') :
    Agree (inferArgs (ops gc n) ic args ty lc) (inferArgs (ops gc' m) ic' args ty' lc')
      (fun r r' => TEqP r.1 r'.1 ∧ LRel r.2 r'.2) := by
  induction args generalizing ty ty' lc lc' with
  | nil => exact .pure ⟨ht, h⟩
  | cons a args ih =>
    refine (Agree.whnfTerm hg ht).bind fun w w' hw => ?_
    refine (Agree.okOr (hw.2.1.getProd hw.2.2 hw.1)).bind fun p p' hp => ?_
    refine (hi.chk h (ha a (by simp)) hp.1).bind fun r r' hr => ?_
    rw [hr.1]
    split
    · exact (Agree.subst hp.2 (ha a (by simp))).bind fun t t' ht =>
        ih (fun b hb => ha b (List.mem_cons_of_mem _ hb)) ht hr.2
    · exact .throw

theorem Agree.inferComb {c : SComb} (hc : SComb.Proper c) {lc lc' : LCtx} (h : LRel lc lc') :
    Agree (inferComb (ops gc n) ic lc c) (inferComb (ops gc' m) ic' lc' c)
      (fun r r' => TEqP r.1 r'.1 ∧ LRel r.2 r'.2) := by
  cases c with
  | appl f args =>
    exact (hi.inf h hc.1).bind fun r r' hr => .inferArgs hg hi ((STerm.properList_iff _).1 hc.2.1) hr.1 hr.2
  | prod id A B =>
    refine (Agree.bindOfType (Q := TEqP) hi h hc.1 fun lc lc' hl => hi.inf hl hc.2).bind fun r r' hr => ?_
    obtain ⟨ty, lc1⟩ := r
    obtain ⟨ty', lc1'⟩ := r'
    obtain ⟨hr, hl⟩ := hr
    have hs := hr.sort
    dsimp only at *
    cases hs with
    | kind => exact .pure ⟨.refl trivial, hl⟩
    | type => exact .pure ⟨.refl trivial, hl⟩
    | other h1 h2 h3 h4 =>
      cases ty <;> cases ty' <;>
        first | exact .throw | exact absurd rfl h1 | exact absurd rfl h2 | exact absurd rfl h3 | exact absurd rfl h4
  | abst id oA B =>
    cases oA with
    | none => exact .throw
    | some A =>
      refine (Agree.bindOfType (Q := TEqP) hi h hc.1 fun lc lc' hl => hi.inf hl hc.2).bind fun r r' hr => ?_
      obtain ⟨ty, lc1⟩ := r
      obtain ⟨ty', lc1'⟩ := r'
      obtain ⟨hr, hl⟩ := hr
      have hs := hr.sort
      dsimp only at *
      have hres : TEqP (.scomb (.prod id A ty)) (.scomb (.prod id A ty')) := by
        refine .mk ?_ ⟨hc.1, (hr.2 trivial).1⟩ ⟨hc.1, (hr.2 trivial).2⟩
        simp [STerm.den, SComb.den, hr.1]
      cases hs with
      | kind => exact .throw
      | type => exact .pure ⟨hres, hl⟩
      | other h1 h2 h3 h4 =>
        cases ty <;> cases ty' <;>
          first | exact .pure ⟨hres, hl⟩ | exact absurd rfl h1 | exact absurd rfl h2 | exact absurd rfl h3 | exact absurd rfl h4

theorem Agree.inferBody {t : STerm} (ht : t.Proper) {lc lc' : LCtx} (h : LRel lc lc') :
    Agree (inferBody gc (ops gc n) ic lc t) (inferBody gc' (ops gc' m) ic' lc' t)
      (fun r r' => TEqP r.1 r'.1 ∧ LRel r.2 r'.2) := by
  cases t with
  | kind => exact .throw
  | type => exact .pure ⟨.refl trivial, h⟩
  | const c => exact (Agree.okOr (hg.types c)).bind fun A A' hA => .pure ⟨hA.ofL, h⟩
  | var v => exact (Agree.lctxGet h v).bind fun A A' hA => .pure ⟨hA, h⟩
  | scomb c => exact .inferComb hg hi ht h
  | lcomb c => exact .inferComb hg hi ((SComb.proper_ofL c).2 ht) h

theorem Agree.checkDom {o : Option STerm} (ho : STerm.ProperOpt o) {A A' : STerm} (hA : TEqP A A') {lc lc' : LCtx}
    (h : LRel lc lc') :
    Agree (checkDom (ops gc n) ic lc o A) (checkDom (ops gc' m) ic' lc' o A') (fun r r' => r.1 = r'.1 ∧ LRel r.2 r'.2) := by
  cases o with
  | none => exact .pure ⟨rfl, h⟩
  | some B =>
    refine (hi.inf h ho).bind fun r r' hr => ?_
    exact (Agree.cv hg rfl hA.1).bind fun b b' hb => .pure ⟨hb, hr.2⟩

omit hg hi in
theorem STerm.getAbst_comb {t : STerm} {id : Str} {a : Option STerm} {b : STerm} (h : t.getAbst = some (id, a, b)) :
    t.getComb = some (.abst id a b) := by
  unfold STerm.getAbst at h
  split at h
  · cases h; rfl
  · cases h; rfl
  · cases h

theorem Agree.checkBody {t : STerm} (ht : t.Proper) {A A' : STerm} (hA : TEqP A A') {lc lc' : LCtx} (h : LRel lc lc') :
    Agree (checkBody (ops gc n) ic lc t A) (checkBody (ops gc' m) ic' lc' t A') (fun r r' => r.1 = r'.1 ∧ LRel r.2 r'.2) := by
  unfold Kontroli.checkBody
  cases e : t.getAbst with
  | none =>
    dsimp only
    refine (hi.inf h ht).bind fun r r' hr => ?_
    exact (Agree.cv hg hr.1.1 hA.1).bind fun b b' hb => .pure ⟨hb, hr.2⟩
  | some x =>
    obtain ⟨id, a, b⟩ := x
    have hp := (STerm.proper_getComb (STerm.getAbst_comb e)).1 ht
    dsimp only
    refine (Agree.whnfTerm hg hA).bind fun w w' hw => ?_
    refine (Agree.okOr (hw.2.1.getProd hw.2.2 hw.1)).bind fun p p' hp' => ?_
    refine (Agree.checkDom hg hi hp.1 hp'.1 h).bind fun r r' hr => ?_
    rw [hr.1]
    split
    · exact .bindL hr.2 hp'.1 fun lc lc' hl => hi.chk hl hp.2 hp'.2
    · exact .pure ⟨rfl, hr.2⟩

end

/-- Inference and checking, run twice in contexts that denote the same, with any two oracles and depths, agree. -/
theorem agreeI {gc gc' : GCtx} (hg : GRel gc gc') (n m : Nat) : AgreeI (iops gc n) (iops gc' m) := by
  induction n generalizing m with
  | zero => exact ⟨fun _ _ => .timeout_l, fun _ _ _ => .timeout_l⟩
  | succ n ih =>
    cases m with
    | zero => exact ⟨fun _ _ => .timeout_r, fun _ _ _ => .timeout_r⟩
    | succ m => exact ⟨fun h ht => .inferBody hg (ih m) ht h, fun h ht hA => .checkBody hg (ih m) ht hA h⟩

/-! ## The kernel -/

/-- checks that denote the same -/
structure CheckRel (c c' : Check) : Prop where
  lc : c'.lc = c.lc
  tm : c'.tm = c.tm
  ty : LEqP c.ty c'.ty
  proper : (∀ A ∈ c.lc, A.Proper) ∧ c.tm.Proper

/-- typings that denote the same -/
structure TypingRel (t t' : Typing) : Prop where
  tm : t'.tm = t.tm
  ty : LEqP t.ty t'.ty
  proper : ∀ u, t.tm = some u → u.Proper

mutual
  theorem STerm.toL_proper {t : STerm} {l : LTerm} (h : t.toL = some l) (hp : t.Proper) : l.Proper := by
    cases t with
    | kind => simp [STerm.toL] at h
    | type => simp [STerm.toL] at h; subst h; trivial
    | const c => simp [STerm.toL] at h; subst h; trivial
    | var c => simp [STerm.toL] at h; subst h; trivial
    | lcomb c => simp [STerm.toL] at h; subst h; exact hp
    | scomb c =>
      simp only [STerm.toL, Option.map_eq_some_iff] at h
      obtain ⟨c', h1, rfl⟩ := h
      exact SComb.toL_proper h1 hp
  theorem SComb.toL_proper {t : Comb Str STerm} {l : Comb Str LTerm} (h : SComb.toL t = some l) (hp : SComb.Proper t) :
      LComb.Proper l := by
    cases t with
    | appl f args =>
      unfold SComb.toL at h
      cases hf : f.toL with
      | none => rw [hf] at h; cases h
      | some f' =>
        rw [hf] at h
        cases has : STerm.toLList args with
        | none => rw [has] at h; cases h
        | some as' =>
          rw [has] at h
          cases h
          refine ⟨STerm.toL_proper hf hp.1, STerm.toLList_proper has hp.2.1, fun e => ?_⟩
          subst e
          cases args with
          | nil =>
            obtain ⟨s, rfl⟩ := hp.2.2 rfl
            simp [STerm.toL] at hf
            exact ⟨s, hf.symm⟩
          | cons a as =>
            unfold STerm.toLList at has
            cases ha : a.toL <;> rw [ha] at has
            · cases has
            · cases has' : STerm.toLList as <;> rw [has'] at has <;> cases has
    | prod id a b =>
      unfold SComb.toL at h
      cases hf : a.toL with
      | none => rw [hf] at h; cases h
      | some f' =>
        rw [hf] at h
        cases has : b.toL with
        | none => rw [has] at h; cases h
        | some as' =>
          rw [has] at h
          cases h
          exact ⟨STerm.toL_proper hf hp.1, STerm.toL_proper has hp.2⟩
    | abst id a b =>
      unfold SComb.toL at h
      cases hf : STerm.toLOpt a with
      | none => rw [hf] at h; cases h
      | some f' =>
        rw [hf] at h
        cases has : b.toL with
        | none => rw [has] at h; cases h
        | some as' =>
          rw [has] at h
          cases h
          exact ⟨STerm.toLOpt_proper hf hp.1, STerm.toL_proper has hp.2⟩
  theorem STerm.toLList_proper {t : List STerm} {l : List LTerm} (h : STerm.toLList t = some l) (hp : STerm.ProperList t) :
      LTerm.ProperList l := by
    cases t with
    | nil => simp [STerm.toLList] at h; subst h; trivial
    | cons t ts =>
      unfold STerm.toLList at h
      cases hf : t.toL with
      | none => rw [hf] at h; cases h
      | some f' =>
        rw [hf] at h
        cases has : STerm.toLList ts with
        | none => rw [has] at h; cases h
        | some as' =>
          rw [has] at h
          cases h
          exact ⟨STerm.toL_proper hf hp.1, STerm.toLList_proper has hp.2⟩
  theorem STerm.toLOpt_proper {t : Option STerm} {l : Option LTerm} (h : STerm.toLOpt t = some l) (hp : STerm.ProperOpt t) :
      LTerm.ProperOpt l := by
    cases t with
    | none => simp [STerm.toLOpt] at h; subst h; trivial
    | some t =>
      simp only [STerm.toLOpt, Option.map_eq_some_iff] at h
      obtain ⟨u, h1, rfl⟩ := h
      exact STerm.toL_proper h1 hp
end

theorem TEqP.toL {t u : STerm} (h : TEqP t u) : Option.Rel LEqP t.toL u.toL := by
  have key : ∀ {t u : STerm}, TEqP t u → ∀ l, t.toL = some l → ∃ l', u.toL = some l' ∧ LEqP l l' := by
    intro t u h l hl
    have hk : u.den.NoKind := by rw [← h.1, ← STerm.toL_den hl]; exact LTerm.noKind l
    obtain ⟨l', hl'⟩ := STerm.toL_isSome hk
    exact ⟨l', hl', by rw [STerm.toL_den hl, STerm.toL_den hl', h.1], STerm.toL_proper hl (h.2 trivial).1,
      STerm.toL_proper hl' (h.2 trivial).2⟩
  cases e : t.toL with
  | some l =>
    obtain ⟨l', e', hl⟩ := key h l e
    rw [e']; exact .some hl
  | none =>
    cases e' : u.toL with
    | none => exact .none
    | some l' =>
      obtain ⟨l, e'', -⟩ := key h.symm l' e'
      rw [e] at e''; cases e''

section
variable {gc gc' : GCtx} (hg : GRel gc gc') (n m : Nat)
include hg

theorem Agree.infer {lc lc' : LCtx} (h : LRel lc lc') {t : STerm} (ht : t.Proper) :
    Agree (infer n gc lc t) (infer m gc' lc' t) (fun r r' => TEqP r.1 r'.1 ∧ LRel r.2 r'.2) :=
  (agreeI hg n m).inf h ht

theorem Agree.check {lc lc' : LCtx} (h : LRel lc lc') {t : STerm} (ht : t.Proper) {A A' : STerm} (hA : TEqP A A') :
    Agree (check n gc lc t A) (check m gc' lc' t A') (fun r r' => r.1 = r'.1 ∧ LRel r.2 r'.2) :=
  (agreeI hg n m).chk h ht hA

theorem Agree.declare {A : LTerm} (hA : A.Proper) :
    Agree (declare n gc A) (declare m gc' A) (fun r r' => TypingRel r.1 r'.1 ∧ Option.Rel CheckRel r.2 r'.2) := by
  refine (Agree.infer hg n m .nil ((STerm.proper_ofL A).2 hA)).bind fun r r' hr => ?_
  obtain ⟨ty, lc1⟩ := r
  obtain ⟨ty', lc1'⟩ := r'
  obtain ⟨hr, -⟩ := hr
  have hs := hr.sort
  have hres : TypingRel ⟨[], A, none⟩ ⟨[], A, none⟩ := ⟨rfl, .refl hA, fun u h => by cases h⟩
  dsimp only at *
  cases hs with
  | kind => exact .pure ⟨hres, .none⟩
  | type => exact .pure ⟨hres, .none⟩
  | other h1 h2 h3 h4 =>
    cases ty <;> cases ty' <;>
      first | exact .throw | exact absurd rfl h1 | exact absurd rfl h2 | exact absurd rfl h3 | exact absurd rfl h4

theorem Agree.intro {i : Intro LTerm} (hi : i.Proper) :
    Agree (intro n gc i) (intro m gc' i) (fun r r' => TypingRel r.1 r'.1 ∧ Option.Rel CheckRel r.2 r'.2) := by
  cases i with
  | declaration inj ty => exact .declare hg n m hi
  | theorem_ ty tm =>
    refine (Agree.infer hg n m .nil ((STerm.proper_ofL ty).2 hi.1)).bind fun r r' hr => .pure ⟨⟨rfl, .refl hi.1, ?_⟩, .some ?_⟩
    · intro u h; cases h
    · exact ⟨rfl, rfl, .refl hi.1, by simp, hi.2⟩
  | definition oty otm =>
    cases otm with
    | none =>
      cases oty with
      | none => exact .throw
      | some ty => exact .declare hg n m hi.1
    | some tm =>
      cases oty with
      | some ty =>
        refine (Agree.infer hg n m .nil ((STerm.proper_ofL ty).2 hi.1)).bind fun r r' hr =>
          .pure ⟨⟨rfl, .refl hi.1, ?_⟩, .some ?_⟩
        · intro u h; cases h; exact hi.2
        · exact ⟨rfl, rfl, .refl hi.1, by simp, hi.2⟩
      | none =>
        refine (Agree.infer hg n m .nil ((STerm.proper_ofL tm).2 hi.2)).bind fun r r' hr => ?_
        refine (Agree.okOr hr.1.toL).bind fun A A' hA => .pure ⟨⟨rfl, hA, ?_⟩, .none⟩
        intro u h; cases h; exact hi.2

omit hg in
theorem lctxOf_rel {lc : List LTerm} (h : ∀ A ∈ lc, A.Proper) : LRel (lctxOf lc) (lctxOf lc) := by
  unfold lctxOf
  refine List.rel_reverse ?_
  induction lc with
  | nil => exact .nil
  | cons A lc ih =>
    exact .cons (.refl ((STerm.proper_ofL A).2 (h A (by simp)))) (ih fun B hB => h B (List.mem_cons_of_mem _ hB))

theorem Agree.rewrite {r : TRule} (hc : ∀ A ∈ r.ctx, A.Proper) (hl : r.lhs.Proper) (hr : r.rhs.Proper) :
    Agree (rewrite n gc r) (rewrite m gc' r) CheckRel := by
  refine (Agree.infer hg n m (lctxOf_rel hc) ((STerm.proper_ofL _).2 hl)).bind fun t t' ht => ?_
  exact (Agree.okOr ht.1.toL).bind fun A A' hA => .pure ⟨rfl, rfl, hA, hc, hr⟩

theorem Agree.checkCheck {c c' : Check} (h : CheckRel c c') :
    Agree (Check.check n gc c) (Check.check m gc' c') (fun _ _ => True) := by
  unfold Check.check
  rw [h.lc, h.tm]
  refine (Agree.check hg n m (lctxOf_rel h.proper.1) ((STerm.proper_ofL _).2 h.proper.2) h.ty.ofL).bind fun r r' hr => ?_
  rw [hr.1]
  split
  · exact .pure trivial
  · exact .throw

end

end Kontroli
