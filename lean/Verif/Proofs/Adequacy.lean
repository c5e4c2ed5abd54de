import Verif.Proofs.Bidir

/-!
# Running the kernel from an empty heap
-/

namespace Kontroli

/-- The empty heap with an arbitrary oracle for the uniqueness of reference-counted cells. -/
def St.init (rc : Nat → Bool) : St := ⟨[], [], rc⟩

/-- the ghost state of the empty heap -/
def Ghost.empty : Ghost :=
  { ns := 0, nt := 0, gs := fun _ => .kind, gt := fun _ => .kind, rs := fun _ => 0, rt := fun _ => 0,
    wn := fun _ => none }

theorem World.init (R : RuleMap) (eta : Bool) (rc : Nat → Bool) : World R eta Ghost.empty 0 (St.init rc) where
  ns := rfl
  nt := rfl
  st := by intro r w h; simp [St.init] at h
  th := by intro r w h; simp [St.init] at h
  fs := by intro r h; simp [Ghost.empty] at h
  ft := by intro r h; simp [Ghost.empty] at h
  wn := by intro r; rfl
  wk := by intro r st h; simp [Ghost.empty] at h

section
variable {gc : GCtx} {α : Type} {m : M α} {φ : α → Prop} {rc : Nat → Bool}

theorem TriG.noPanic (h : TriG gc Ghost.empty 0 m φ) : m (St.init rc) ≠ .panic :=
  wp_no_panic (h _ (World.init _ _ rc))

theorem TriG.ok (h : TriG gc Ghost.empty 0 m φ) {a : α} {s : St} (e : m (St.init rc) = .ok (a, s)) : φ a := by
  obtain ⟨G', -, -, -, h⟩ := wp_ok (h _ (World.init _ _ rc)) e
  exact h

end

theorem Tri.whnf (gc : GCtx) (n : Nat) (t : STerm) {G : Ghost} {q : ℚ} :
    TriG gc G q (whnf n gc t) (fun u => Red gc.rules gc.eta t.den u.den ∧ Whnf gc.rules gc.eta u.den) :=
  (Tri.whnfTerm (opsOk gc n) t).mono fun _ _ _ h => ⟨h.1, h.2.1⟩

theorem Tri.convertible (gc : GCtx) (n : Nat) (t u : STerm) {G : Ghost} {q : ℚ} :
    TriG gc G q (convertible n gc t u) (fun b => (b = true → Conv gc.rules gc.eta t.den u.den) ∧
      (b = false → Apart gc.rules gc.eta t.den u.den)) :=
  ((opsOk gc n).cv G q [(t, u)]).mono fun _ _ _ h => ⟨fun hb => h.1 hb (t, u) (by simp), fun hb => by
    simpa using h.2 hb⟩

theorem Tri.infer (gc : GCtx) (n : Nat) (lc : LCtx) (t : STerm) {G : Ghost} {q : ℚ} :
    TriG gc G q (infer n gc lc t) (InfPost gc lc t.den) := (iopsOk gc n).inf G q lc t

theorem Tri.check (gc : GCtx) (n : Nat) (lc : LCtx) (t ty : STerm) {G : Ghost} {q : ℚ} :
    TriG gc G q (check n gc lc t ty) (ChkPost gc lc t.den ty.den) := (iopsOk gc n).chk G q lc t ty

mutual
  theorem STerm.toL_den {t : STerm} {l : LTerm} (h : t.toL = some l) : l.den = t.den := by
    cases t with
    | kind => simp [STerm.toL] at h
    | type => simp [STerm.toL] at h; subst h; rfl
    | const c => simp [STerm.toL] at h; subst h; rfl
    | var c => simp [STerm.toL] at h; subst h; rfl
    | lcomb c => simp [STerm.toL] at h; subst h; rfl
    | scomb c =>
      simp only [STerm.toL, Option.map_eq_some_iff] at h
      obtain ⟨c', h1, rfl⟩ := h
      exact SComb.toL_den h1
  theorem SComb.toL_den {t : Comb Str STerm} {l : Comb Str LTerm} (h : SComb.toL t = some l) :
      LComb.den l = SComb.den t := by
    cases t with
    | appl f as =>
      unfold SComb.toL at h
      split at h
      · simp at h
      · next f' hf =>
        split at h
        · simp at h
        · next as' has =>
          simp at h; subst h
          unfold LComb.den SComb.den
          rw [STerm.toL_den hf, STerm.toLList_den has]
    | prod id a b =>
      unfold SComb.toL at h
      split at h
      · simp at h
      · next f' hf =>
        split at h
        · simp at h
        · next as' has =>
          simp at h; subst h
          unfold LComb.den SComb.den
          rw [STerm.toL_den hf, STerm.toL_den has]
    | abst id a b =>
      unfold SComb.toL at h
      split at h
      · simp at h
      · next f' hf =>
        split at h
        · simp at h
        · next as' has =>
          simp at h; subst h
          unfold LComb.den SComb.den
          rw [STerm.toL_den has, STerm.toLOpt_den hf]
  theorem STerm.toLList_den {t : List STerm} {l : List LTerm} (h : STerm.toLList t = some l) :
      LTerm.denList l = STerm.denList t := by
    cases t with
    | nil => simp [STerm.toLList] at h; subst h; rfl
    | cons t ts =>
      unfold STerm.toLList at h
      split at h
      · simp at h
      · next f' hf =>
        split at h
        · simp at h
        · next as' has =>
          simp at h; subst h
          unfold LTerm.denList STerm.denList
          rw [STerm.toL_den hf, STerm.toLList_den has]
  theorem STerm.toLOpt_den {t : Option STerm} {l : Option LTerm} (h : STerm.toLOpt t = some l) {b : Tm} :
      LTerm.denAbs l b = STerm.denAbs t b := by
    cases t with
    | none => simp [STerm.toLOpt] at h; subst h; rfl
    | some t =>
      simp only [STerm.toLOpt, Option.map_eq_some_iff] at h
      obtain ⟨c', h1, rfl⟩ := h
      unfold LTerm.denAbs STerm.denAbs
      rw [STerm.toL_den h1]
end

/-- the plain context of a list of long terms (first = outermost) -/
def denCtx (lc : List LTerm) : List Tm := (lc.map LTerm.den).reverse

theorem lctxOf_den (lc : List LTerm) : LCtx.den (lctxOf lc) = denCtx lc := by
  unfold LCtx.den lctxOf denCtx
  rw [List.map_reverse, List.map_map]
  congr 2
  funext t
  simp

theorem lctxOf_nk (lc : List LTerm) : LCtx.NK (lctxOf lc) := by
  intro e he
  unfold lctxOf at he
  rw [List.mem_reverse] at he
  obtain ⟨t, -, rfl⟩ := List.mem_map.1 he
  rw [STerm.den_ofL]
  exact LTerm.noKind t

section
variable {gc : GCtx} {G : Ghost} {q : ℚ}

theorem Tri.toLTerm (t : STerm) : TriG gc G q (toLTerm t) (fun l => l.den = t.den) :=
  Tri.okOr fun _ h => STerm.toL_den h

/-- What an introduction without its deferred check guarantees. -/
structure IntroPost (gc : GCtx) (i : Intro LTerm) (r : Typing × Option Check) : Prop where
  lc : r.1.lc = []
  /-- the recorded type is typable, or it is the inferred type of the body -/
  ty : (∃ s, Inf gc.theory [] r.1.ty.den s) ∨
    ∃ tm, i = .definition none (some tm) ∧ r.1.tm = some tm ∧ Inf gc.theory [] tm.den r.1.ty.den
  /-- declarations have a sort -/
  decl : (∀ tm oty, i ≠ .definition oty (some tm)) → (∀ ty tm, i ≠ .theorem_ ty tm) →
    ∃ s, IsSort s ∧ Inf gc.theory [] r.1.ty.den s
  /-- a missing type is inferred -/
  infd : ∀ tm, i = .definition none (some tm) → Inf gc.theory [] tm.den r.1.ty.den
  /-- the given type is recorded -/
  given : ∀ ty, (i = .declaration false ty ∨ i = .declaration true ty ∨ (∃ tm, i = .definition (some ty) tm) ∨
    ∃ tm, i = .theorem_ ty tm) → r.1.ty = ty
  /-- the body becomes a rule only for definitions -/
  tm : r.1.tm = match i with
    | .definition _ tm => tm
    | _ => none
  /-- the check to be done: bodies of annotated definitions and of theorems -/
  chk : r.2 = match i with
    | .definition (some ty) (some tm) => some ⟨[], ty, tm⟩
    | .theorem_ ty tm => some ⟨[], ty, tm⟩
    | _ => none

theorem infPost_nil {t : LTerm} {r : STerm × LCtx} (h : InfPost gc [] (STerm.ofL t).den r) :
    Inf gc.theory [] t.den r.1.den := by
  have := (h.2 (by intro e he; simp at he)).1
  rwa [STerm.den_ofL] at this

theorem Tri.declare (n : Nat) (ty : LTerm) :
    TriG gc G q (declare n gc ty) (fun r => r = (⟨[], ty, none⟩, none) ∧ ∃ s, IsSort s ∧ Inf gc.theory [] ty.den s) := by
  unfold Kontroli.declare
  refine Tri.bind (Tri.infer gc n [] (STerm.ofL ty)) ?_
  intro G1 r _ h
  have hI := infPost_nil h
  split
  · next hk => rw [hk] at hI; exact Tri.pure ⟨rfl, _, .kind, hI⟩
  · next hk => rw [hk] at hI; exact Tri.pure ⟨rfl, _, .type, hI⟩
  · exact Tri.throw

theorem Tri.intro (n : Nat) (i : Intro LTerm) : TriG gc G q (intro n gc i) (IntroPost gc i) := by
  cases i with
  | declaration inj ty =>
    unfold Kontroli.intro
    refine (Tri.declare n ty).mono ?_
    rintro _ r _ ⟨rfl, s, hs, hI⟩
    refine ⟨rfl, .inl ⟨s, hI⟩, fun _ _ => ⟨s, hs, hI⟩, (by intro tm h; cases h), ?_, rfl, rfl⟩
    rintro ty' (h | h | ⟨tm, h⟩ | ⟨tm, h⟩) <;> cases h <;> rfl
  | definition oty otm =>
    cases otm with
    | none =>
      cases oty with
      | none => exact Tri.throw
      | some ty =>
        unfold Kontroli.intro
        refine (Tri.declare n ty).mono ?_
        rintro _ r _ ⟨rfl, s, hs, hI⟩
        refine ⟨rfl, .inl ⟨s, hI⟩, fun _ _ => ⟨s, hs, hI⟩, (by intro tm h; cases h), ?_, rfl, rfl⟩
        rintro ty' (h | h | ⟨tm, h⟩ | ⟨tm, h⟩) <;> cases h <;> rfl
    | some tm =>
      unfold Kontroli.intro Kontroli.define
      cases oty with
      | some ty =>
        refine Tri.bind (Tri.infer gc n [] (STerm.ofL ty)) ?_
        intro G1 r _ h
        refine Tri.pure ⟨rfl, .inl ⟨_, infPost_nil h⟩, fun h => absurd rfl (h tm _), (by intro tm h; cases h), ?_, rfl, rfl⟩
        rintro ty' (h | h | ⟨tm, h⟩ | ⟨tm, h⟩) <;> cases h <;> rfl
      | none =>
        refine Tri.bind (Tri.infer gc n [] (STerm.ofL tm)) ?_
        intro G1 r _ h
        refine Tri.bind (Tri.toLTerm r.1) ?_
        intro G2 l _ hl
        have hI : Inf gc.theory [] tm.den l.den := hl ▸ infPost_nil h
        refine Tri.pure ⟨rfl, .inr ⟨tm, rfl, rfl, hI⟩, fun h => absurd rfl (h tm _), (by intro tm h; cases h; exact hI),
          ?_, rfl, rfl⟩
        · rintro ty' (h | h | ⟨tm, h⟩ | ⟨tm, h⟩) <;> cases h
  | theorem_ ty tm =>
    unfold Kontroli.intro Kontroli.theorem_
    refine Tri.bind (Tri.infer gc n [] (STerm.ofL ty)) ?_
    intro G1 r _ h
    refine Tri.pure ⟨rfl, .inl ⟨_, infPost_nil h⟩, fun _ h => absurd rfl (h ty tm), (by intro tm h; cases h), ?_, rfl, rfl⟩
    rintro ty' (h | h | ⟨tm, h⟩ | ⟨tm, h⟩) <;> cases h <;> rfl

theorem Tri.rewrite (n : Nat) (r : TRule) :
    TriG gc G q (rewrite n gc r) (fun c => c.lc = r.ctx ∧ c.tm = r.rhs ∧
      Inf gc.theory (denCtx r.ctx) r.lhs.den c.ty.den) := by
  unfold Kontroli.rewrite
  refine Tri.bind (Tri.infer gc n _ (STerm.ofL r.lhs)) ?_
  intro G1 t _ h
  refine Tri.bind (Tri.toLTerm t.1) ?_
  intro G2 l _ hl
  refine Tri.pure ⟨rfl, rfl, ?_⟩
  have := (h.2 (lctxOf_nk _)).1
  rw [lctxOf_den, STerm.den_ofL] at this
  simp only [hl]
  exact this

theorem Tri.checkCheck (n : Nat) (c : Check) :
    TriG gc G q (Check.check n gc c) (fun _ => Chk gc.theory (denCtx c.lc) c.tm.den c.ty.den) := by
  unfold Kontroli.Check.check
  refine Tri.bind (Tri.check gc n _ (STerm.ofL c.tm) (STerm.ofL c.ty)) ?_
  intro G1 r _ h
  refine Tri.ite (fun hr => Tri.pure ?_) fun _ => Tri.throw
  have := h.2 (lctxOf_nk _) (by rw [STerm.den_ofL]; exact LTerm.noKind _) hr
  rwa [lctxOf_den, STerm.den_ofL, STerm.den_ofL] at this

end

end Kontroli
