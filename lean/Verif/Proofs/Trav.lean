import Verif.Spec.Proper
import Verif.Proofs.Machine

/-!
# Substitution as a traversal of the plain term

`applySubst` calls its closure at the free variables of the term, from left to right, except that the body of an abstraction comes
before its annotation.  The order depends only on the plain term denoted.
-/

namespace Kontroli

/-- the state without the oracle -/
abbrev Heap := List WState × List Thunk

/-- the heap of a state -/
def St.heap (s : St) : Heap := (s.states, s.thunks)

@[simp] theorem St.heap_ticked (s : St) : s.ticked.heap = s.heap := rfl

theorem STerm.properList_iff (ts : List STerm) : STerm.ProperList ts ↔ ∀ t ∈ ts, t.Proper := by
  induction ts with
  | nil => simp [STerm.ProperList]
  | cons t ts ih => simp [STerm.ProperList, ih]

theorem LTerm.properList_iff (ts : List LTerm) : LTerm.ProperList ts ↔ ∀ t ∈ ts, t.Proper := by
  induction ts with
  | nil => simp [LTerm.ProperList]
  | cons t ts ih => simp [LTerm.ProperList, ih]

@[simp] theorem STerm.proper_ofL (t : LTerm) : (STerm.ofL t).Proper ↔ t.Proper := by
  cases t <;> simp [STerm.ofL, STerm.Proper, LTerm.Proper]

theorem STerm.ofL_const {t : LTerm} {s : Sym} : STerm.ofL t = .const s ↔ t = .const s := by
  cases t <;> simp [STerm.ofL]

@[simp] theorem SComb.proper_ofL (c : LComb) : SComb.Proper (SComb.ofL c) ↔ LComb.Proper c := by
  cases c with
  | appl f args =>
    simp [SComb.ofL, SComb.Proper, LComb.Proper, STerm.properList_iff, LTerm.properList_iff, STerm.ofL_const]
  | prod id a b => simp [SComb.ofL, SComb.Proper, LComb.Proper]
  | abst id a b => cases a <;> simp [SComb.ofL, SComb.Proper, LComb.Proper, STerm.ProperOpt, LTerm.ProperOpt]

/-- Going through the plain term `t` below `k` binders, replacing variables by `R`: the heap before, the new term, the terms
put in, the heap after. -/
inductive Trav (R : Nat → Nat → Heap → STerm → Heap → Prop) : Tm → Nat → Heap → Tm → List STerm → Heap → Prop
  | kind {k : Nat} {h : Heap} : Trav R .kind k h .kind [] h
  | type {k : Nat} {h : Heap} : Trav R .type k h .type [] h
  | const {c : Sym} {k : Nat} {h : Heap} : Trav R (.const c) k h (.const c) [] h
  | low {n k : Nat} {h : Heap} : n < k → Trav R (.var n) k h (.var n) [] h
  | var {n k : Nat} {h h' : Heap} {u : STerm} : k ≤ n → R n k h u h' → Trav R (.var n) k h u.den [u] h'
  | app {f a f' a' : Tm} {k : Nat} {h h1 h2 : Heap} {L L' : List STerm} :
      Trav R f k h f' L h1 → Trav R a k h1 a' L' h2 → Trav R (.app f a) k h (.app f' a') (L ++ L') h2
  | lam {A b A' b' : Tm} {k : Nat} {h h1 h2 : Heap} {L L' : List STerm} :
      Trav R b (k + 1) h b' L h1 → Trav R A k h1 A' L' h2 → Trav R (.lam A b) k h (.lam A' b') (L ++ L') h2
  | dlam {b b' : Tm} {k : Nat} {h h1 : Heap} {L : List STerm} :
      Trav R b (k + 1) h b' L h1 → Trav R (.dlam b) k h (.dlam b') L h1
  | pi {A B A' B' : Tm} {k : Nat} {h h1 h2 : Heap} {L L' : List STerm} :
      Trav R A k h A' L h1 → Trav R B (k + 1) h1 B' L' h2 → Trav R (.pi A B) k h (.pi A' B') (L ++ L') h2

/-- the results of a closure -/
def Outs (S : Nat → Nat → M STerm) (n k : Nat) (h : Heap) (u : STerm) (h' : Heap) : Prop :=
  ∃ s s', s.heap = h ∧ s'.heap = h' ∧ S n k s = .ok (u, s')

theorem Trav.mem {R : Nat → Nat → Heap → STerm → Heap → Prop} {t t' : Tm} {k : Nat} {h h' : Heap} {L : List STerm}
    (ht : Trav R t k h t' L h') : ∀ u ∈ L, ∃ n k h h', k ≤ n ∧ R n k h u h' := by
  induction ht with
  | var hk hr =>
    intro u hu
    simp only [List.mem_singleton] at hu
    subst hu
    exact ⟨_, _, _, _, hk, hr⟩
  | app _ _ ih1 ih2 => intro u hu; rcases List.mem_append.1 hu with hu | hu; exacts [ih1 u hu, ih2 u hu]
  | lam _ _ ih1 ih2 => intro u hu; rcases List.mem_append.1 hu with hu | hu; exacts [ih1 u hu, ih2 u hu]
  | pi _ _ ih1 ih2 => intro u hu; rcases List.mem_append.1 hu with hu | hu; exacts [ih1 u hu, ih2 u hu]
  | dlam _ ih => exact ih
  | _ => intro u hu; cases hu

theorem Trav.heap {R : Nat → Nat → Heap → STerm → Heap → Prop} (hR : ∀ n k h u h', R n k h u h' → h' = h)
    {t t' : Tm} {k : Nat} {h h' : Heap} {L : List STerm} (ht : Trav R t k h t' L h') : h' = h := by
  induction ht with
  | var _ hr => exact hR _ _ _ _ _ hr
  | app _ _ ih1 ih2 => rw [ih2, ih1]
  | lam _ _ ih1 ih2 => rw [ih2, ih1]
  | pi _ _ ih1 ih2 => rw [ih2, ih1]
  | dlam _ ih => exact ih
  | _ => rfl

/-- what is known of a substitution on a term: `g`, `g'` say that the old and the new term are proper -/
def TravPost (S : Nat → Nat → M STerm) (t : Tm) (g : Prop) (k : Nat) (s : St) (t' : Tm) (g' : Prop) (ch : Bool) (s' : St) :
    Prop :=
  ∃ L, Trav (Outs S) t k s.heap t' L s'.heap ∧ (g → (∀ u ∈ L, u.Proper) → g') ∧ (ch = false → t' = t)

/-- the same on lists of arguments -/
def TravPosts (S : Nat → Nat → M STerm) (ts : List Tm) (g : Prop) (k : Nat) (s : St) (ts' : List Tm) (g' : Prop)
    (ch : Bool) (s' : St) : Prop :=
  ∃ L, (∀ f f' L0 h, Trav (Outs S) f k h f' L0 s.heap →
      Trav (Outs S) (f.apps ts) k h (f'.apps ts') (L0 ++ L) s'.heap) ∧
    (g → (∀ u ∈ L, u.Proper) → g') ∧ (ch = false → ts' = ts)

/-- the same on annotations -/
def TravPostO (S : Nat → Nat → M STerm) (d : Tm → Tm) (g : Prop) (k : Nat) (s : St) (d' : Tm → Tm) (g' : Prop)
    (ch : Bool) (s' : St) : Prop :=
  ∃ L, (∀ b b' L0 h, Trav (Outs S) b (k + 1) h b' L0 s.heap → Trav (Outs S) (d b) k h (d' b') (L0 ++ L) s'.heap) ∧
    (g → (∀ u ∈ L, u.Proper) → g') ∧ (ch = false → d' = d)

section
variable {S : Nat → Nat → M STerm}

theorem mem_append_left' {L L' : List STerm} (h : ∀ u ∈ L ++ L', u.Proper) : ∀ u ∈ L, u.Proper :=
  fun u hu => h u (List.mem_append_left _ hu)
theorem mem_append_right' {L L' : List STerm} (h : ∀ u ∈ L ++ L', u.Proper) : ∀ u ∈ L', u.Proper :=
  fun u hu => h u (List.mem_append_right _ hu)

theorem TravPost.appl {f f' : Tm} {gf gf' : Prop} {k : Nat} {s s1 s2 : St} {cf ca : Bool} {ts ts' : List Tm}
    {ga ga' : Prop} (hf : TravPost S f gf k s f' gf' cf s1) (ha : TravPosts S ts ga k s1 ts' ga' ca s2)
    {x x' : Prop} (hx : x → x') :
    TravPost S (f.apps ts) (gf ∧ ga ∧ x) k s (f'.apps ts') (gf' ∧ ga' ∧ x') (ca || cf) s2 := by
  obtain ⟨L, h1, h2, h3⟩ := hf
  obtain ⟨L', h1', h2', h3'⟩ := ha
  refine ⟨L ++ L', h1' _ _ _ _ h1, ?_, ?_⟩
  · rintro ⟨g1, g2, g3⟩ hL
    exact ⟨h2 g1 (mem_append_left' hL), h2' g2 (mem_append_right' hL), hx g3⟩
  · intro h
    simp only [Bool.or_eq_false_iff] at h
    rw [h3 h.2, h3' h.1]

theorem TravPost.prod {A A' B B' : Tm} {gf gf' : Prop} {k : Nat} {s s1 s2 : St} {cf ca : Bool}
    {ga ga' : Prop} (hf : TravPost S A gf k s A' gf' cf s1) (ha : TravPost S B ga (k + 1) s1 B' ga' ca s2) :
    TravPost S (.pi A B) (gf ∧ ga) k s (.pi A' B') (gf' ∧ ga') (ca || cf) s2 := by
  obtain ⟨L, h1, h2, h3⟩ := hf
  obtain ⟨L', h1', h2', h3'⟩ := ha
  refine ⟨L ++ L', .pi h1 h1', ?_, ?_⟩
  · rintro ⟨g1, g2⟩ hL
    exact ⟨h2 g1 (mem_append_left' hL), h2' g2 (mem_append_right' hL)⟩
  · intro h
    simp only [Bool.or_eq_false_iff] at h
    rw [h3 h.2, h3' h.1]

theorem TravPost.abst {d d' : Tm → Tm} {B B' : Tm} {gf gf' : Prop} {k : Nat} {s s1 s2 : St} {cf ca : Bool}
    {ga ga' : Prop} (hf : TravPost S B gf (k + 1) s B' gf' cf s1) (ha : TravPostO S d ga k s1 d' ga' ca s2) :
    TravPost S (d B) (ga ∧ gf) k s (d' B') (ga' ∧ gf') (ca || cf) s2 := by
  obtain ⟨L, h1, h2, h3⟩ := hf
  obtain ⟨L', h1', h2', h3'⟩ := ha
  refine ⟨L ++ L', h1' _ _ _ _ h1, ?_, ?_⟩
  · rintro ⟨g1, g2⟩ hL
    exact ⟨h2' g1 (mem_append_right' hL), h2 g2 (mem_append_left' hL)⟩
  · intro h
    simp only [Bool.or_eq_false_iff] at h
    rw [h3 h.2, h3' h.1]

theorem TravPosts.nil {k : Nat} {s : St} : TravPosts S [] True k s [] True false s :=
  ⟨[], fun f f' L0 h ht => by rw [List.append_nil]; exact ht, fun _ _ => trivial, fun _ => rfl⟩

theorem TravPosts.cons {t t' : Tm} {gf gf' : Prop} {k : Nat} {s s1 s2 : St} {cf ca : Bool} {ts ts' : List Tm}
    {ga ga' : Prop} (hf : TravPost S t gf k s t' gf' cf s1) (ha : TravPosts S ts ga k s1 ts' ga' ca s2) :
    TravPosts S (t :: ts) (gf ∧ ga) k s (t' :: ts') (gf' ∧ ga') (ca || cf) s2 := by
  obtain ⟨L, h1, h2, h3⟩ := hf
  obtain ⟨L', h1', h2', h3'⟩ := ha
  refine ⟨L ++ L', fun f f' L0 h ht => ?_, ?_, ?_⟩
  · rw [← List.append_assoc]
    exact h1' _ _ _ _ (.app ht h1)
  · rintro ⟨g1, g2⟩ hL
    exact ⟨h2 g1 (mem_append_left' hL), h2' g2 (mem_append_right' hL)⟩
  · intro h
    simp only [Bool.or_eq_false_iff] at h
    rw [h3 h.2, h3' h.1]

theorem TravPostO.none {k : Nat} {s : St} : TravPostO S .dlam True k s .dlam True false s :=
  ⟨[], fun b b' L0 h ht => by simpa using Trav.dlam ht, fun _ _ => trivial, fun _ => rfl⟩

theorem TravPostO.some {A A' : Tm} {g g' : Prop} {k : Nat} {s s' : St} {ch : Bool} (h : TravPost S A g k s A' g' ch s') :
    TravPostO S (.lam A) g k s (.lam A') g' ch s' := by
  obtain ⟨L, h1, h2, h3⟩ := h
  exact ⟨L, fun b b' L0 h ht => .lam ht h1, h2, fun h => by rw [h3 h]⟩

theorem TravPost.low {n k : Nat} {s : St} (h : ¬ n ≥ k) : TravPost S (.var n) True k s (.var n) True false s :=
  ⟨[], .low (by omega), fun _ _ => trivial, fun _ => rfl⟩

theorem TravPost.var {n k : Nat} {s s' : St} {u : STerm} (h : n ≥ k) (hS : S n k s = .ok (u, s')) :
    TravPost S (.var n) True k s u.den u.Proper true s' :=
  ⟨[u], .var h ⟨s, s', rfl, rfl, hS⟩, fun _ h => h u (by simp), fun h => by cases h⟩

theorem applySubstL_const {t : LTerm} {k : Nat} {s s' : St} {r : STerm × Bool} {c : Sym}
    (h : applySubstL S t k s = .ok (r, s')) (ht : t = .const c) : r.1 = .const c := by
  subst ht
  obtain ⟨rfl, -⟩ := pure_ok h
  rfl

theorem applySubst_const {t : STerm} {k : Nat} {s s' : St} {r : STerm × Bool} {c : Sym}
    (h : applySubst S t k s = .ok (r, s')) (ht : t = .const c) : r.1 = .const c := by
  subst ht
  obtain ⟨rfl, -⟩ := pure_ok h
  rfl

theorem applySubstLList_nil {ts : List LTerm} {k : Nat} {s s' : St} {r : List STerm × Bool}
    (h : applySubstLList S ts k s = .ok (r, s')) (hr : r.1 = []) : ts = [] := by
  cases ts with
  | nil => rfl
  | cons t ts =>
    obtain ⟨x, s1, -, h⟩ := bind_ok' h
    obtain ⟨y, s2, -, h⟩ := bind_ok' h
    obtain ⟨rfl, -⟩ := pure_ok h
    cases hr

theorem applySubstList_nil {ts : List STerm} {k : Nat} {s s' : St} {r : List STerm × Bool}
    (h : applySubstList S ts k s = .ok (r, s')) (hr : r.1 = []) : ts = [] := by
  cases ts with
  | nil => rfl
  | cons t ts =>
    obtain ⟨x, s1, -, h⟩ := bind_ok' h
    obtain ⟨y, s2, -, h⟩ := bind_ok' h
    obtain ⟨rfl, -⟩ := pure_ok h
    cases hr

mutual
  theorem applySubstL_trav (t : LTerm) (k : Nat) (s s' : St) (r : STerm × Bool) (h : applySubstL S t k s = .ok (r, s')) :
      TravPost S t.den t.Proper k s r.1.den r.1.Proper r.2 s' := by
    cases t with
    | type => obtain ⟨rfl, rfl⟩ := pure_ok h; exact ⟨[], .type, fun _ _ => trivial, fun _ => rfl⟩
    | const c => obtain ⟨rfl, rfl⟩ := pure_ok h; exact ⟨[], .const, fun _ _ => trivial, fun _ => rfl⟩
    | var n =>
      unfold applySubstL at h
      split at h
      · next hk =>
        obtain ⟨u, s1, h1, h⟩ := bind_ok' h
        obtain ⟨rfl, rfl⟩ := pure_ok h
        exact .var hk h1
      · next hk => obtain ⟨rfl, rfl⟩ := pure_ok h; exact .low hk
    | comb c =>
      obtain ⟨c', s1, h1, h⟩ := bind_ok' h
      obtain ⟨rfl, rfl⟩ := pure_ok h
      exact applySubstLC_trav c k s s1 c' h1
  theorem applySubstLC_trav (c : Comb Str LTerm) (k : Nat) (s s' : St) (r : SComb × Bool)
      (h : applySubstLC S c k s = .ok (r, s')) :
      TravPost S (LComb.den c) (LComb.Proper c) k s (SComb.den r.1) (SComb.Proper r.1) r.2 s' := by
    cases c with
    | appl f args =>
      obtain ⟨f', s1, h1, h⟩ := bind_ok' h
      obtain ⟨as', s2, h2, h⟩ := bind_ok' h
      obtain ⟨rfl, rfl⟩ := pure_ok h
      refine (applySubstL_trav f k s s1 f' h1).appl (applySubstLList_trav args k s1 s2 as' h2) ?_
      intro hx e
      obtain ⟨c, hc⟩ := hx (applySubstLList_nil h2 e)
      exact ⟨c, applySubstL_const h1 hc⟩
    | prod id ty tm =>
      obtain ⟨f', s1, h1, h⟩ := bind_ok' h
      obtain ⟨as', s2, h2, h⟩ := bind_ok' h
      obtain ⟨rfl, rfl⟩ := pure_ok h
      exact (applySubstL_trav ty k s s1 f' h1).prod (applySubstL_trav tm (k + 1) s1 s2 as' h2)
    | abst id ty tm =>
      obtain ⟨f', s1, h1, h⟩ := bind_ok' h
      obtain ⟨as', s2, h2, h⟩ := bind_ok' h
      obtain ⟨rfl, rfl⟩ := pure_ok h
      exact (applySubstL_trav tm (k + 1) s s1 f' h1).abst (applySubstLOpt_trav ty k s1 s2 as' h2)
  theorem applySubstLList_trav (ts : List LTerm) (k : Nat) (s s' : St) (r : List STerm × Bool)
      (h : applySubstLList S ts k s = .ok (r, s')) :
      TravPosts S (LTerm.denList ts) (LTerm.ProperList ts) k s (STerm.denList r.1) (STerm.ProperList r.1) r.2 s' := by
    cases ts with
    | nil => obtain ⟨rfl, rfl⟩ := pure_ok h; exact .nil
    | cons t ts =>
      obtain ⟨f', s1, h1, h⟩ := bind_ok' h
      obtain ⟨as', s2, h2, h⟩ := bind_ok' h
      obtain ⟨rfl, rfl⟩ := pure_ok h
      exact .cons (applySubstL_trav t k s s1 f' h1) (applySubstLList_trav ts k s1 s2 as' h2)
  theorem applySubstLOpt_trav (o : Option LTerm) (k : Nat) (s s' : St) (r : Option STerm × Bool)
      (h : applySubstLOpt S o k s = .ok (r, s')) :
      TravPostO S (LTerm.denAbs o) (LTerm.ProperOpt o) k s (STerm.denAbs r.1) (STerm.ProperOpt r.1) r.2 s' := by
    cases o with
    | none => obtain ⟨rfl, rfl⟩ := pure_ok h; exact .none
    | some t =>
      obtain ⟨f', s1, h1, h⟩ := bind_ok' h
      obtain ⟨rfl, rfl⟩ := pure_ok h
      exact .some (applySubstL_trav t k s s1 f' h1)
end

mutual
  theorem applySubst_trav (t : STerm) (k : Nat) (s s' : St) (r : STerm × Bool) (h : applySubst S t k s = .ok (r, s')) :
      TravPost S t.den t.Proper k s r.1.den r.1.Proper r.2 s' := by
    cases t with
    | kind => obtain ⟨rfl, rfl⟩ := pure_ok h; exact ⟨[], .kind, fun _ _ => trivial, fun _ => rfl⟩
    | type => obtain ⟨rfl, rfl⟩ := pure_ok h; exact ⟨[], .type, fun _ _ => trivial, fun _ => rfl⟩
    | const c => obtain ⟨rfl, rfl⟩ := pure_ok h; exact ⟨[], .const, fun _ _ => trivial, fun _ => rfl⟩
    | var n =>
      unfold applySubst at h
      split at h
      · next hk =>
        obtain ⟨u, s1, h1, h⟩ := bind_ok' h
        obtain ⟨rfl, rfl⟩ := pure_ok h
        exact .var hk h1
      · next hk => obtain ⟨rfl, rfl⟩ := pure_ok h; exact .low hk
    | lcomb c =>
      obtain ⟨c', s1, h1, h⟩ := bind_ok' h
      obtain ⟨rfl, rfl⟩ := pure_ok h
      exact applySubstLC_trav c k s s1 c' h1
    | scomb c =>
      unfold applySubst at h
      obtain ⟨b, s0, h0, h⟩ := bind_ok' h
      obtain ⟨c', s1, h1, h⟩ := bind_ok' h
      have e0 : s0.heap = s.heap := by
        unfold tick at h0
        cases h0
        rfl
      have key := applySubstC_trav c k s0 s1 c' h1
      unfold TravPost at key ⊢
      rw [e0] at key
      split at h
      · obtain ⟨rfl, rfl⟩ := pure_ok h
        exact key
      · split at h
        · next hc =>
          obtain ⟨rfl, rfl⟩ := pure_ok h
          obtain ⟨L, h1, h2, h3⟩ := key
          exact ⟨L, h1, h2, fun h => by cases h⟩
        · next hc =>
          obtain ⟨rfl, rfl⟩ := pure_ok h
          obtain ⟨L, h1, h2, h3⟩ := key
          have := h3 (by simpa using hc)
          refine ⟨L, ?_, fun g _ => g, fun _ => rfl⟩
          rw [this] at h1
          exact h1
  theorem applySubstC_trav (c : Comb Str STerm) (k : Nat) (s s' : St) (r : SComb × Bool)
      (h : applySubstC S c k s = .ok (r, s')) :
      TravPost S (SComb.den c) (SComb.Proper c) k s (SComb.den r.1) (SComb.Proper r.1) r.2 s' := by
    cases c with
    | appl f args =>
      obtain ⟨f', s1, h1, h⟩ := bind_ok' h
      obtain ⟨as', s2, h2, h⟩ := bind_ok' h
      obtain ⟨rfl, rfl⟩ := pure_ok h
      refine (applySubst_trav f k s s1 f' h1).appl (applySubstList_trav args k s1 s2 as' h2) ?_
      intro hx e
      obtain ⟨c, hc⟩ := hx (applySubstList_nil h2 e)
      exact ⟨c, applySubst_const h1 hc⟩
    | prod id ty tm =>
      obtain ⟨f', s1, h1, h⟩ := bind_ok' h
      obtain ⟨as', s2, h2, h⟩ := bind_ok' h
      obtain ⟨rfl, rfl⟩ := pure_ok h
      exact (applySubst_trav ty k s s1 f' h1).prod (applySubst_trav tm (k + 1) s1 s2 as' h2)
    | abst id ty tm =>
      obtain ⟨f', s1, h1, h⟩ := bind_ok' h
      obtain ⟨as', s2, h2, h⟩ := bind_ok' h
      obtain ⟨rfl, rfl⟩ := pure_ok h
      exact (applySubst_trav tm (k + 1) s s1 f' h1).abst (applySubstOpt_trav ty k s1 s2 as' h2)
  theorem applySubstList_trav (ts : List STerm) (k : Nat) (s s' : St) (r : List STerm × Bool)
      (h : applySubstList S ts k s = .ok (r, s')) :
      TravPosts S (STerm.denList ts) (STerm.ProperList ts) k s (STerm.denList r.1) (STerm.ProperList r.1) r.2 s' := by
    cases ts with
    | nil => obtain ⟨rfl, rfl⟩ := pure_ok h; exact .nil
    | cons t ts =>
      obtain ⟨f', s1, h1, h⟩ := bind_ok' h
      obtain ⟨as', s2, h2, h⟩ := bind_ok' h
      obtain ⟨rfl, rfl⟩ := pure_ok h
      exact .cons (applySubst_trav t k s s1 f' h1) (applySubstList_trav ts k s1 s2 as' h2)
  theorem applySubstOpt_trav (o : Option STerm) (k : Nat) (s s' : St) (r : Option STerm × Bool)
      (h : applySubstOpt S o k s = .ok (r, s')) :
      TravPostO S (STerm.denAbs o) (STerm.ProperOpt o) k s (STerm.denAbs r.1) (STerm.ProperOpt r.1) r.2 s' := by
    cases o with
    | none => obtain ⟨rfl, rfl⟩ := pure_ok h; exact .none
    | some t =>
      obtain ⟨f', s1, h1, h⟩ := bind_ok' h
      obtain ⟨rfl, rfl⟩ := pure_ok h
      exact .some (applySubst_trav t k s s1 f' h1)
end

end

theorem tick_heap {b : Bool} {s s' : St} (h : tick s = .ok (b, s')) : s'.heap = s.heap := by
  unfold tick at h
  cases h
  rfl

theorem shiftMut_heap {t t' : STerm} {k : Nat} {s s' : St} (h : shiftMut t k s = .ok (t', s')) :
    s'.heap = s.heap ∧ t'.den = t.den.shift k ∧ (t.Proper → t'.Proper) := by
  have hd := wp_ok (shiftMut_wp (P := fun _ => True) (fun _ _ => trivial) t k s trivial) h
  unfold shiftMut at h
  obtain ⟨r, s1, h1, h⟩ := bind_ok' h
  obtain ⟨rfl, rfl⟩ := pure_ok h
  obtain ⟨L, hT, hp, -⟩ := applySubst_trav t 0 s _ r h1
  have hO : ∀ n k' h u h', Outs (fun n _ => M.pure (.var (n + k))) n k' h u h' → h' = h ∧ u.Proper := by
    rintro n k' h u h' ⟨s, s', rfl, rfl, e⟩
    obtain ⟨rfl, rfl⟩ := pure_ok e
    exact ⟨rfl, trivial⟩
  refine ⟨hT.heap fun n k h u h' hr => (hO n k h u h' hr).1, hd.2, fun hg => hp hg fun u hu => ?_⟩
  obtain ⟨n, k, h, h', -, hr⟩ := hT.mem u hu
  exact (hO n k h u h' hr).2

theorem shift_heap {t t' : STerm} {k : Nat} {s s' : St} (h : shift t k s = .ok (t', s')) :
    s'.heap = s.heap ∧ t'.den = t.den.shift k ∧ (t.Proper → t'.Proper) := by
  unfold shift at h
  split at h
  · exact shiftMut_heap h
  · next hk =>
    obtain ⟨rfl, rfl⟩ := pure_ok h
    have : k = 0 := by simpa using hk
    subst this
    exact ⟨rfl, (Tm.shift_zero _).symm, id⟩

theorem subst_heap {t u t' : STerm} {s s' : St} (h : subst t u s = .ok (t', s')) :
    s'.heap = s.heap ∧ t'.den = t.den.inst u.den ∧ (t.Proper → u.Proper → t'.Proper) := by
  have hd := wp_ok (subst_wp (P := fun _ => True) (fun _ _ => trivial) t u s trivial) h
  unfold subst at h
  obtain ⟨r, s1, h1, h⟩ := bind_ok' h
  obtain ⟨rfl, rfl⟩ := pure_ok h
  obtain ⟨L, hT, hp, -⟩ := applySubst_trav t 0 s _ r h1
  have hO : ∀ n k' h v h', Outs (psubstSingle u) n k' h v h' → h' = h ∧ (u.Proper → v.Proper) := by
    rintro n k' h v h' ⟨s, s', rfl, rfl, e⟩
    unfold psubstSingle at e
    split at e
    · exact ⟨(shift_heap e).1, (shift_heap e).2.2⟩
    · split at e
      · cases e
      · obtain ⟨rfl, rfl⟩ := pure_ok e
        exact ⟨rfl, fun _ => trivial⟩
  refine ⟨hT.heap fun n k h u h' hr => (hO n k h u h' hr).1, hd.2, fun hg hu' => hp hg fun u hu => ?_⟩
  obtain ⟨n, k, h, h', -, hr⟩ := hT.mem u hu
  exact (hO n k h u h' hr).2 hu'

theorem applyArgs_heap {t t' : STerm} {args : List STerm} {s s' : St} (h : applyArgs t args s = .ok (t', s')) :
    s'.heap = s.heap ∧ t'.den = t.den.apps (args.map STerm.den) ∧
      (args ≠ [] → t.Proper → (∀ a ∈ args, a.Proper) → t'.Proper) := by
  have hd := wp_ok (applyArgs_wp (P := fun _ => True) (fun _ _ => trivial) t args s trivial) h
  refine ⟨?_, hd.2, ?_⟩
  · unfold applyArgs at h
    split at h
    · obtain ⟨b, s1, h1, h⟩ := bind_ok' h
      split at h <;> obtain ⟨-, rfl⟩ := pure_ok h <;> exact tick_heap h1
    · obtain ⟨-, rfl⟩ := pure_ok h
      rfl
  · intro hne ht ha
    have hgen : (STerm.scomb (.appl t args)).Proper :=
      ⟨ht, (STerm.properList_iff _).2 ha, fun e => absurd e hne⟩
    unfold applyArgs at h
    split at h
    · next f args1 =>
      obtain ⟨b, s1, h1, h⟩ := bind_ok' h
      split at h
      · obtain ⟨rfl, rfl⟩ := pure_ok h
        refine ⟨ht.1, (STerm.properList_iff _).2 ?_, fun e => ?_⟩
        · intro a h
          rcases List.mem_append.1 h with h | h
          · exact (STerm.properList_iff _).1 ht.2.1 a h
          · exact ha a h
        · exact absurd (List.append_eq_nil_iff.1 e).2 hne
      · obtain ⟨rfl, rfl⟩ := pure_ok h
        exact hgen
    · obtain ⟨rfl, rfl⟩ := pure_ok h
      exact hgen

end Kontroli
