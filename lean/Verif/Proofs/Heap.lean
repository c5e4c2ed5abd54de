import Verif.Proofs.Wp
import Verif.Proofs.Ghost

/-!
# Heap invariant of the evaluator

Every cell of the heap gets a ghost term (what the cell stands for, up to reduction) and a ghost rank (a rational).
References point to cells of smaller rank, so a computation at level `q` (its references have rank below `q`)
never meets a cell that is locked by a caller (those have rank at least `q`).
-/

namespace Kontroli

/-- is the cell mutably borrowed? -/
def bor (s : St) (r : Nat) : Bool :=
  match s.states[r]? with
  | some w => w.borrowed
  | none => false

/-- is the thunk under evaluation? -/
def bsy (s : St) (a : Nat) : Bool :=
  match s.thunks[a]? with
  | some .busy => true
  | _ => false

/-- The invariant of a thunk. -/
def ThOk (R : RuleMap) (eta : Bool) (G : Ghost) (a : Nat) : Thunk → Prop
  | .todo r => r < G.ns ∧ G.rs r < G.rt a ∧ Rev R eta (G.gs r) (G.gt a)
  | .busy => True
  | .done t => Rev R eta t.den (G.gt a)

/-- the contents of a cell that is marked as evaluated -/
def wnOf (s : St) (r : Nat) : Option State :=
  match s.states[r]? with
  | some w => if w.whnfed then some w.state else none
  | none => none

/-- The heap invariant at level `q`. -/
structure World (R : RuleMap) (eta : Bool) (G : Ghost) (q : ℚ) (s : St) : Prop where
  ns : s.states.length = G.ns
  nt : s.thunks.length = G.nt
  st : ∀ r w, s.states[r]? = some w → G.StOk (G.rs r) w.state ∧ Rev R eta (G.den w.state) (G.gs r)
  th : ∀ a t, s.thunks[a]? = some t → ThOk R eta G a t
  fs : ∀ r, r < G.ns → G.rs r < q → bor s r = false
  ft : ∀ a, a < G.nt → G.rt a < q → bsy s a = false
  wn : ∀ r, G.wn r = wnOf s r
  wk : ∀ r st, G.wn r = some st → MWhnf G R eta st

/-- The locked cells are the same, and have the same contents. -/
structure SameLocks (s s' : St) : Prop where
  bor : ∀ r, Kontroli.bor s' r = Kontroli.bor s r
  bsy : ∀ a, Kontroli.bsy s' a = Kontroli.bsy s a
  keep : ∀ (r : Nat) (w : WState), s.states[r]? = some w → w.borrowed = true → s'.states[r]? = some w

theorem SameLocks.refl (s : St) : SameLocks s s := ⟨fun _ => rfl, fun _ => rfl, fun _ _ h _ => h⟩
theorem SameLocks.trans {s s' s'' : St} (h : SameLocks s s') (h' : SameLocks s' s'') : SameLocks s s'' :=
  ⟨fun r => (h'.bor r).trans (h.bor r), fun r => (h'.bsy r).trans (h.bsy r),
    fun r w hw hb => h'.keep r w (h.keep r w hw hb) hb⟩

theorem SameLocks.ticked {s s' : St} (h : SameLocks s s') : SameLocks s s'.ticked := ⟨h.bor, h.bsy, h.keep⟩

theorem bor_out {s : St} {r : Nat} (h : s.states.length ≤ r) : bor s r = false := by
  unfold bor; rw [List.getElem?_eq_none h]
theorem bsy_out {s : St} {r : Nat} (h : s.thunks.length ≤ r) : bsy s r = false := by
  unfold bsy; rw [List.getElem?_eq_none h]

theorem World.ticked {R : RuleMap} {eta : Bool} {G : Ghost} {q : ℚ} {s : St} (h : World R eta G q s) :
    World R eta G q s.ticked :=
  ⟨h.ns, h.nt, h.st, h.th, h.fs, h.ft, h.wn, h.wk⟩

/-- lower the level -/
theorem World.mono {R : RuleMap} {eta : Bool} {G : Ghost} {q q' : ℚ} {s : St} (h : World R eta G q s) (hq : q' ≤ q) :
    World R eta G q' s :=
  ⟨h.ns, h.nt, h.st, h.th, fun r hr hl => h.fs r hr (lt_of_lt_of_le hl hq),
    fun r hr hl => h.ft r hr (lt_of_lt_of_le hl hq), h.wn, h.wk⟩

/-- restore the level after a computation at a lower level -/
theorem World.lift {R : RuleMap} {eta : Bool} {G G' : Ghost} {q q' : ℚ} {s s' : St} (h : World R eta G q s)
    (e : Ghost.Ext G G') (h' : World R eta G' q' s') (l : SameLocks s s') : World R eta G' q s' := by
  refine ⟨h'.ns, h'.nt, h'.st, h'.th, fun r hr hl => ?_, fun r hr hl => ?_, h'.wn, h'.wk⟩
  · rw [l.bor r]
    by_cases hlt : r < G.ns
    · exact h.fs r hlt (by rw [← e.rs r hlt]; exact hl)
    · exact bor_out (by rw [h.ns]; omega)
  · rw [l.bsy r]
    by_cases hlt : r < G.nt
    · exact h.ft r hlt (by rw [← e.rt r hlt]; exact hl)
    · exact bsy_out (by rw [h.nt]; omega)

/-- Post-state of a computation: the invariant for an extended ghost state, same locks. -/
def After (R : RuleMap) (eta : Bool) (G : Ghost) (q : ℚ) (s : St) {α : Type} (Φ : Ghost → α → Prop) (a : α)
    (s' : St) : Prop :=
  ∃ G', Ghost.Ext G G' ∧ World R eta G' q s' ∧ SameLocks s s' ∧ Φ G' a

/-- Hoare triple: in every heap satisfying the invariant at level `q`, `m` does not panic, and
when it returns, the invariant holds for an extension of the ghost state together with `Φ`. -/
def Tri (R : RuleMap) (eta : Bool) (G : Ghost) (q : ℚ) {α : Type} (m : M α) (Φ : Ghost → α → Prop) : Prop :=
  ∀ s, World R eta G q s → wp m (After R eta G q s Φ) s

section
variable {R : RuleMap} {eta : Bool} {G : Ghost} {q : ℚ} {α β : Type}

theorem Tri.pure {a : α} {Φ : Ghost → α → Prop} (h : Φ G a) : Tri R eta G q (M.pure a) Φ :=
  fun s hW => ⟨G, .refl G, hW, .refl s, h⟩

theorem Tri.timeout {Φ : Ghost → α → Prop} : Tri R eta G q (M.timeout : M α) Φ := fun _ _ => trivial
theorem Tri.throw {e : KError} {Φ : Ghost → α → Prop} : Tri R eta G q (M.throw e : M α) Φ := fun _ _ => trivial

theorem Tri.bind {m : M α} {f : α → M β} {Φ : Ghost → α → Prop} {Ψ : Ghost → β → Prop}
    (hm : Tri R eta G q m Φ) (hf : ∀ G' a, Ghost.Ext G G' → Φ G' a → Tri R eta G' q (f a) Ψ) :
    Tri R eta G q (M.bind m f) Ψ := by
  intro s hW
  rw [wp_bind]
  refine wp_mono (hm s hW) ?_
  rintro a s' ⟨G', e, hW', l, hΦ⟩
  refine wp_mono (hf G' a e hΦ s' hW') ?_
  rintro b s'' ⟨G'', e', hW'', l', hΨ⟩
  exact ⟨G'', e.trans e', hW'', l.trans l', hΨ⟩

theorem Tri.mono {m : M α} {Φ Ψ : Ghost → α → Prop} (h : Tri R eta G q m Φ)
    (hi : ∀ G' a, Ghost.Ext G G' → Φ G' a → Ψ G' a) : Tri R eta G q m Ψ := by
  intro s hW
  refine wp_mono (h s hW) ?_
  rintro a s' ⟨G', e, hW', l, hΦ⟩
  exact ⟨G', e, hW', l, hi G' a e hΦ⟩

theorem Tri.ite {c : Prop} [Decidable c] {m m' : M α} {Φ : Ghost → α → Prop}
    (h : c → Tri R eta G q m Φ) (h' : ¬ c → Tri R eta G q m' Φ) : Tri R eta G q (if c then m else m') Φ := by
  split
  · exact h ‹_›
  · exact h' ‹_›

theorem Tri.okOr {e : KError} {o : Option α} {Φ : Ghost → α → Prop} (h : ∀ a, o = some a → Φ G a) :
    Tri R eta G q (M.okOr e o) Φ := by
  cases o with
  | none => exact Tri.throw
  | some a => exact Tri.pure (h a rfl)

/-- a computation that only uses the oracle -/
theorem Tri.of_wp {m : M α} {φ : α → Prop}
    (h : ∀ (P : St → Prop), (∀ s, P s → P s.ticked) → ∀ s, P s → wp m (fun a s' => P s' ∧ φ a) s) :
    Tri R eta G q m (fun _ a => φ a) := by
  intro s hW
  refine wp_mono (h (fun s' => World R eta G q s' ∧ SameLocks s s') (fun s' h => ⟨h.1.ticked, h.2.ticked⟩) s
    ⟨hW, .refl s⟩) ?_
  rintro a s' ⟨⟨h1, h2⟩, h3⟩
  exact ⟨G, .refl G, h1, h2, h3⟩

theorem Tri.shift (t : STerm) (k : Nat) : Tri R eta G q (shift t k) (fun _ t' => t'.den = t.den.shift k) :=
  .of_wp fun _ hT s hP => shift_wp hT t k s hP
theorem Tri.shiftMut (t : STerm) (k : Nat) : Tri R eta G q (shiftMut t k) (fun _ t' => t'.den = t.den.shift k) :=
  .of_wp fun _ hT s hP => shiftMut_wp hT t k s hP
theorem Tri.subst (t u : STerm) : Tri R eta G q (subst t u) (fun _ t' => t'.den = t.den.inst u.den) :=
  .of_wp fun _ hT s hP => subst_wp hT t u s hP
theorem Tri.applyArgs (t : STerm) (args : List STerm) :
    Tri R eta G q (applyArgs t args) (fun _ t' => t'.den = t.den.apps (args.map STerm.den)) :=
  .of_wp fun _ hT s hP => applyArgs_wp hT t args s hP

theorem Congr.rev : Congr (Rev R eta) where
  refl := Rev.refl
  app h h' := Red.app h h'
  lam h h' := Red.lam h h'
  dlam h := Red.dlam h
  pi h h' := Red.pi h h'

/-- substitution by a closure that uses the heap -/
theorem Tri.applySubst {S : Nat → Nat → M STerm} {σ : Nat → Tm}
    (hS : ∀ G' n k, Ghost.Ext G G' → k ≤ n →
      Tri R eta G' q (S n k) (fun _ t => Rev R eta t.den (Tm.upn σ k n))) (t : STerm) :
    Tri R eta G q (applySubst S t 0) (fun _ r => Rev R eta r.1.den (t.den.sub σ)) := by
  intro s hW
  refine wp_mono (applySubst_wp (E := Rev R eta) (σ := σ)
    (P := fun s' => ∃ G', Ghost.Ext G G' ∧ World R eta G' q s' ∧ SameLocks s s') Congr.rev ?_ ?_ t 0 s
    ⟨G, .refl G, hW, .refl s⟩) ?_
  · rintro s' ⟨G', e, hW', l⟩
    exact ⟨G', e, hW'.ticked, l.ticked⟩
  · rintro n k s' hk ⟨G', e, hW', l⟩
    refine wp_mono (hS G' n k e hk s' hW') ?_
    rintro t s'' ⟨G'', e', hW'', l', hc⟩
    exact ⟨⟨G'', e.trans e', hW'', l.trans l'⟩, hc⟩
  · rintro ⟨t', c⟩ s' ⟨⟨G', e, hW', l⟩, hc, -⟩
    exact ⟨G', e, hW', l, hc⟩

theorem exists_rank (f : Nat → ℚ) (q : ℚ) (l : List Nat) (h : ∀ a ∈ l, f a < q) :
    ∃ x, x < q ∧ ∀ a ∈ l, f a < x := by
  induction l with
  | nil => obtain ⟨x, hx⟩ := exists_lt q; exact ⟨x, hx, by simp⟩
  | cons a l ih =>
    obtain ⟨x, hx, hl⟩ := ih (fun b hb => h b (List.mem_cons_of_mem _ hb))
    have ha := h a List.mem_cons_self
    obtain ⟨y, hy1, hy2⟩ := exists_between (max_lt hx ha)
    refine ⟨y, hy2, ?_⟩
    intro b hb
    rcases List.mem_cons.1 hb with rfl | hb
    · exact lt_of_le_of_lt (le_max_right _ _) hy1
    · exact lt_trans (hl b hb) (lt_of_le_of_lt (le_max_left _ _) hy1)

/-- allocate a closure -/
theorem Tri.newState {st : State} (hst : G.StOk q st) :
    Tri R eta G q (newState st) (fun G' r => r < G'.ns ∧ G'.rs r < q ∧ G'.gs r = G.den st) := by
  intro s hW
  obtain ⟨x, hx, hctx⟩ := exists_rank G.rt q st.ctx (fun a ha => (hst.1 a ha).2)
  obtain ⟨y, hy, hstk⟩ := exists_rank G.rs q st.stack (fun a ha => (hst.2 a ha).2)
  let z := max x y
  have hz : z < q := max_lt hx hy
  let G' : Ghost := { G with
    gs := fun r => if r = G.ns then G.den st else G.gs r
    rs := fun r => if r = G.ns then z else G.rs r
    ns := G.ns + 1 }
  have e : Ghost.Ext G G' := by
    refine ⟨Nat.le_succ _, Nat.le_refl _, ?_, ?_, fun _ _ => rfl, fun _ _ => rfl, fun _ _ h => h⟩ <;>
    · intro r hr
      have : r ≠ G.ns := Nat.ne_of_lt hr
      simp [G', this]
  have hst' : G.StOk z st :=
    ⟨fun a ha => ⟨(hst.1 a ha).1, lt_of_lt_of_le (hctx a ha) (le_max_left _ _)⟩,
     fun a ha => ⟨(hst.2 a ha).1, lt_of_lt_of_le (hstk a ha) (le_max_right _ _)⟩⟩
  refine ⟨G', e, ?_, ?_, ?_⟩
  · refine ⟨by simp [hW.ns, G'], hW.nt, ?_, ?_, ?_, ?_, ?_, fun r st h => (hW.wk r st h).ext e⟩
    · intro r w hw
      rw [List.getElem?_append] at hw
      split at hw
      · next hlt =>
        rw [hW.ns] at hlt
        obtain ⟨h1, h2⟩ := hW.st r w hw
        rw [Ghost.den_ext e h1, e.gs r hlt, e.rs r hlt]
        exact ⟨h1.ext e, h2⟩
      · next hge =>
        rw [hW.ns] at hge hw
        have hr : r = G.ns := by
          have := List.getElem?_eq_some_iff.1 hw
          obtain ⟨h, -⟩ := this
          simp at h
          omega
        subst hr
        simp at hw
        subst hw
        simp only [G', if_true]
        refine ⟨hst'.ext e, ?_⟩
        have := Ghost.den_ext e hst'
        simp only [G'] at this
        rw [this]
        exact Rev.refl _
    · intro a t ht
      have := hW.th a t ht
      cases t with
      | todo r =>
        obtain ⟨h1, h2, h3⟩ := this
        refine ⟨Nat.lt_succ_of_lt h1, ?_, ?_⟩
        · rw [e.rs r h1]; exact h2
        · rw [e.gs r h1]; exact h3
      | busy => trivial
      | done t => exact this
    · intro r hr hl
      unfold bor
      simp only [List.getElem?_append]
      split
      · next w hw =>
        split at hw
        · next hlt =>
          rw [hW.ns] at hlt
          have := hW.fs r hlt (by rw [← e.rs r hlt]; exact hl)
          unfold bor at this
          rw [hw] at this
          exact this
        · next hge =>
          have := List.mem_of_getElem? hw
          simp at this
          subst this
          rfl
      · rfl
    · exact hW.ft
    · intro r
      change G.wn r = _
      rw [hW.wn r]
      unfold wnOf
      simp only [List.getElem?_append]
      by_cases hlt : r < s.states.length
      · rw [if_pos hlt]
      · rw [if_neg hlt, List.getElem?_eq_none (l := s.states) (by omega)]
        cases hx : [({ state := st, whnfed := false, borrowed := false } : WState)][r - s.states.length]? with
        | none => rfl
        | some w =>
          have := List.mem_of_getElem? hx
          simp at this
          subst this
          rfl
  · refine ⟨fun r => ?_, fun _ => rfl, fun r w hw _ => ?_⟩
    swap
    · simp only
      rw [List.getElem?_append_left (List.getElem?_eq_some_iff.1 hw).1]
      exact hw
    unfold Kontroli.bor
    simp only [List.getElem?_append]
    by_cases hlt : r < s.states.length
    · rw [if_pos hlt]
    · rw [if_neg hlt, List.getElem?_eq_none (l := s.states) (by omega)]
      split
      · next w hw =>
        have := List.mem_of_getElem? hw
        simp at this
        subst this
        rfl
      · rfl
  · simp only [hW.ns, G', if_true]
    exact ⟨Nat.lt_succ_self _, hz, trivial⟩

/-- allocate a thunk -/
theorem Tri.newThunk {r : Nat} (hr : r < G.ns) (hq : G.rs r < q) :
    Tri R eta G q (newThunk r) (fun G' a => a < G'.nt ∧ G'.rt a < q ∧ G'.gt a = G.gs r) := by
  intro s hW
  obtain ⟨z, hz1, hz⟩ := exists_between hq
  let G' : Ghost := { G with
    gt := fun a => if a = G.nt then G.gs r else G.gt a
    rt := fun a => if a = G.nt then z else G.rt a
    nt := G.nt + 1 }
  have e : Ghost.Ext G G' := by
    refine ⟨Nat.le_refl _, Nat.le_succ _, fun _ _ => rfl, fun _ _ => rfl, ?_, ?_, fun _ _ h => h⟩ <;>
    · intro r hr
      have : r ≠ G.nt := Nat.ne_of_lt hr
      simp [G', this]
  refine ⟨G', e, ?_, ?_, ?_⟩
  · refine ⟨hW.ns, by simp [hW.nt, G'], ?_, ?_, ?_, ?_, hW.wn, fun r st h => (hW.wk r st h).ext e⟩
    · intro r w hw
      obtain ⟨h1, h2⟩ := hW.st r w hw
      rw [Ghost.den_ext e h1]
      exact ⟨h1.ext e, h2⟩
    · intro a t ht
      rw [List.getElem?_append] at ht
      split at ht
      · next hlt =>
        rw [hW.nt] at hlt
        have := hW.th a t ht
        cases t with
        | todo r =>
          obtain ⟨h1, h2, h3⟩ := this
          refine ⟨h1, ?_, ?_⟩
          · rw [e.rt a hlt]; exact h2
          · rw [e.gt a hlt]; exact h3
        | busy => trivial
        | done t =>
          unfold ThOk
          rw [e.gt a hlt]; exact this
      · next hge =>
        rw [hW.nt] at hge ht
        have ha : a = G.nt := by
          obtain ⟨h, -⟩ := List.getElem?_eq_some_iff.1 ht
          simp at h
          omega
        subst ha
        simp at ht
        subst ht
        refine ⟨hr, ?_, ?_⟩
        · simpa [G'] using hz1
        · simp only [G', if_true]; exact Rev.refl _
    · exact hW.fs
    · intro a ha hl
      unfold bsy
      simp only [List.getElem?_append]
      by_cases hlt : a < s.thunks.length
      · rw [if_pos hlt]
        rw [hW.nt] at hlt
        have := hW.ft a hlt (by rw [← e.rt a hlt]; exact hl)
        exact this
      · rw [if_neg hlt]
        split
        · next hw =>
          have := List.mem_of_getElem? hw
          simp at this
        · rfl
  · refine ⟨fun _ => rfl, fun a => ?_, fun _ _ h _ => h⟩
    unfold Kontroli.bsy
    simp only [List.getElem?_append]
    by_cases hlt : a < s.thunks.length
    · rw [if_pos hlt]
    · rw [if_neg hlt, List.getElem?_eq_none (l := s.thunks) (by omega)]
      split
      · next hw =>
        have := List.mem_of_getElem? hw
        simp at this
      · rfl
  · simp only [hW.nt, G', if_true]
    exact ⟨Nat.lt_succ_self _, hz, trivial⟩

/-- read a closure of rank below the level -/
theorem Tri.borrowState {r : Nat} (hr : r < G.ns) (hq : G.rs r < q) :
    Tri R eta G q (borrowState r) (fun G' st => G' = G ∧ G.StOk (G.rs r) st ∧
      Rev R eta (G.den st) (G.gs r) ∧ ∀ st', G.wn r = some st' → st = st' ∧ MWhnf G R eta st) := by
  intro s hW
  unfold wp Kontroli.borrowState
  obtain ⟨w, hw⟩ : ∃ w, s.states[r]? = some w := ⟨_, List.getElem?_eq_getElem (by rw [hW.ns]; exact hr)⟩
  have hb := hW.fs r hr hq
  unfold bor at hb
  rw [hw] at hb
  simp only [hw, hb]
  refine ⟨G, .refl G, hW, .refl s, rfl, (hW.st r w hw).1, (hW.st r w hw).2, ?_⟩
  intro st' h
  have hwk := hW.wk r st' h
  rw [hW.wn r] at h
  unfold wnOf at h
  simp only [hw] at h
  split at h
  · cases Option.some.inj h
    exact ⟨rfl, hwk⟩
  · simp at h

end

/-- states after writing one cell -/
theorem bor_set {s : St} {r r' : Nat} {w : WState} (h : r < s.states.length) :
    bor { s with states := s.states.set r w } r' = if r' = r then w.borrowed else bor s r' := by
  unfold bor
  simp only [List.getElem?_set]
  split
  · next w' hw =>
    split at hw
    · next heq =>
      subst heq
      simp only [Option.some.injEq] at hw
      simp [hw]
    · next hne => rw [if_neg (Ne.symm hne), hw]
  · next hw =>
    split at hw
    · next heq => subst heq; simp at hw
    · next hne => rw [if_neg (Ne.symm hne), hw]

theorem bsy_set {s : St} {a a' : Nat} {t : Thunk} (h : a < s.thunks.length) :
    bsy { s with thunks := s.thunks.set a t } a' =
      if a' = a then (match t with | .busy => true | _ => false) else bsy s a' := by
  unfold bsy
  simp only [List.getElem?_set]
  by_cases heq : a = a'
  · subst heq
    simp only [if_true, if_pos h]
    cases t <;> rfl
  · rw [if_neg heq, if_neg (Ne.symm heq)]

section
variable {R : RuleMap} {eta : Bool} {G : Ghost} {q : ℚ}

/-- overwriting a state cell keeps the invariant -/
theorem World.setState {s : St} {r : Nat} {w : WState} (hW : World R eta G q s) (hr : r < G.ns)
    (h1 : G.StOk (G.rs r) w.state) (h2 : Rev R eta (G.den w.state) (G.gs r)) {q' : ℚ} (hq : q' ≤ q)
    (hb : w.borrowed = true → q' ≤ G.rs r) (hw : G.wn r = if w.whnfed then some w.state else none) :
    World R eta G q' { s with states := s.states.set r w } := by
  have hlen : r < s.states.length := by rw [hW.ns]; exact hr
  refine ⟨by simp [hW.ns], hW.nt, ?_, hW.th, ?_, fun a ha hl => hW.ft a ha (lt_of_lt_of_le hl hq), ?_, hW.wk⟩
  · intro r' w' hw'
    simp only [List.getElem?_set] at hw'
    split at hw'
    · next heq =>
      subst heq
      simp only [Option.some.injEq] at hw'
      subst hw'
      exact ⟨h1, h2⟩
    · exact hW.st r' w' hw'
  · intro r' hr' hl
    rw [bor_set hlen]
    split
    · next heq =>
      subst heq
      cases hbw : w.borrowed with
      | false => rfl
      | true => exact absurd hl (not_lt.2 (hb hbw))
    · exact hW.fs r' hr' (lt_of_lt_of_le hl hq)
  · intro r'
    unfold wnOf
    simp only [List.getElem?_set]
    by_cases heq : r = r'
    · subst heq
      simp only [if_true, if_pos hlen]
      exact hw
    · simp only [if_neg heq]
      exact hW.wn r'

/-- recording that a cell is evaluated -/
theorem World.evaluated {s : St} {r : Nat} {w : WState} {st : State} (hW : World R eta G q s) (hr : r < G.ns)
    (hw0 : G.wn r = none) (h1 : G.StOk (G.rs r) st) (h2 : Rev R eta (G.den st) (G.gs r)) (hm : MWhnf G R eta st)
    (hw : w = { state := st, whnfed := true, borrowed := false }) :
    ∃ G', Ghost.Ext G G' ∧ World R eta G' q { s with states := s.states.set r w } ∧ G'.wn r = some st ∧
      G' = { G with wn := G'.wn } := by
  subst hw
  have hlen : r < s.states.length := by rw [hW.ns]; exact hr
  let G' : Ghost := { G with wn := fun r' => if r' = r then some st else G.wn r' }
  have e : Ghost.Ext G G' := by
    refine ⟨Nat.le_refl _, Nat.le_refl _, fun _ _ => rfl, fun _ _ => rfl, fun _ _ => rfl, fun _ _ => rfl, ?_⟩
    intro r' st' h
    have : r' ≠ r := by rintro rfl; rw [hw0] at h; simp at h
    simp only [G', if_neg this]
    exact h
  refine ⟨G', e, ?_, by simp [G'], rfl⟩
  refine ⟨by simp [hW.ns, G'], hW.nt, ?_, hW.th, ?_, hW.ft, ?_, ?_⟩
  · intro r' w' hw'
    simp only [List.getElem?_set] at hw'
    split at hw'
    · next heq =>
      subst heq
      simp only [Option.some.injEq] at hw'
      subst hw'
      exact ⟨h1, h2⟩
    · exact hW.st r' w' hw'
  · intro r' hr' hl
    rw [bor_set hlen]
    split
    · rfl
    · exact hW.fs r' hr' hl
  · intro r'
    unfold wnOf
    simp only [List.getElem?_set]
    by_cases heq : r = r'
    · subst heq
      simp [if_pos hlen, G']
    · simp only [if_neg heq, G', if_neg (Ne.symm heq)]
      exact hW.wn r'
  · intro r' st' h
    by_cases heq : r' = r
    · subst heq
      simp [G'] at h
      subst h
      exact hm.ext e
    · simp only [G', if_neg heq] at h
      exact (hW.wk r' st' h).ext e

theorem World.setThunk {s : St} {a : Nat} {t : Thunk} (hW : World R eta G q s) (ha : a < G.nt)
    (h1 : ThOk R eta G a t) {q' : ℚ} (hq : q' ≤ q) (hb : t = .busy → q' ≤ G.rt a) :
    World R eta G q' { s with thunks := s.thunks.set a t } := by
  have hlen : a < s.thunks.length := by rw [hW.nt]; exact ha
  refine ⟨hW.ns, by simp [hW.nt], hW.st, ?_, fun a ha hl => hW.fs a ha (lt_of_lt_of_le hl hq), ?_, hW.wn, hW.wk⟩
  · intro a' t' ht'
    simp only [List.getElem?_set] at ht'
    split at ht'
    · next heq =>
      subst heq
      simp only [Option.some.injEq] at ht'
      subst ht'
      exact h1
    · exact hW.th a' t' ht'
  · intro a' ha' hl
    rw [bsy_set hlen]
    split
    · next heq =>
      subst heq
      cases t with
      | busy => exact absurd hl (not_lt.2 (hb rfl))
      | _ => rfl
    · exact hW.ft a' ha' (lt_of_lt_of_le hl hq)

/-! ### Computations that only read and force thunks -/

/-- Hoare triple for computations that allocate nothing and evaluate no cell: the ghost state stays the same. -/
def TriR (R : RuleMap) (eta : Bool) (G : Ghost) (q : ℚ) {α : Type} (m : M α) (Φ : α → Prop) : Prop :=
  ∀ s, World R eta G q s → wp m (fun a s' => World R eta G q s' ∧ SameLocks s s' ∧ Φ a) s

variable {α β : Type}

theorem TriR.tri {m : M α} {Φ : α → Prop} (h : TriR R eta G q m Φ) : Tri R eta G q m (fun G' a => G' = G ∧ Φ a) :=
  fun s hW => wp_mono (h s hW) fun _ _ ⟨h1, h2, h3⟩ => ⟨G, .refl G, h1, h2, rfl, h3⟩

theorem TriR.pure {a : α} {Φ : α → Prop} (h : Φ a) : TriR R eta G q (M.pure a) Φ := fun s hW => ⟨hW, .refl s, h⟩
theorem TriR.timeout {Φ : α → Prop} : TriR R eta G q (M.timeout : M α) Φ := fun _ _ => trivial

theorem TriR.bind {m : M α} {f : α → M β} {Φ : α → Prop} {Ψ : β → Prop}
    (hm : TriR R eta G q m Φ) (hf : ∀ a, Φ a → TriR R eta G q (f a) Ψ) : TriR R eta G q (M.bind m f) Ψ := by
  intro s hW
  rw [wp_bind]
  refine wp_mono (hm s hW) ?_
  rintro a s' ⟨hW', l, hΦ⟩
  refine wp_mono (hf a hΦ s' hW') ?_
  rintro b s'' ⟨hW'', l', hΨ⟩
  exact ⟨hW'', l.trans l', hΨ⟩

theorem TriR.mono {m : M α} {Φ Ψ : α → Prop} (h : TriR R eta G q m Φ) (hi : ∀ a, Φ a → Ψ a) :
    TriR R eta G q m Ψ :=
  fun s hW => wp_mono (h s hW) fun _ _ ⟨h1, h2, h3⟩ => ⟨h1, h2, hi _ h3⟩

/-- like `mono`, and the value is known to be a result -/
theorem TriR.mono' {m : M α} {Φ Ψ : α → Prop} (h : TriR R eta G q m Φ)
    (hi : ∀ a s s', m s = .ok (a, s') → Φ a → Ψ a) : TriR R eta G q m Ψ :=
  fun s hW => wp_mono' (h s hW) fun _ _ he ⟨h1, h2, h3⟩ => ⟨h1, h2, hi _ _ _ he h3⟩

theorem TriR.ite {c : Prop} [Decidable c] {m m' : M α} {Φ : α → Prop}
    (h : c → TriR R eta G q m Φ) (h' : ¬ c → TriR R eta G q m' Φ) : TriR R eta G q (if c then m else m') Φ := by
  split
  · exact h ‹_›
  · exact h' ‹_›

theorem TriR.of_wp {m : M α} {φ : α → Prop}
    (h : ∀ (P : St → Prop), (∀ s, P s → P s.ticked) → ∀ s, P s → wp m (fun a s' => P s' ∧ φ a) s) :
    TriR R eta G q m φ := by
  intro s hW
  refine wp_mono (h (fun s' => World R eta G q s' ∧ SameLocks s s') (fun s' h => ⟨h.1.ticked, h.2.ticked⟩) s
    ⟨hW, .refl s⟩) ?_
  rintro a s' ⟨⟨h1, h2⟩, h3⟩
  exact ⟨h1, h2, h3⟩

theorem TriR.shift (t : STerm) (k : Nat) : TriR R eta G q (shift t k) (fun t' => t'.den = t.den.shift k) :=
  .of_wp fun _ hT s hP => shift_wp hT t k s hP
theorem TriR.applyArgs (t : STerm) (args : List STerm) :
    TriR R eta G q (applyArgs t args) (fun t' => t'.den = t.den.apps (args.map STerm.den)) :=
  .of_wp fun _ hT s hP => applyArgs_wp hT t args s hP

theorem TriR.applySubst {S : Nat → Nat → M STerm} {σ : Nat → Tm}
    (hS : ∀ n k, k ≤ n → TriR R eta G q (S n k) (fun t => Rev R eta t.den (Tm.upn σ k n))) (t : STerm) :
    TriR R eta G q (applySubst S t 0) (fun r => Rev R eta r.1.den (t.den.sub σ)) := by
  intro s hW
  refine wp_mono (applySubst_wp (E := Rev R eta) (σ := σ)
    (P := fun s' => World R eta G q s' ∧ SameLocks s s') Congr.rev ?_ ?_ t 0 s ⟨hW, .refl s⟩) ?_
  · rintro s' ⟨hW', l⟩
    exact ⟨hW'.ticked, l.ticked⟩
  · rintro n k s' hk ⟨hW', l⟩
    refine wp_mono (hS n k hk s' hW') ?_
    rintro t s'' ⟨hW'', l', hc⟩
    exact ⟨⟨hW'', l.trans l'⟩, hc⟩
  · rintro ⟨t', c⟩ s' ⟨⟨hW', l⟩, hc, -⟩
    exact ⟨hW', l, hc⟩

theorem TriR.borrowState {r : Nat} (hr : r < G.ns) (hq : G.rs r < q) :
    TriR R eta G q (borrowState r) (fun st => G.StOk (G.rs r) st ∧
      Rev R eta (G.den st) (G.gs r) ∧ ∀ st', G.wn r = some st' → st = st' ∧ MWhnf G R eta st) := by
  intro s hW
  refine wp_mono' (Tri.borrowState hr hq s hW) ?_
  rintro st s' he ⟨G', -, -, -, rfl, h⟩
  have : s' = s := by
    unfold Kontroli.borrowState at he
    split at he
    · simp at he
    · split at he
      · simp at he
      · simp only [Res.ok.injEq, Prod.mk.injEq] at he
        exact he.2.symm
  subst this
  exact ⟨hW, .refl _, h⟩

end

end Kontroli
