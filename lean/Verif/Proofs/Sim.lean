import Verif.Proofs.Trav

/-!
# Simulation between two runs of the evaluator

Two heaps are related through a partial bijection between their cells.  Cells outside of the bijection are not touched.
-/

namespace Kontroli

/-- the terms denote the same plain term, and are proper if `P` -/
def TEq (P : Prop) (t u : STerm) : Prop := t.den = u.den ∧ (P → t.Proper ∧ u.Proper)

theorem TEq.weak {P Q : Prop} {t u : STerm} (h : TEq P t u) (hQ : Q → P) : TEq Q t u := ⟨h.1, fun q => h.2 (hQ q)⟩
theorem TEq.plain {P : Prop} {t u : STerm} (h : TEq P t u) : TEq False t u := h.weak False.elim
theorem TEq.symm {P : Prop} {t u : STerm} (h : TEq P t u) : TEq P u t := ⟨h.1.symm, fun p => (h.2 p).symm⟩

/-- which cells correspond to each other -/
structure Pairs where
  st : Nat → Nat → Prop
  th : Nat → Nat → Prop

/-- no cells correspond -/
def Pairs.empty : Pairs := ⟨fun _ _ => False, fun _ _ => False⟩

/-- inclusion -/
structure Pairs.Le (w w' : Pairs) : Prop where
  st : ∀ {r r'}, w.st r r' → w'.st r r'
  th : ∀ {r r'}, w.th r r' → w'.th r r'

theorem Pairs.Le.refl (w : Pairs) : w.Le w := ⟨id, id⟩
theorem Pairs.Le.trans {w w' w'' : Pairs} (h : w.Le w') (h' : w'.Le w'') : w.Le w'' :=
  ⟨fun x => h'.st (h.st x), fun x => h'.th (h.th x)⟩

/-- related machine states -/
structure StRel (P : Prop) (w : Pairs) (a b : State) : Prop where
  ctx : List.Forall₂ w.th a.ctx b.ctx
  term : TEq P a.term b.term
  stack : List.Forall₂ w.st a.stack b.stack

theorem StRel.mono {P : Prop} {w w' : Pairs} {a b : State} (h : StRel P w a b) (hw : w.Le w') : StRel P w' a b :=
  ⟨h.ctx.imp fun _ _ => hw.th, h.term, h.stack.imp fun _ _ => hw.st⟩

/-- not an application -/
def STerm.NonAppl (t : STerm) : Prop := ∀ f args, t.getComb ≠ some (.appl f args)

/-- forms of evaluated states -/
structure State.Nf (st : State) : Prop where
  head : st.term.NonAppl
  var : ∀ n, st.term = .var n → st.ctx = []

/-- related cells; nothing is known of the contents of a locked cell -/
structure CellRel (P : Prop) (w : Pairs) (a b : WState) : Prop where
  lock : a.borrowed = b.borrowed
  whnfed : a.borrowed = false → a.whnfed = b.whnfed
  state : a.borrowed = false → StRel P w a.state b.state
  nf : a.borrowed = false → a.whnfed = true → a.state.Nf ∧ b.state.Nf

/-- related thunks -/
def ThRel (P : Prop) (w : Pairs) : Thunk → Thunk → Prop
  | .todo r, .todo r' => w.st r r'
  | .busy, .busy => True
  | .done t, .done t' => TEq P t t'
  | _, _ => False

theorem CellRel.mono {P : Prop} {w w' : Pairs} {a b : WState} (h : CellRel P w a b) (hw : w.Le w') : CellRel P w' a b :=
  ⟨h.lock, h.whnfed, fun e => (h.state e).mono hw, h.nf⟩

theorem ThRel.mono {P : Prop} {w w' : Pairs} {a b : Thunk} (h : ThRel P w a b) (hw : w.Le w') : ThRel P w' a b := by
  cases a <;> cases b <;> simp only [ThRel] at * <;> first | exact hw.st h | exact h

/-- related heaps -/
structure HRel (P : Prop) (w : Pairs) (h h' : Heap) : Prop where
  st_inj : ∀ {a a' b b'}, w.st a a' → w.st b b' → (a = b ↔ a' = b')
  th_inj : ∀ {a a' b b'}, w.th a a' → w.th b b' → (a = b ↔ a' = b')
  st : ∀ {a a'}, w.st a a' → ∃ c c', h.1[a]? = some c ∧ h'.1[a']? = some c' ∧ CellRel P w c c'
  th : ∀ {a a'}, w.th a a' → ∃ c c', h.2[a]? = some c ∧ h'.2[a']? = some c' ∧ ThRel P w c c'

theorem HRel.empty (P : Prop) (h h' : Heap) : HRel P .empty h h' :=
  ⟨fun h => h.elim, fun h => h.elim, fun h => h.elim, fun h => h.elim⟩

/-- only cells in `D`, `T` and new ones differ -/
structure Keep (D T : Nat → Prop) (h h' : Heap) : Prop where
  len_st : h.1.length ≤ h'.1.length
  len_th : h.2.length ≤ h'.2.length
  st : ∀ r, r < h.1.length → ¬ D r → h'.1[r]? = h.1[r]?
  th : ∀ r, r < h.2.length → ¬ T r → h'.2[r]? = h.2[r]?

theorem Keep.refl (D T : Nat → Prop) (h : Heap) : Keep D T h h :=
  ⟨Nat.le_refl _, Nat.le_refl _, fun _ _ _ => rfl, fun _ _ _ => rfl⟩

theorem Keep.weaken {D D' T T' : Nat → Prop} {h h' : Heap} (k : Keep D T h h') (hD : ∀ r, D r → D' r)
    (hT : ∀ r, T r → T' r) : Keep D' T' h h' :=
  ⟨k.len_st, k.len_th, fun r hr n => k.st r hr fun d => n (hD r d), fun r hr n => k.th r hr fun d => n (hT r d)⟩

/-- no old cell differs -/
abbrev Old (h h' : Heap) : Prop := Keep (fun _ => False) (fun _ => False) h h'

theorem Old.trans {h h' h'' : Heap} (k : Old h h') (k' : Old h' h'') : Old h h'' :=
  ⟨Nat.le_trans k.len_st k'.len_st, Nat.le_trans k.len_th k'.len_th,
    fun r hr n => (k'.st r (Nat.lt_of_lt_of_le hr k.len_st) n).trans (k.st r hr n),
    fun r hr n => (k'.th r (Nat.lt_of_lt_of_le hr k.len_th) n).trans (k.th r hr n)⟩

theorem Old.of_eq {h h' : Heap} (e : h' = h) : Old h h' := e ▸ .refl _ _ _

/-- the heaps after two runs, seen from those before -/
structure HExt (w w' : Pairs) (h1 h2 h1' h2' : Heap) : Prop where
  le : w.Le w'
  new_st : ∀ {a b}, w'.st a b → w.st a b ∨ (h1.1.length ≤ a ∧ h2.1.length ≤ b)
  new_th : ∀ {a b}, w'.th a b → w.th a b ∨ (h1.2.length ≤ a ∧ h2.2.length ≤ b)
  k1 : Keep (fun a => ∃ b, w.st a b) (fun a => ∃ b, w.th a b) h1 h1'
  k2 : Keep (fun b => ∃ a, w.st a b) (fun b => ∃ a, w.th a b) h2 h2'

theorem HExt.refl (w : Pairs) (h1 h2 : Heap) : HExt w w h1 h2 h1 h2 := ⟨.refl w, .inl, .inl, .refl _ _ _, .refl _ _ _⟩

theorem HExt.trans {w w' w'' : Pairs} {h1 h2 h1' h2' h1'' h2'' : Heap} (e : HExt w w' h1 h2 h1' h2')
    (e' : HExt w' w'' h1' h2' h1'' h2'') : HExt w w'' h1 h2 h1'' h2'' := by
  refine ⟨e.le.trans e'.le, ?_, ?_, ⟨e.k1.len_st.trans e'.k1.len_st, e.k1.len_th.trans e'.k1.len_th, ?_, ?_⟩,
    ⟨e.k2.len_st.trans e'.k2.len_st, e.k2.len_th.trans e'.k2.len_th, ?_, ?_⟩⟩
  · intro a b h
    rcases e'.new_st h with h | ⟨h, h'⟩
    · exact e.new_st h
    · exact .inr ⟨e.k1.len_st.trans h, e.k2.len_st.trans h'⟩
  · intro a b h
    rcases e'.new_th h with h | ⟨h, h'⟩
    · exact e.new_th h
    · exact .inr ⟨e.k1.len_th.trans h, e.k2.len_th.trans h'⟩
  · intro r hr n
    rw [e'.k1.st r (hr.trans_le e.k1.len_st), e.k1.st r hr n]
    rintro ⟨b, hb⟩
    rcases e.new_st hb with h | ⟨h, -⟩
    · exact n ⟨b, h⟩
    · omega
  · intro r hr n
    rw [e'.k1.th r (hr.trans_le e.k1.len_th), e.k1.th r hr n]
    rintro ⟨b, hb⟩
    rcases e.new_th hb with h | ⟨h, -⟩
    · exact n ⟨b, h⟩
    · omega
  · intro r hr n
    rw [e'.k2.st r (hr.trans_le e.k2.len_st), e.k2.st r hr n]
    rintro ⟨b, hb⟩
    rcases e.new_st hb with h | ⟨-, h⟩
    · exact n ⟨b, h⟩
    · omega
  · intro r hr n
    rw [e'.k2.th r (hr.trans_le e.k2.len_th), e.k2.th r hr n]
    rintro ⟨b, hb⟩
    rcases e.new_th hb with h | ⟨-, h⟩
    · exact n ⟨b, h⟩
    · omega

/-- runs that touch no old cells keep the relation -/
theorem HRel.old {P : Prop} {w : Pairs} {h1 h2 h1' h2' : Heap} (h : HRel P w h1 h2) (k1 : Old h1 h1') (k2 : Old h2 h2') :
    HRel P w h1' h2' ∧ HExt w w h1 h2 h1' h2' := by
  have lt : ∀ {α : Type} {l : List α} {i : Nat} {a : α}, l[i]? = some a → i < l.length := by
    intro α l i a e
    exact (List.getElem?_eq_some_iff.1 e).1
  refine ⟨⟨h.st_inj, h.th_inj, ?_, ?_⟩, ⟨.refl w, .inl, .inl, k1.weaken (fun _ h => h.elim) fun _ h => h.elim,
    k2.weaken (fun _ h => h.elim) fun _ h => h.elim⟩⟩
  · intro a a' ha
    obtain ⟨c, c', e, e', r⟩ := h.st ha
    exact ⟨c, c', by rw [k1.st a (lt e) id, e], by rw [k2.st a' (lt e') id, e'], r⟩
  · intro a a' ha
    obtain ⟨c, c', e, e', r⟩ := h.th ha
    exact ⟨c, c', by rw [k1.th a (lt e) id, e], by rw [k2.th a' (lt e') id, e'], r⟩

/-- the two runs, started in related heaps, end in related heaps with related results (if both end) -/
def Sim {α β : Type} (P : Prop) (w : Pairs) (m : M α) (m' : M β) (Q : Pairs → α → β → Prop) : Prop :=
  ∀ s1 s2 a s1' b s2', HRel P w s1.heap s2.heap → m s1 = .ok (a, s1') → m' s2 = .ok (b, s2') →
    ∃ w', HExt w w' s1.heap s2.heap s1'.heap s2'.heap ∧ HRel P w' s1'.heap s2'.heap ∧ Q w' a b

section
variable {α β α' β' : Type} {P : Prop} {w : Pairs}

theorem Sim.pure {a : α} {b : β} {Q : Pairs → α → β → Prop} (h : Q w a b) : Sim P w (M.pure a) (M.pure b) Q := by
  intro s1 s2 a s1' b s2' hr h1 h2
  obtain ⟨rfl, rfl⟩ := pure_ok h1
  obtain ⟨rfl, rfl⟩ := pure_ok h2
  exact ⟨w, .refl _ _ _, hr, h⟩

theorem Sim.bind {m : M α} {m' : M β} {f : α → M α'} {f' : β → M β'} {Q : Pairs → α → β → Prop}
    {Q' : Pairs → α' → β' → Prop} (h : Sim P w m m' Q)
    (h' : ∀ w' a b, w.Le w' → Q w' a b → Sim P w' (f a) (f' b) Q') : Sim P w (M.bind m f) (M.bind m' f') Q' := by
  intro s1 s2 a s1' b s2' hr h1 h2
  obtain ⟨x, s3, h1, h3⟩ := bind_ok' h1
  obtain ⟨y, s4, h2, h4⟩ := bind_ok' h2
  obtain ⟨w', e, hr', q⟩ := h _ _ _ _ _ _ hr h1 h2
  obtain ⟨w'', e', hr'', q'⟩ := h' w' x y e.le q _ _ _ _ _ _ hr' h3 h4
  exact ⟨w'', e.trans e', hr'', q'⟩

theorem Sim.mono {m : M α} {m' : M β} {Q Q' : Pairs → α → β → Prop} (h : Sim P w m m' Q)
    (hq : ∀ w' a b, w.Le w' → Q w' a b → Q' w' a b) : Sim P w m m' Q' := by
  intro s1 s2 a s1' b s2' hr h1 h2
  obtain ⟨w', e, hr', q⟩ := h _ _ _ _ _ _ hr h1 h2
  exact ⟨w', e, hr', hq _ _ _ e.le q⟩

theorem Sim.panic_l {m' : M β} {Q : Pairs → α → β → Prop} : Sim P w M.panic m' Q := by
  intro s1 s2 a s1' b s2' hr h1 h2; cases h1
theorem Sim.panic_r {m : M α} {Q : Pairs → α → β → Prop} : Sim P w m M.panic Q := by
  intro s1 s2 a s1' b s2' hr h1 h2; cases h2
theorem Sim.timeout_l {m' : M β} {Q : Pairs → α → β → Prop} : Sim P w M.timeout m' Q := by
  intro s1 s2 a s1' b s2' hr h1 h2; cases h1
theorem Sim.timeout_r {m : M α} {Q : Pairs → α → β → Prop} : Sim P w m M.timeout Q := by
  intro s1 s2 a s1' b s2' hr h1 h2; cases h2

/-- computations that change no old cells -/
theorem Sim.old {m : M α} {m' : M β} {Q : α → β → Prop}
    (h : ∀ s1 s2 a s1' b s2', m s1 = .ok (a, s1') → m' s2 = .ok (b, s2') →
      Old s1.heap s1'.heap ∧ Old s2.heap s2'.heap ∧ Q a b) : Sim P w m m' (fun _ => Q) := by
  intro s1 s2 a s1' b s2' hr h1 h2
  obtain ⟨k1, k2, q⟩ := h _ _ _ _ _ _ h1 h2
  obtain ⟨h1, h2⟩ := hr.old k1 k2
  exact ⟨w, h2, h1, q⟩

theorem getElem?_append_length {α : Type} (l : List α) (a : α) : (l ++ [a])[l.length]? = some a := by simp

theorem getElem?_append_some {α : Type} {l : List α} {a b : α} {i : Nat} (h : l[i]? = some b) : (l ++ [a])[i]? = some b := by
  have := (List.getElem?_eq_some_iff.1 h).1
  rw [List.getElem?_append_left this, h]

theorem Sim.newState {a b : State} (h : StRel P w a b) :
    Sim P w (newState a) (newState b) (fun w' r r' => w'.st r r') := by
  intro s1 s2 r s1' r' s2' hr h1 h2
  unfold Kontroli.newState at h1 h2
  cases h1
  cases h2
  let w' : Pairs := ⟨fun i j => w.st i j ∨ (i = s1.states.length ∧ j = s2.states.length), w.th⟩
  have hw : w.Le w' := ⟨.inl, id⟩
  have lt1 : ∀ {i j}, w.st i j → i < s1.states.length ∧ j < s2.states.length := by
    intro i j hij
    obtain ⟨c, c', e, e', -⟩ := hr.st hij
    exact ⟨(List.getElem?_eq_some_iff.1 e).1, (List.getElem?_eq_some_iff.1 e').1⟩
  refine ⟨w', ⟨hw, ?_, .inl, ⟨?_, Nat.le_refl _, ?_, fun _ _ _ => rfl⟩, ⟨?_, Nat.le_refl _, ?_, fun _ _ _ => rfl⟩⟩, ⟨?_, hr.th_inj, ?_, ?_⟩, .inr ⟨rfl, rfl⟩⟩
  · rintro i j (h | ⟨rfl, rfl⟩)
    · exact .inl h
    · exact .inr ⟨Nat.le_refl _, Nat.le_refl _⟩
  · simp [St.heap]
  · intro i hi _
    exact List.getElem?_append_left hi
  · simp [St.heap]
  · intro i hi _
    exact List.getElem?_append_left hi
  · rintro i i' j j' (h | ⟨rfl, rfl⟩) (h' | ⟨rfl, rfl⟩)
    · exact hr.st_inj h h'
    · have := lt1 h; omega
    · have := lt1 h'; omega
    · simp
  · rintro i j (h' | ⟨rfl, rfl⟩)
    · obtain ⟨c, c', e, e', q⟩ := hr.st h'
      exact ⟨c, c', getElem?_append_some e, getElem?_append_some e', q.mono hw⟩
    · exact ⟨_, _, getElem?_append_length _ _, getElem?_append_length _ _, rfl, fun _ => rfl, fun _ => h.mono hw,
        fun _ h => by cases h⟩
  · intro i j h'
    obtain ⟨c, c', e, e', q⟩ := hr.th h'
    exact ⟨c, c', e, e', q.mono hw⟩

theorem Sim.newThunk {a b : Nat} (h : w.st a b) :
    Sim P w (newThunk a) (newThunk b) (fun w' r r' => w'.th r r') := by
  intro s1 s2 r s1' r' s2' hr h1 h2
  unfold Kontroli.newThunk at h1 h2
  cases h1
  cases h2
  let w' : Pairs := ⟨w.st, fun i j => w.th i j ∨ (i = s1.thunks.length ∧ j = s2.thunks.length)⟩
  have hw : w.Le w' := ⟨id, .inl⟩
  have lt1 : ∀ {i j}, w.th i j → i < s1.thunks.length ∧ j < s2.thunks.length := by
    intro i j hij
    obtain ⟨c, c', e, e', -⟩ := hr.th hij
    exact ⟨(List.getElem?_eq_some_iff.1 e).1, (List.getElem?_eq_some_iff.1 e').1⟩
  refine ⟨w', ⟨hw, .inl, ?_, ⟨Nat.le_refl _, ?_, fun _ _ _ => rfl, ?_⟩, ⟨Nat.le_refl _, ?_, fun _ _ _ => rfl, ?_⟩⟩, ⟨hr.st_inj, ?_, ?_, ?_⟩, .inr ⟨rfl, rfl⟩⟩
  · rintro i j (h | ⟨rfl, rfl⟩)
    · exact .inl h
    · exact .inr ⟨Nat.le_refl _, Nat.le_refl _⟩
  · simp [St.heap]
  · intro i hi _
    exact List.getElem?_append_left hi
  · simp [St.heap]
  · intro i hi _
    exact List.getElem?_append_left hi
  · rintro i i' j j' (h | ⟨rfl, rfl⟩) (h' | ⟨rfl, rfl⟩)
    · exact hr.th_inj h h'
    · have := lt1 h; omega
    · have := lt1 h'; omega
    · simp
  · intro i j h'
    obtain ⟨c, c', e, e', q⟩ := hr.st h'
    exact ⟨c, c', e, e', q.mono hw⟩
  · rintro i j (h' | ⟨rfl, rfl⟩)
    · obtain ⟨c, c', e, e', q⟩ := hr.th h'
      exact ⟨c, c', getElem?_append_some e, getElem?_append_some e', q.mono hw⟩
    · exact ⟨_, _, getElem?_append_length _ _, getElem?_append_length _ _, h⟩

/-- related cells are replaced by related ones -/
theorem HRel.set_st {h1 h2 : Heap} (h : HRel P w h1 h2) {r r' : Nat} (hr : w.st r r') {c c' : WState}
    (hc : CellRel P w c c') :
    HRel P w (h1.1.set r c, h1.2) (h2.1.set r' c', h2.2) ∧
      HExt w w h1 h2 (h1.1.set r c, h1.2) (h2.1.set r' c', h2.2) := by
  obtain ⟨c0, c0', e0, e0', -⟩ := h.st hr
  have l1 := (List.getElem?_eq_some_iff.1 e0).1
  have l2 := (List.getElem?_eq_some_iff.1 e0').1
  refine ⟨⟨h.st_inj, h.th_inj, ?_, h.th⟩, .refl w, .inl, .inl, ⟨?_, Nat.le_refl _, ?_, fun _ _ _ => rfl⟩,
    ⟨?_, Nat.le_refl _, ?_, fun _ _ _ => rfl⟩⟩
  · intro i j hij
    by_cases hi : r = i
    · have hj : r' = j := (h.st_inj hr hij).1 hi
      subst hi; subst hj
      exact ⟨c, c', by simp [l1], by simp [l2], hc⟩
    · have hj : r' ≠ j := fun e => hi ((h.st_inj hr hij).2 e)
      obtain ⟨d, d', e, e', q⟩ := h.st hij
      exact ⟨d, d', by rw [List.getElem?_set_ne hi, e], by rw [List.getElem?_set_ne hj, e'], q⟩
  · simp
  · intro i _ hn
    have : r ≠ i := fun e => hn ⟨r', e ▸ hr⟩
    exact List.getElem?_set_ne this
  · simp
  · intro i _ hn
    have : r' ≠ i := fun e => hn ⟨r, e ▸ hr⟩
    exact List.getElem?_set_ne this

theorem HRel.set_th {h1 h2 : Heap} (h : HRel P w h1 h2) {r r' : Nat} (hr : w.th r r') {c c' : Thunk}
    (hc : ThRel P w c c') :
    HRel P w (h1.1, h1.2.set r c) (h2.1, h2.2.set r' c') ∧
      HExt w w h1 h2 (h1.1, h1.2.set r c) (h2.1, h2.2.set r' c') := by
  obtain ⟨c0, c0', e0, e0', -⟩ := h.th hr
  have l1 := (List.getElem?_eq_some_iff.1 e0).1
  have l2 := (List.getElem?_eq_some_iff.1 e0').1
  refine ⟨⟨h.st_inj, h.th_inj, h.st, ?_⟩, .refl w, .inl, .inl, ⟨Nat.le_refl _, ?_, fun _ _ _ => rfl, ?_⟩,
    ⟨Nat.le_refl _, ?_, fun _ _ _ => rfl, ?_⟩⟩
  · intro i j hij
    by_cases hi : r = i
    · have hj : r' = j := (h.th_inj hr hij).1 hi
      subst hi; subst hj
      exact ⟨c, c', by simp [l1], by simp [l2], hc⟩
    · have hj : r' ≠ j := fun e => hi ((h.th_inj hr hij).2 e)
      obtain ⟨d, d', e, e', q⟩ := h.th hij
      exact ⟨d, d', by rw [List.getElem?_set_ne hi, e], by rw [List.getElem?_set_ne hj, e'], q⟩
  · simp
  · intro i _ hn
    have : r ≠ i := fun e => hn ⟨r', e ▸ hr⟩
    exact List.getElem?_set_ne this
  · simp
  · intro i _ hn
    have : r' ≠ i := fun e => hn ⟨r, e ▸ hr⟩
    exact List.getElem?_set_ne this

theorem borrowState_ok {r : Nat} {s s' : St} {st : State} (h : Kontroli.borrowState r s = .ok (st, s')) :
    s' = s ∧ ∃ c, s.states[r]? = some c ∧ c.borrowed = false ∧ c.state = st := by
  unfold Kontroli.borrowState at h
  split at h
  · cases h
  · next c e =>
    split at h
    · cases h
    · next hb => cases h; exact ⟨rfl, c, e, by simpa using hb, rfl⟩

theorem lockState_ok {r : Nat} {s s' : St} {c : WState} (h : Kontroli.lockState r s = .ok (c, s')) :
    s.states[r]? = some c ∧ c.borrowed = false ∧ s' = { s with states := s.states.set r { c with borrowed := true } } := by
  unfold Kontroli.lockState at h
  split at h
  · cases h
  · next c e =>
    split at h
    · cases h
    · next hb => cases h; exact ⟨e, by simpa using hb, rfl⟩

theorem Sim.borrowState {r r' : Nat} (h : w.st r r') :
    Sim P w (borrowState r) (borrowState r') (fun w' a b => StRel P w' a b) := by
  intro s1 s2 a s1' b s2' hr h1 h2
  obtain ⟨rfl, c, e, hb, rfl⟩ := borrowState_ok h1
  obtain ⟨rfl, c', e', -, rfl⟩ := borrowState_ok h2
  obtain ⟨d, d', f, f', q⟩ := hr.st h
  rw [show s1'.heap.1 = s1'.states from rfl, e] at f
  rw [show s2'.heap.1 = s2'.states from rfl, e'] at f'
  cases f; cases f'
  exact ⟨w, .refl _ _ _, hr, q.state hb⟩

theorem Sim.getThunk {r r' : Nat} (h : w.th r r') :
    Sim P w (getThunk r) (getThunk r') (fun w' a b => ThRel P w' a b) := by
  intro s1 s2 a s1' b s2' hr h1 h2
  obtain ⟨d, d', f, f', q⟩ := hr.th h
  unfold Kontroli.getThunk at h1 h2
  rw [show s1.thunks[r]? = some d from f] at h1
  rw [show s2.thunks[r']? = some d' from f'] at h2
  cases h1; cases h2
  exact ⟨w, .refl _ _ _, hr, q⟩

theorem Sim.setThunk {r r' : Nat} (h : w.th r r') {c c' : Thunk} (hc : ThRel P w c c') :
    Sim P w (setThunk r c) (setThunk r' c') (fun w' _ _ => w' = w) := by
  intro s1 s2 a s1' b s2' hr h1 h2
  unfold Kontroli.setThunk at h1 h2
  cases h1; cases h2
  exact ⟨w, (hr.set_th h hc).2, (hr.set_th h hc).1, rfl⟩

end

/-- two traversals of the same plain term with closures that behave alike -/
theorem Trav.sim {P : Prop} {w0 : Pairs} {R R' : Nat → Nat → Heap → STerm → Heap → Prop}
    (hR : ∀ w n k h1 h2 u h1' v h2', w0.Le w → k ≤ n → HRel P w h1 h2 → R n k h1 u h1' → R' n k h2 v h2' →
      ∃ w', HExt w w' h1 h2 h1' h2' ∧ HRel P w' h1' h2' ∧ TEq P u v)
    (t : Tm) {k : Nat} {w : Pairs} {h1 h2 h1' h2' : Heap} {t1 t2 : Tm} {L L' : List STerm} (hw : w0.Le w) (hr : HRel P w h1 h2)
    (T : Trav R t k h1 t1 L h1') (T' : Trav R' t k h2 t2 L' h2') :
    ∃ w', HExt w w' h1 h2 h1' h2' ∧ HRel P w' h1' h2' ∧ t1 = t2 ∧ List.Forall₂ (TEq P) L L' := by
  induction t generalizing k w h1 h2 h1' h2' t1 t2 L L' with
  | kind => cases T; cases T'; exact ⟨w, .refl _ _ _, hr, rfl, .nil⟩
  | type => cases T; cases T'; exact ⟨w, .refl _ _ _, hr, rfl, .nil⟩
  | const c => cases T; cases T'; exact ⟨w, .refl _ _ _, hr, rfl, .nil⟩
  | var n =>
    cases T with
    | low hk =>
      cases T' with
      | low => exact ⟨w, .refl _ _ _, hr, rfl, .nil⟩
      | var hk' => omega
    | var hk r =>
      cases T' with
      | low hk' => omega
      | var _ r' =>
        obtain ⟨w', e, q, q'⟩ := hR w n k _ _ _ _ _ _ hw hk hr r r'
        exact ⟨w', e, q, q'.1, .cons q' .nil⟩
  | app f a ih1 ih2 =>
    cases T with
    | app x y =>
      cases T' with
      | app x' y' =>
        obtain ⟨w1, e1, q1, rfl, l1⟩ := ih1 hw hr x x'
        obtain ⟨w2, e2, q2, rfl, l2⟩ := ih2 (hw.trans e1.le) q1 y y'
        exact ⟨w2, e1.trans e2, q2, rfl, List.rel_append l1 l2⟩
  | lam A b ih1 ih2 =>
    cases T with
    | lam x y =>
      cases T' with
      | lam x' y' =>
        obtain ⟨w1, e1, q1, rfl, l1⟩ := ih2 hw hr x x'
        obtain ⟨w2, e2, q2, rfl, l2⟩ := ih1 (hw.trans e1.le) q1 y y'
        exact ⟨w2, e1.trans e2, q2, rfl, List.rel_append l1 l2⟩
  | dlam b ih =>
    cases T with
    | dlam x =>
      cases T' with
      | dlam x' =>
        obtain ⟨w1, e1, q1, rfl, l1⟩ := ih hw hr x x'
        exact ⟨w1, e1, q1, rfl, l1⟩
  | pi A b ih1 ih2 =>
    cases T with
    | pi x y =>
      cases T' with
      | pi x' y' =>
        obtain ⟨w1, e1, q1, rfl, l1⟩ := ih1 hw hr x x'
        obtain ⟨w2, e2, q2, rfl, l2⟩ := ih2 (hw.trans e1.le) q1 y y'
        exact ⟨w2, e1.trans e2, q2, rfl, List.rel_append l1 l2⟩

theorem simForall₂_left {P : Prop} {L L' : List STerm} (h : List.Forall₂ (TEq P) L L') (p : P) :
    (∀ u ∈ L, u.Proper) ∧ ∀ u ∈ L', u.Proper := by
  induction h with
  | nil => exact ⟨by simp, by simp⟩
  | cons h _ ih =>
    have := h.2 p
    exact ⟨fun u hu => by rcases List.mem_cons.1 hu with rfl | hu; exacts [this.1, ih.1 u hu],
      fun u hu => by rcases List.mem_cons.1 hu with rfl | hu; exacts [this.2, ih.2 u hu]⟩

/-- substitutions on terms that denote the same, with closures that behave alike -/
theorem Sim.applySubst {P : Prop} {w : Pairs} {S S' : Nat → Nat → M STerm}
    (hS : ∀ w' n k, w.Le w' → k ≤ n → Sim P w' (S n k) (S' n k) (fun _ => TEq P)) {t u : STerm} (htu : TEq P t u) (k : Nat) :
    Sim P w (applySubst S t k) (applySubst S' u k) (fun _ a b => TEq P a.1 b.1) := by
  intro s1 s2 a s1' b s2' hr h1 h2
  obtain ⟨L, T, g, -⟩ := applySubst_trav t k s1 s1' a h1
  obtain ⟨L', T', g', -⟩ := applySubst_trav u k s2 s2' b h2
  rw [← htu.1] at T'
  have hO : ∀ w' n k h1 h2 u h1' v h2', w.Le w' → k ≤ n → HRel P w' h1 h2 → Outs S n k h1 u h1' → Outs S' n k h2 v h2' →
      ∃ w'', HExt w' w'' h1 h2 h1' h2' ∧ HRel P w'' h1' h2' ∧ TEq P u v := by
    rintro w' n k h1 h2 u h1' v h2' hw hk hr ⟨s1, s1', rfl, rfl, e⟩ ⟨s2, s2', rfl, rfl, e'⟩
    exact hS w' n k hw hk _ _ _ _ _ _ hr e e'
  obtain ⟨w', e, q, q1, q2⟩ := Trav.sim hO t.den (.refl w) hr T T'
  exact ⟨w', e, q, q1, fun p => ⟨g (htu.2 p).1 (simForall₂_left q2 p).1, g' (htu.2 p).2 (simForall₂_left q2 p).2⟩⟩

section
variable {P : Prop} {w : Pairs}

theorem Sim.shift {t u : STerm} (h : TEq P t u) (k : Nat) : Sim P w (shift t k) (shift u k) (fun _ => TEq P) :=
  .old fun _ _ _ _ _ _ h1 h2 => ⟨.of_eq (shift_heap h1).1, .of_eq (shift_heap h2).1,
    by rw [(shift_heap h1).2.1, (shift_heap h2).2.1, h.1],
    fun p => ⟨(shift_heap h1).2.2 (h.2 p).1, (shift_heap h2).2.2 (h.2 p).2⟩⟩

theorem TEq.list_den {ts us : List STerm} (h : List.Forall₂ (TEq P) ts us) : ts.map STerm.den = us.map STerm.den := by
  induction h with
  | nil => rfl
  | cons h _ ih => simp only [List.map_cons, h.1, ih]

theorem Sim.applyArgs {t u : STerm} (h : TEq P t u) {ts us : List STerm} (hs : List.Forall₂ (TEq P) ts us) (hne : ts ≠ []) :
    Sim P w (applyArgs t ts) (applyArgs u us) (fun _ => TEq P) := by
  have hne' : us ≠ [] := by
    rintro rfl
    cases hs
    exact hne rfl
  exact .old fun _ _ _ _ _ _ h1 h2 => ⟨.of_eq (applyArgs_heap h1).1, .of_eq (applyArgs_heap h2).1,
    by rw [(applyArgs_heap h1).2.1, (applyArgs_heap h2).2.1, h.1, TEq.list_den hs],
    fun p => ⟨(applyArgs_heap h1).2.2 hne (h.2 p).1 (simForall₂_left hs p).1,
      (applyArgs_heap h2).2.2 hne' (h.2 p).2 (simForall₂_left hs p).2⟩⟩

end

end Kontroli
