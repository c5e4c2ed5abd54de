import Mathlib.Data.Finset.Card
import Verif.Proofs.Machine

/-!
# Computations that stop

A family of computations, indexed by the fuel, stops if from some fuel on its result is the same and not `timeout`.
-/

namespace Kontroli

/-- from some fuel on the result is the same, and not `timeout` -/
def Halts {α : Type} (F : Nat → M α) (s : St) : Prop := ∃ n r, r ≠ .timeout ∧ ∀ m, n ≤ m → F m s = r

/-- never `timeout` -/
def NT {α : Type} (m : M α) : Prop := ∀ s, m s ≠ .timeout

section
variable {α β : Type}

theorem Halts.of_nt {m : M α} (h : NT m) (s : St) : Halts (fun _ => m) s := ⟨0, m s, h s, fun _ _ => rfl⟩

theorem Halts.bind {F : Nat → M α} {f : Nat → α → M β} {s : St} (h : Halts F s)
    (hf : ∀ m a s', F m s = .ok (a, s') → Halts (fun m => f m a) s') : Halts (fun m => M.bind (F m) (f m)) s := by
  obtain ⟨n, r, hr, hn⟩ := h
  cases r with
  | ok p =>
    obtain ⟨a, s'⟩ := p
    obtain ⟨n', r', hr', hn'⟩ := hf n a s' (hn n (Nat.le_refl _))
    refine ⟨max n n', r', hr', fun m hm => ?_⟩
    simp only [M.bind]
    rw [hn m (by omega)]
    exact hn' m (by omega)
  | err e => exact ⟨n, .err e, by simp, fun m hm => by simp only [M.bind]; rw [hn m hm]⟩
  | panic => exact ⟨n, .panic, by simp, fun m hm => by simp only [M.bind]; rw [hn m hm]⟩
  | timeout => exact absurd rfl hr

theorem Halts.succ {F : Nat → M α} {s : St} (h : Halts (fun m => F (m + 1)) s) : Halts F s := by
  obtain ⟨n, r, hr, hn⟩ := h
  refine ⟨n + 1, r, hr, fun m hm => ?_⟩
  obtain ⟨m, rfl⟩ : ∃ k, m = k + 1 := ⟨m - 1, by omega⟩
  exact hn m (by omega)

theorem NT.pure (a : α) : NT (M.pure a) := fun _ h => by simp [M.pure] at h
theorem NT.panic : NT (M.panic : M α) := fun _ h => by simp [M.panic] at h
theorem NT.throw (e : KError) : NT (M.throw e : M α) := fun _ h => by simp [M.throw] at h
theorem NT.okOr (e : KError) (o : Option α) : NT (M.okOr e o) := by
  cases o with
  | none => exact .throw e
  | some a => exact .pure a
theorem NT.tick : NT tick := fun _ h => by simp [Kontroli.tick] at h
theorem NT.bind {m : M α} {f : α → M β} (h : NT m) (hf : ∀ a, NT (f a)) : NT (M.bind m f) := by
  intro s e
  unfold M.bind at e
  split at e
  · exact hf _ _ e
  · simp at e
  · simp at e
  · next h' => exact h s h'
theorem NT.ite {c : Prop} [Decidable c] {m m' : M α} (h : NT m) (h' : NT m') : NT (if c then m else m') := by
  split
  · exact h
  · exact h'

/-- stops from all states with the property, and keeps it -/
def HP (P : St → Prop) (F : Nat → M α) : Prop :=
  ∀ s, P s → Halts F s ∧ ∀ m a s', F m s = .ok (a, s') → P s'

variable {P : St → Prop}

theorem HP.pure (a : α) : HP P (fun _ => M.pure a) :=
  fun s hP => ⟨.of_nt (.pure a) s, fun m b s' h => by cases h; exact hP⟩

theorem HP.bind {F : Nat → M α} {f : Nat → α → M β} (h : HP P F) (hf : ∀ a, HP P (fun m => f m a)) :
    HP P (fun m => M.bind (F m) (f m)) := by
  intro s hP
  refine ⟨(h s hP).1.bind fun m a s' e => (hf a s' ((h s hP).2 m a s' e)).1, fun m b s' e => ?_⟩
  obtain ⟨a, s1, h1, h2⟩ := bind_ok' e
  exact (hf a s1 ((h s hP).2 m a s1 h1)).2 m b s' h2

theorem HP.ite {c : Prop} [Decidable c] {F F' : Nat → M α} (h : c → HP P F) (h' : ¬ c → HP P F') :
    HP P (fun m => if c then F m else F' m) := by
  by_cases hc : c
  · simpa only [if_pos hc] using h hc
  · simpa only [if_neg hc] using h' hc

theorem HP.tick (hT : ∀ s, P s → P s.ticked) : HP P (fun _ => Kontroli.tick) :=
  fun s hP => ⟨.of_nt .tick s, fun m b s' h => by cases h; exact hT s hP⟩

section
variable {S : Nat → Nat → Nat → M STerm}

mutual
  theorem applySubstL_hp (hS : ∀ n k, k ≤ n → HP P (fun m => S m n k)) (t : LTerm) (k : Nat) :
      HP P (fun m => applySubstL (S m) t k) := by
    cases t with
    | type => simp only [applySubstL]; exact .pure _
    | const c => simp only [applySubstL]; exact .pure _
    | var n =>
      simp only [applySubstL]
      exact .ite (fun h => .bind (hS n k h) fun _ => .pure _) fun _ => .pure _
    | comb c =>
      simp only [applySubstL]
      exact .bind (applySubstLC_hp hS c k) fun _ => .pure _
  theorem applySubstLC_hp (hS : ∀ n k, k ≤ n → HP P (fun m => S m n k)) (c : Comb Str LTerm) (k : Nat) :
      HP P (fun m => applySubstLC (S m) c k) := by
    cases c with
    | appl f args =>
      simp only [applySubstLC]
      exact .bind (applySubstL_hp hS f k) fun _ => .bind (applySubstLList_hp hS args k) fun _ => .pure _
    | abst id ty f =>
      simp only [applySubstLC]
      refine .bind (applySubstL_hp hS f (k + 1)) fun _ => ?_
      cases ty with
      | none =>
        simp only [applySubstLOpt]
        exact .bind (.pure _) fun _ => .pure _
      | some ty =>
        simp only [applySubstLOpt]
        exact .bind (.bind (applySubstL_hp hS ty k) fun _ => .pure _) fun _ => .pure _
    | prod id ty f =>
      simp only [applySubstLC]
      exact .bind (applySubstL_hp hS ty k) fun _ => .bind (applySubstL_hp hS f (k + 1)) fun _ => .pure _
  theorem applySubstLList_hp (hS : ∀ n k, k ≤ n → HP P (fun m => S m n k)) (ts : List LTerm) (k : Nat) :
      HP P (fun m => applySubstLList (S m) ts k) := by
    cases ts with
    | nil => simp only [applySubstLList]; exact .pure _
    | cons t ts =>
      simp only [applySubstLList]
      exact .bind (applySubstL_hp hS t k) fun _ => .bind (applySubstLList_hp hS ts k) fun _ => .pure _
end

mutual
  theorem applySubst_hp (hT : ∀ s, P s → P s.ticked) (hS : ∀ n k, k ≤ n → HP P (fun m => S m n k)) (t : STerm) (k : Nat) :
      HP P (fun m => applySubst (S m) t k) := by
    cases t with
    | kind => simp only [applySubst]; exact .pure _
    | type => simp only [applySubst]; exact .pure _
    | const c => simp only [applySubst]; exact .pure _
    | var n =>
      simp only [applySubst]
      exact .ite (fun h => .bind (hS n k h) fun _ => .pure _) fun _ => .pure _
    | lcomb c =>
      simp only [applySubst]
      exact .bind (applySubstLC_hp hS c k) fun _ => .pure _
    | scomb c =>
      simp only [applySubst]
      exact .bind (.tick hT) fun _ => .bind (applySubstC_hp hT hS c k) fun _ =>
        .ite (fun _ => .pure _) fun _ => .ite (fun _ => .pure _) fun _ => .pure _
  theorem applySubstC_hp (hT : ∀ s, P s → P s.ticked) (hS : ∀ n k, k ≤ n → HP P (fun m => S m n k)) (c : Comb Str STerm)
      (k : Nat) : HP P (fun m => applySubstC (S m) c k) := by
    cases c with
    | appl f args =>
      simp only [applySubstC]
      exact .bind (applySubst_hp hT hS f k) fun _ => .bind (applySubstList_hp hT hS args k) fun _ => .pure _
    | abst id ty f =>
      simp only [applySubstC]
      refine .bind (applySubst_hp hT hS f (k + 1)) fun _ => ?_
      cases ty with
      | none =>
        simp only [applySubstOpt]
        exact .bind (.pure _) fun _ => .pure _
      | some ty =>
        simp only [applySubstOpt]
        exact .bind (.bind (applySubst_hp hT hS ty k) fun _ => .pure _) fun _ => .pure _
    | prod id ty f =>
      simp only [applySubstC]
      exact .bind (applySubst_hp hT hS ty k) fun _ => .bind (applySubst_hp hT hS f (k + 1)) fun _ => .pure _
  theorem applySubstList_hp (hT : ∀ s, P s → P s.ticked) (hS : ∀ n k, k ≤ n → HP P (fun m => S m n k)) (ts : List STerm)
      (k : Nat) : HP P (fun m => applySubstList (S m) ts k) := by
    cases ts with
    | nil => simp only [applySubstList]; exact .pure _
    | cons t ts =>
      simp only [applySubstList]
      exact .bind (applySubst_hp hT hS t k) fun _ => .bind (applySubstList_hp hT hS ts k) fun _ => .pure _
end

end

theorem HP.nt {m : M α} (h : HP (fun _ => True) (fun _ => m)) : NT m := by
  intro s e
  obtain ⟨⟨n, r, hr, hn⟩, -⟩ := h s trivial
  exact hr ((hn n (Nat.le_refl _)).symm.trans e)

theorem NT.hp {m : M α} (h : NT m) : HP (fun _ => True) (fun _ => m) :=
  fun s _ => ⟨.of_nt h s, fun _ _ _ _ => trivial⟩

theorem NT.applySubst {S : Nat → Nat → M STerm} (hS : ∀ n k, k ≤ n → NT (S n k)) (t : STerm) (k : Nat) :
    NT (applySubst S t k) :=
  HP.nt (applySubst_hp (S := fun _ => S) (fun _ _ => trivial) (fun n k h => (hS n k h).hp) t k)

theorem NT.shiftMut (t : STerm) (k : Nat) : NT (shiftMut t k) :=
  .bind (.applySubst (fun _ _ _ => .pure _) t 0) fun _ => .pure _
theorem NT.shift (t : STerm) (k : Nat) : NT (shift t k) := .ite (.shiftMut t k) (.pure _)
theorem NT.subst (t u : STerm) : NT (subst t u) :=
  .bind (.applySubst (fun _ _ _ => .ite (.shift _ _) (.ite .panic (.pure _))) t 0) fun _ => .pure _
theorem NT.applyArgs (t : STerm) (args : List STerm) : NT (applyArgs t args) := by
  unfold Kontroli.applyArgs
  split
  · exact .bind .tick fun _ => .ite (.pure _) (.pure _)
  · exact .pure _
theorem NT.shiftApp (t : STerm) : NT (shiftApp t) := .bind (.shiftMut t 1) fun _ => .applyArgs _ _

theorem NT.newState (st : State) : NT (newState st) := fun _ h => by simp [Kontroli.newState] at h
theorem NT.newThunk (r : Nat) : NT (newThunk r) := fun _ h => by simp [Kontroli.newThunk] at h
theorem NT.borrowState (r : Nat) : NT (borrowState r) := fun _ h => by
  unfold Kontroli.borrowState at h
  split at h
  · simp at h
  · split at h <;> simp at h
theorem NT.lockState (r : Nat) : NT (lockState r) := fun _ h => by
  unfold Kontroli.lockState at h
  split at h
  · simp at h
  · split at h <;> simp at h
theorem NT.unlockState (r : Nat) (w : WState) : NT (unlockState r w) := fun _ h => by simp [Kontroli.unlockState] at h
theorem NT.getThunk (r : Nat) : NT (getThunk r) := fun _ h => by
  unfold Kontroli.getThunk at h
  split at h <;> simp at h
theorem NT.setThunk (r : Nat) (t : Thunk) : NT (setThunk r t) := fun _ h => by simp [Kontroli.setThunk] at h
theorem NT.newStates (ctx : List Nat) (ts : List STerm) : NT (newStates ctx ts) := by
  induction ts with
  | nil => exact .pure _
  | cons t ts ih => exact .bind ih fun _ => .bind (.newState _) fun _ => .pure _
theorem NT.finish (st : State) : NT (finish st) := by
  unfold Kontroli.finish
  split
  · exact .ite (.pure _) .panic
  · exact .pure _
theorem NT.step2 (eta : Bool) (cns : List (STerm × STerm)) (c c' : SComb) : NT (step2 eta cns c c') := by
  unfold Kontroli.step2
  split
  · exact .pure _
  · exact .pure _
  · exact .ite (.pure _) (.pure _)
  · exact .ite (.bind (.shiftApp _) fun _ => .pure _) (.pure _)
  · exact .ite (.bind (.shiftApp _) fun _ => .pure _) (.pure _)
  · exact .pure _
theorem NT.step1 (cns : List (STerm × STerm)) (c : SComb) (t : STerm) : NT (step1 cns c t) := by
  unfold Kontroli.step1
  split
  · exact .bind (.shiftApp _) fun _ => .pure _
  · exact .pure _
theorem NT.step (eta : Bool) (cns : List (STerm × STerm)) (t t' : STerm) : NT (step eta cns t t') := by
  unfold Kontroli.step
  split <;> first | exact .pure _ | exact .step2 _ _ _ _ | exact .ite (.pure _) (.pure _) | exact .ite (.step1 _ _ _) (.pure _)

end

/-! ## Stopping under the heap invariant -/

/-- stops in every heap satisfying the invariant -/
def TH (R : RuleMap) (eta : Bool) (G : Ghost) (q : ℚ) {α : Type} (F : Nat → M α) : Prop := ∀ s, World R eta G q s → Halts F s

section
variable {R : RuleMap} {eta : Bool} {G : Ghost} {q : ℚ} {α β : Type}

theorem TH.of_nt {m : M α} (h : NT m) : TH R eta G q (fun _ => m) := fun s _ => .of_nt h s

theorem TH.pure (a : α) : TH R eta G q (fun _ => M.pure a) := .of_nt (.pure a)

theorem TH.succ {F : Nat → M α} (h : TH R eta G q (fun m => F (m + 1))) : TH R eta G q F := fun s hW => (h s hW).succ

/-- a lower level suffices -/
theorem TH.lift {F : Nat → M α} {q' : ℚ} (h : TH R eta G q' F) (hq : q' ≤ q) : TH R eta G q F := fun s hW => h s (hW.mono hq)

theorem TH.bind {F : Nat → M α} {f : Nat → α → M β} {Φ : Ghost → α → Prop} (h : TH R eta G q F)
    (hT : ∀ m, Tri R eta G q (F m) Φ) (hf : ∀ G' a, Ghost.Ext G G' → Φ G' a → TH R eta G' q (fun m => f m a)) :
    TH R eta G q (fun m => M.bind (F m) (f m)) := by
  intro s hW
  refine (h s hW).bind fun m a s' e => ?_
  obtain ⟨G', e', hW', -, hΦ⟩ := wp_ok (hT m s hW) e
  exact hf G' a e' hΦ s' hW'

theorem TH.bindR {F : Nat → M α} {f : Nat → α → M β} {Φ : α → Prop} (h : TH R eta G q F)
    (hT : ∀ m, TriR R eta G q (F m) Φ) (hf : ∀ a, Φ a → TH R eta G q (fun m => f m a)) :
    TH R eta G q (fun m => M.bind (F m) (f m)) := by
  intro s hW
  refine (h s hW).bind fun m a s' e => ?_
  obtain ⟨hW', -, hΦ⟩ := wp_ok (hT m s hW) e
  exact hf a hΦ s' hW'

theorem TH.ite {c : Prop} [Decidable c] {F F' : Nat → M α} (h : c → TH R eta G q F) (h' : ¬ c → TH R eta G q F') :
    TH R eta G q (fun m => if c then F m else F' m) := by
  by_cases hc : c
  · simpa only [if_pos hc] using h hc
  · simpa only [if_neg hc] using h' hc

theorem TH.hp {F : Nat → M α} {Φ : α → Prop} (h : TH R eta G q F) (hT : ∀ m, TriR R eta G q (F m) Φ) :
    HP (World R eta G q) F :=
  fun s hW => ⟨h s hW, fun m a s' e => (wp_ok (hT m s hW) e).1⟩

/-! ### Reading back -/

/-- the cells of rank below `q` -/
def Ghost.count (G : Ghost) (q : ℚ) : Nat := ((Finset.range G.ns).filter fun r => G.rs r < q).card

theorem Ghost.count_lt {r : Nat} (hr : r < G.ns) (hq : G.rs r < q) : G.count (G.rs r) < G.count q := by
  refine Finset.card_lt_card (Finset.ssubset_iff_of_subset ?_ |>.2 ⟨r, ?_, ?_⟩)
  · intro x hx
    simp only [Finset.mem_filter] at hx ⊢
    exact ⟨hx.1, lt_trans hx.2 hq⟩
  · simp [hr, hq]
  · simp

variable {gc : GCtx}

theorem TH.force {a : Nat} (hrd : ∀ m, RdOk R eta (ops gc m).rd)
    (hR : ∀ r, r < G.ns → G.rs r < G.rt a → TH R eta G (G.rt a) (fun m => readR (ops gc m).rd r)) (ha : a < G.nt) (hq : G.rt a < q) :
    TH R eta G q (fun m => Kontroli.force (ops gc m).rd a) := by
  intro s hW
  unfold Kontroli.force
  refine Halts.bind (.of_nt (.getThunk a) s) fun _ th s' e => ?_
  have hth : s.thunks[a]? = some th ∧ s' = s := by
    unfold getThunk at e
    split at e
    · simp at e
    · next h => cases e; exact ⟨h, rfl⟩
  obtain ⟨hth, rfl⟩ := hth
  have hok := hW.th a th hth
  cases th with
  | busy => exact .of_nt .panic _
  | done t => exact .of_nt (.pure t) _
  | todo r =>
    obtain ⟨hr, hlt, -⟩ := hok
    refine Halts.bind (.of_nt (.setThunk a .busy) _) fun _ u s1 e1 => ?_
    cases e1
    have hW1 : World R eta G (G.rt a) { s' with thunks := s'.thunks.set a .busy } :=
      hW.setThunk (t := .busy) ha trivial hq.le (fun _ => le_refl _)
    refine Halts.bind (hR r hr hlt _ hW1) fun _ t s2 _ => ?_
    exact .of_nt (.bind (.setThunk _ _) fun _ => .pure _) _

/-- reading back stops -/
theorem TH.rd (hrd : ∀ m, RdOk R eta (ops gc m).rd) (n : Nat) : ∀ (q : ℚ) (st : State), G.count q = n → G.StOk q st →
    TH R eta G q (fun m => (ops gc m).rd st) := by
  induction n using Nat.strong_induction_on with
  | _ n ih =>
  intro q st hn hst
  have hread : ∀ q' ≤ q, ∀ r, r < G.ns → G.rs r < q' → TH R eta G q' (fun m => readR (ops gc m).rd r) := by
    intro q' hq' r hr hlt
    unfold readR
    refine TH.bindR (F := fun _ => Kontroli.borrowState r) (.of_nt (.borrowState r)) (fun _ => TriR.borrowState hr hlt) ?_
    rintro st' ⟨h1, -, -⟩
    refine (ih (G.count (G.rs r)) ?_ (G.rs r) st' rfl h1).lift hlt.le
    rw [← hn]
    exact Ghost.count_lt hr (lt_of_lt_of_le hlt hq')
  have hforce : ∀ a, a < G.nt → G.rt a < q → TH R eta G q (fun m => Kontroli.force (ops gc m).rd a) :=
    fun a ha hq => TH.force hrd (hread _ hq.le) ha hq
  have hargs : ∀ l : List Nat, (∀ r ∈ l, r < G.ns ∧ G.rs r < q) → TH R eta G q (fun m => readArgs (ops gc m).rd l) := by
    intro l hl
    induction l with
    | nil => exact .pure _
    | cons r l ihl =>
      have hr := hl r List.mem_cons_self
      have hl' := fun r' hr' => hl r' (List.mem_cons_of_mem _ hr')
      unfold readArgs
      refine TH.bindR (hread q (le_refl _) r hr.1 hr.2) (fun m => TriR.readR (hrd m) hr.1 hr.2) fun t _ => ?_
      exact TH.bindR (ihl hl') (fun m => TriR.readArgs (hrd m) l hl') fun ts _ => .pure _
  have hps : TH R eta G q (fun m => psubstTerm (ops gc m).rd st.term st.ctx) := by
    unfold psubstTerm
    refine .ite (fun _ => .pure _) fun _ => ?_
    intro s hW
    have hhp : HP (World R eta G q) (fun m => applySubst (psubst (ops gc m).rd st.ctx) st.term 0) := by
      refine applySubst_hp (S := fun m => psubst (ops gc m).rd st.ctx) (fun s h => h.ticked) (fun n k hk => ?_) st.term 0
      refine TH.hp ?_ (fun m => TriR.psubst (hrd m) hst.1 hk)
      unfold psubst
      refine .ite (fun _ => .of_nt .panic) fun _ => ?_
      cases hc : st.ctx[n - k]? with
      | some a =>
        have ha := hst.1 a (List.mem_of_getElem? hc)
        exact TH.bindR (hforce a ha.1 ha.2) (fun m => TriR.force (hrd m) ha.1 ha.2) fun t _ => .of_nt (.shift t k)
      | none => exact .ite (fun _ => .of_nt .panic) fun _ => .pure _
    exact (hhp s hW).1.bind fun _ _ _ _ => .of_nt (.pure _) _
  refine TH.succ ?_
  change TH R eta G q (fun m => readBody (ops gc m).rd st)
  unfold readBody
  refine TH.bindR hps (fun m => TriR.psubstTerm (stack := st.stack) (hrd m) hst.1 st.term) fun t _ => ?_
  refine .ite (fun _ => .pure _) fun _ => ?_
  exact TH.bindR (hargs st.stack hst.2) (fun m => TriR.readArgs (hrd m) st.stack hst.2) fun ts _ => .of_nt (.applyArgs _ _)

end

section
variable {gc : GCtx} {G : Ghost} {q : ℚ}

theorem rdOk (gc : GCtx) (m : Nat) : RdOk gc.rules gc.eta (ops gc m).rd := (opsOk gc m).rd

theorem TH.readback {st : State} (h : G.StOk q st) : TH gc.rules gc.eta G q (fun m => (ops gc m).rd st) :=
  TH.rd (rdOk gc) _ q st rfl h

theorem TH.readR {r : Nat} (hr : r < G.ns) (hq : G.rs r < q) : TH gc.rules gc.eta G q (fun m => readR (ops gc m).rd r) := by
  unfold Kontroli.readR
  refine TH.bindR (F := fun _ => Kontroli.borrowState r) (.of_nt (.borrowState r)) (fun _ => TriR.borrowState hr hq) ?_
  rintro st' ⟨h1, -, -⟩
  exact (TH.readback h1).lift hq.le

theorem TH.forced {a : Nat} (ha : a < G.nt) (hq : G.rt a < q) : TH gc.rules gc.eta G q (fun m => Kontroli.force (ops gc m).rd a) :=
  TH.force (rdOk gc) (fun _ => TH.readR) ha hq

end

end Kontroli
