import Verif.Proofs.Heap
import Verif.Proofs.Readback

/-!
# Soundness and panic freedom of the evaluator
-/

namespace Kontroli

section
variable {R : RuleMap} {eta : Bool}

/-- Correctness of readback. -/
def RdOk (R : RuleMap) (eta : Bool) (rd : State → M STerm) : Prop :=
  ∀ G q st, G.StOk q st → TriR R eta G q (rd st) (fun t => Rev R eta t.den (G.den st) ∧ RdS G R eta st t)

/-- Correctness of the recursive entry points. -/
structure OpsOk (R : RuleMap) (eta : Bool) (o : Ops) : Prop where
  wh : ∀ G q st, G.StOk q st →
    Tri R eta G q (o.wh st) (fun G' st' => G'.StOk q st' ∧ Rev R eta (G'.den st') (G.den st) ∧ MWhnf G' R eta st')
  rd : RdOk R eta o.rd
  cv : ∀ G q cns, Tri R eta G q (o.cv cns)
    (fun _ b => (b = true → ∀ p ∈ cns, Conv R eta p.1.den p.2.den) ∧
      (b = false → ∃ p ∈ cns, Apart R eta p.1.den p.2.den))

variable {G : Ghost} {q : ℚ}

theorem TriR.readR {rd : State → M STerm} (hrd : RdOk R eta rd) {r : Nat} (hr : r < G.ns) (hq : G.rs r < q) :
    TriR R eta G q (readR rd r) (RdR G R eta r) := by
  unfold Kontroli.readR
  refine TriR.bind (TriR.borrowState hr hq) ?_
  rintro st ⟨h1, h2, h3⟩
  refine (hrd G q st (h1.mono hq.le)).mono fun t h => .mk (h.1.trans h2) ?_
  intro st' hst'
  rw [← (h3 st' hst').1]
  exact h.2

theorem RdR.rev {r : Nat} {t : STerm} (h : RdR G R eta r t) : Rev R eta t.den (G.gs r) :=
  match h with
  | .mk h _ => h

theorem RdRs.rev {rs : List Nat} {ts : List STerm} (h : RdRs G R eta rs ts) :
    List.Forall₂ (Rev R eta) (ts.map STerm.den) (rs.map G.gs) :=
  match h with
  | .nil => .nil
  | .cons h hs => .cons h.rev (RdRs.rev hs)

theorem TriR.readArgs {rd : State → M STerm} (hrd : RdOk R eta rd) (l : List Nat)
    (h : ∀ r ∈ l, r < G.ns ∧ G.rs r < q) :
    TriR R eta G q (readArgs rd l) (RdRs G R eta l) := by
  induction l with
  | nil => exact TriR.pure .nil
  | cons r l ih =>
    unfold Kontroli.readArgs
    have hr := h r List.mem_cons_self
    refine TriR.bind (TriR.readR hrd hr.1 hr.2) ?_
    intro t ht
    refine TriR.bind (ih fun r' hr' => h r' (List.mem_cons_of_mem _ hr')) ?_
    intro ts hts
    exact TriR.pure (.cons ht hts)

theorem TriR.force {rd : State → M STerm} (hrd : RdOk R eta rd) {a : Nat} (ha : a < G.nt) (hq : G.rt a < q) :
    TriR R eta G q (force rd a) (fun t => Rev R eta t.den (G.gt a)) := by
  intro s hW
  have hlen : a < s.thunks.length := by rw [hW.nt]; exact ha
  obtain ⟨th, hth⟩ : ∃ w, s.thunks[a]? = some w := ⟨_, List.getElem?_eq_getElem hlen⟩
  have hok := hW.th a th hth
  have hbusy := hW.ft a ha hq
  unfold Kontroli.force
  rw [wp_bind]
  have hget : getThunk a s = .ok (th, s) := by unfold getThunk; rw [hth]
  unfold wp; rw [hget]
  cases th with
  | busy => unfold bsy at hbusy; rw [hth] at hbusy; simp at hbusy
  | done t => exact ⟨hW, .refl s, hok⟩
  | todo r =>
    obtain ⟨hr, hlt, hconv⟩ := hok
    change wp _ _ s
    rw [wp_bind]
    change wp _ _ { s with thunks := s.thunks.set a .busy }
    have hW1 : World R eta G (G.rt a) { s with thunks := s.thunks.set a .busy } :=
      hW.setThunk (t := .busy) ha trivial hq.le (fun _ => le_refl _)
    rw [wp_bind]
    refine wp_mono (TriR.readR hrd hr hlt _ hW1) ?_
    rintro t s1 ⟨hW1', l1, hc⟩
    rw [wp_bind]
    have hc' : Rev R eta t.den (G.gt a) := hc.rev.trans hconv
    have hW2 := hW1'.setThunk (t := .done t) ha (by unfold ThOk; exact hc') (le_refl _) (by simp)
    have hlen1 : a < s1.thunks.length := by rw [hW1'.nt]; exact ha
    have hl : SameLocks s { s1 with thunks := s1.thunks.set a (.done t) } := by
      refine ⟨fun r => l1.bor r, fun a' => ?_, l1.keep⟩
      rw [bsy_set hlen1]
      split
      · next h => subst h; simp [hbusy]
      · next h => rw [l1.bsy a', bsy_set hlen, if_neg h]
    exact ⟨hW.lift (.refl G) hW2 hl, hl, hc'⟩

theorem ctxSub_shift_lt (ctx : List Nat) {n a : Nat} (h : ctx[n]? = some a) : G.ctxSub ctx n = G.gt a := by
  unfold Ghost.ctxSub; rw [h]

theorem TriR.psubst {rd : State → M STerm} (hrd : RdOk R eta rd) {ctx : List Nat}
    (hctx : ∀ a ∈ ctx, a < G.nt ∧ G.rt a < q) {n k : Nat} (hk : k ≤ n) :
    TriR R eta G q (psubst rd ctx n k) (fun t => Rev R eta t.den (Tm.upn (G.ctxSub ctx) k n)) := by
  unfold Kontroli.psubst
  rw [Tm.upn_ge _ hk]
  refine TriR.ite (fun h => by omega) fun _ => ?_
  split
  · next a ha =>
    have h := hctx a (List.mem_of_getElem? ha)
    refine TriR.bind (TriR.force hrd h.1 h.2) ?_
    intro t ht
    refine (TriR.shift t k).mono ?_
    intro t' heq
    rw [heq, ctxSub_shift_lt ctx ha]
    exact ht.shift k
  · next hnone =>
    have hge : ctx.length ≤ n - k := by
      by_contra hlt
      rw [List.getElem?_eq_getElem (by omega)] at hnone
      simp at hnone
    refine TriR.ite (fun h => by omega) fun _ => TriR.pure ?_
    unfold Ghost.ctxSub
    rw [hnone]
    simp only [STerm.den, Tm.shift, Tm.ren]
    have : n - k - ctx.length + k = n - ctx.length := by omega
    rw [this]
    exact Rev.refl _

theorem Ghost.ctxSub_nil : G.ctxSub [] = Tm.var := by
  funext n; simp [Ghost.ctxSub]

theorem bind_ok' {α β : Type} {m : M α} {f : α → M β} {s s'' : St} {b : β} (h : M.bind m f s = .ok (b, s'')) :
    ∃ a s', m s = .ok (a, s') ∧ f a s' = .ok (b, s'') := by
  unfold M.bind at h
  split at h
  · next a s' e => exact ⟨a, s', e, h⟩
  all_goals simp at h

theorem pure_ok {α : Type} {a b : α} {s s' : St} (h : M.pure a s = .ok (b, s')) : a = b ∧ s = s' := by
  simpa [M.pure] using h

theorem applySubstLC_shape {S : Nat → Nat → M STerm} {c : LComb} {k : Nat} {s s' : St} {r : SComb × Bool}
    (h : applySubstLC S c k s = .ok (r, s')) :
    ((STerm.lcomb c).isPi → (STerm.scomb r.1).isPi) ∧ ((STerm.lcomb c).isAbs → (STerm.scomb r.1).isAbs) := by
  cases c with
  | appl f args => simp [STerm.isPi, STerm.isAbs]
  | prod id ty tm =>
    unfold applySubstLC at h
    obtain ⟨_, _, -, h⟩ := bind_ok' h
    obtain ⟨_, _, -, h⟩ := bind_ok' h
    obtain ⟨rfl, -⟩ := pure_ok h
    simp [STerm.isPi, STerm.isAbs]
  | abst id ty tm =>
    unfold applySubstLC at h
    obtain ⟨_, _, -, h⟩ := bind_ok' h
    obtain ⟨_, _, -, h⟩ := bind_ok' h
    obtain ⟨rfl, -⟩ := pure_ok h
    simp [STerm.isPi, STerm.isAbs]

theorem applySubstC_shape {S : Nat → Nat → M STerm} {c : SComb} {k : Nat} {s s' : St} {r : SComb × Bool}
    (h : applySubstC S c k s = .ok (r, s')) :
    ((STerm.scomb c).isPi → (STerm.scomb r.1).isPi) ∧ ((STerm.scomb c).isAbs → (STerm.scomb r.1).isAbs) := by
  cases c with
  | appl f args => simp [STerm.isPi, STerm.isAbs]
  | prod id ty tm =>
    unfold applySubstC at h
    obtain ⟨_, _, -, h⟩ := bind_ok' h
    obtain ⟨_, _, -, h⟩ := bind_ok' h
    obtain ⟨rfl, -⟩ := pure_ok h
    simp [STerm.isPi, STerm.isAbs]
  | abst id ty tm =>
    unfold applySubstC at h
    obtain ⟨_, _, -, h⟩ := bind_ok' h
    obtain ⟨_, _, -, h⟩ := bind_ok' h
    obtain ⟨rfl, -⟩ := pure_ok h
    simp [STerm.isPi, STerm.isAbs]

/-- substitution keeps the shape of a term -/
theorem applySubst_shape {S : Nat → Nat → M STerm} {ctx stack : List Nat} (hctx : ctx ≠ []) {t : STerm} {k : Nat}
    {s s' : St} {r : STerm × Bool} (h : applySubst S t k s = .ok (r, s')) :
    RdHead { ctx := ctx, term := t, stack := stack } r.1 := by
  cases t with
  | kind => obtain ⟨rfl, -⟩ := pure_ok h; simp [RdHead, STerm.isPi, STerm.isAbs]
  | type => obtain ⟨rfl, -⟩ := pure_ok h; simp [RdHead, STerm.isPi, STerm.isAbs]
  | const c => obtain ⟨rfl, -⟩ := pure_ok h; simp [RdHead, STerm.isPi, STerm.isAbs]
  | var n => simp [RdHead, STerm.isPi, STerm.isAbs, hctx]
  | lcomb c =>
    unfold applySubst at h
    obtain ⟨r1, _, h1, h⟩ := bind_ok' h
    obtain ⟨rfl, -⟩ := pure_ok h
    simpa [RdHead] using applySubstLC_shape h1
  | scomb c =>
    unfold applySubst at h
    obtain ⟨u, _, -, h⟩ := bind_ok' h
    obtain ⟨r1, _, h1, h⟩ := bind_ok' h
    split at h
    · obtain ⟨rfl, -⟩ := pure_ok h
      simpa [RdHead] using applySubstC_shape h1
    · split at h
      · obtain ⟨rfl, -⟩ := pure_ok h
        simpa [RdHead] using applySubstC_shape h1
      · obtain ⟨rfl, -⟩ := pure_ok h
        simp [RdHead]

theorem TriR.psubstTerm {rd : State → M STerm} (hrd : RdOk R eta rd) {ctx stack : List Nat}
    (hctx : ∀ a ∈ ctx, a < G.nt ∧ G.rt a < q) (t : STerm) :
    TriR R eta G q (psubstTerm rd t ctx) (fun t' => Rev R eta t'.den (t.den.sub (G.ctxSub ctx)) ∧
      RdHead { ctx := ctx, term := t, stack := stack } t') := by
  unfold Kontroli.psubstTerm
  refine TriR.ite (fun h => TriR.pure ?_) fun hne => ?_
  · have : ctx = [] := by simpa using h
    subst this
    rw [Ghost.ctxSub_nil, Tm.sub_var]
    exact ⟨Rev.refl _, by simp [RdHead]⟩
  · refine TriR.bind (Φ := fun r => Rev R eta r.1.den (t.den.sub (G.ctxSub ctx)) ∧
      RdHead { ctx := ctx, term := t, stack := stack } r.1) ?_ fun r h => TriR.pure h
    refine (TriR.applySubst (σ := G.ctxSub ctx) (fun n k hk => TriR.psubst hrd hctx hk) t).mono' ?_
    intro r s s' he h
    exact ⟨h, applySubst_shape (by simpa using hne) he⟩

theorem applyArgs_shape {t t' : STerm} {args : List STerm} {s s' : St} (h : applyArgs t args s = .ok (t', s'))
    (ht : ∀ g as, t ≠ .scomb (.appl g as)) : t' = .scomb (.appl t args) := by
  unfold applyArgs at h
  split at h
  · exact absurd rfl (ht _ _)
  · exact (pure_ok h).1.symm

theorem RdOk.body {rd : State → M STerm} (hrd : RdOk R eta rd) : RdOk R eta (readBody rd) := by
  intro G q st hst
  unfold readBody
  refine TriR.bind (TriR.psubstTerm (stack := st.stack) hrd hst.1 st.term) ?_
  rintro t ⟨ht, hsh⟩
  refine TriR.ite (fun h => TriR.pure ?_) fun hne => ?_
  · have : st.stack = [] := by simpa using h
    refine ⟨?_, .nil this hsh⟩
    unfold Ghost.den
    rw [this]
    exact ht
  · refine TriR.bind (TriR.readArgs hrd st.stack hst.2) ?_
    intro ts hts
    refine (TriR.applyArgs t ts).mono' ?_
    intro t' s s' he heq
    refine ⟨?_, .app (by simpa using hne) hsh hts heq (applyArgs_shape he)⟩
    rw [heq]
    unfold Ghost.den
    exact Rev.apps ht hts.rev

theorem Tri.rwhnf {o : Ops} (ho : OpsOk R eta o) {r : Nat} (hr : r < G.ns) (hq : G.rs r < q) :
    Tri R eta G q (rwhnf o r) (fun G' _ => ∃ st, G'.wn r = some st) := by
  intro s hW
  have hlen : r < s.states.length := by rw [hW.ns]; exact hr
  obtain ⟨w, hw⟩ : ∃ w, s.states[r]? = some w := ⟨_, List.getElem?_eq_getElem hlen⟩
  obtain ⟨hst, hcv⟩ := hW.st r w hw
  have hbor := hW.fs r hr hq
  have hwb : w.borrowed = false := by unfold bor at hbor; rw [hw] at hbor; exact hbor
  have hwn : G.wn r = if w.whnfed then some w.state else none := by
    rw [hW.wn r]; unfold wnOf; rw [hw]
  unfold Kontroli.rwhnf
  rw [wp_bind]
  have hlock : lockState r s = .ok (w, { s with states := s.states.set r { w with borrowed := true } }) := by
    unfold lockState; rw [hw]; simp [hwb]
  unfold wp; rw [hlock]
  change wp _ _ _
  rw [wp_bind]
  have hW1 : World R eta G (G.rs r) { s with states := s.states.set r { w with borrowed := true } } :=
    hW.setState (w := { w with borrowed := true }) hr hst hcv hq.le (fun _ => le_refl _) hwn
  have hlk : ∀ s1, SameLocks { s with states := s.states.set r { w with borrowed := true } } s1 →
      ∀ w' : WState, r < s1.states.length →
      SameLocks s { s1 with states := s1.states.set r { w' with borrowed := false } } := by
    intro s1 l1 w' hlen1
    refine ⟨fun r' => ?_, fun a => l1.bsy a, fun r' w1 hw1 hb1 => ?_⟩
    · rw [bor_set hlen1]
      split
      · next h => subst h; simp [hbor]
      · next h => rw [l1.bor r', bor_set hlen, if_neg h]
    · have hne : r ≠ r' := by
        rintro rfl
        rw [hw] at hw1
        cases hw1
        rw [hwb] at hb1
        simp at hb1
      simp only [List.getElem?_set, if_neg hne]
      exact l1.keep r' w1 (by simp only [List.getElem?_set, if_neg hne]; exact hw1) hb1
  by_cases hwf : w.whnfed = true
  · rw [if_pos hwf, wp_pure]
    have hW2 : World R eta G (G.rs r) { s with states :=
        (s.states.set r { w with borrowed := true }).set r { w with borrowed := false } } :=
      hW1.setState (w := { w with borrowed := false }) hr hst hcv (le_refl _) (by simp) hwn
    have hl := hlk _ (.refl _) w (by simpa using hlen)
    refine ⟨G, .refl G, hW.lift (.refl G) hW2 hl, hl, w.state, by rw [hwn, if_pos hwf]⟩
  · rw [if_neg hwf, wp_bind]
    refine wp_mono (ho.wh G (G.rs r) w.state hst _ hW1) ?_
    rintro st' s1 ⟨G1, e1, hW1', l1, hst1, hcv1, hm1⟩
    rw [wp_pure]
    have hr1 : r < G1.ns := Nat.lt_of_lt_of_le hr e1.ns
    have hlen1 : r < s1.states.length := by rw [hW1'.ns]; exact hr1
    have hkeep := l1.keep r { w with borrowed := true } (by simp [List.getElem?_set, hlen]) rfl
    have hnone : G1.wn r = none := by
      rw [hW1'.wn r]; unfold wnOf; rw [hkeep]; simp [hwf]
    obtain ⟨G2, e2, hW2, hwn2, hG2⟩ := hW1'.evaluated (w := { state := st', whnfed := true, borrowed := false }) hr1
      hnone (by rw [e1.rs r hr]; exact hst1) (by rw [e1.gs r hr]; exact hcv1.trans hcv) hm1 rfl
    have hl := hlk s1 l1 { w with state := st', whnfed := true } hlen1
    exact ⟨G2, e1.trans e2, hW.lift (e1.trans e2) hW2 hl, hl, st', hwn2⟩

/-! ### Matching -/

/-- all closures in the assignment are allocated and below the level -/
def SubOk (G : Ghost) (q : ℚ) (sub : Sub) : Prop := ∀ l ∈ sub, ∀ r ∈ l, r < G.ns ∧ G.rs r < q

theorem SubOk.ext {G G' : Ghost} {sub : Sub} (h : SubOk G q sub) (e : Ghost.Ext G G') : SubOk G' q sub :=
  fun l hl r hr => by
    obtain ⟨h1, h2⟩ := h l hl r hr
    exact ⟨Nat.lt_of_lt_of_le h1 e.ns, by rw [e.rs r h1]; exact h2⟩

/-- push several bindings -/
def pushAll : Sub → List (Nat × Nat) → Option Sub
  | sub, [] => some sub
  | sub, (m, r) :: bs =>
    match pushSub sub m r with
    | none => none
    | some sub => pushAll sub bs

theorem pushAll_append (sub : Sub) (bs bs' : List (Nat × Nat)) {sub' : Sub} (h : pushAll sub bs = some sub') :
    pushAll sub (bs ++ bs') = pushAll sub' bs' := by
  induction bs generalizing sub with
  | nil => simp [pushAll] at h; subst h; rfl
  | cons b bs ih =>
    obtain ⟨m, r⟩ := b
    simp only [List.cons_append, pushAll] at *
    split at h
    · simp at h
    · next heq => simp only [ih _ h]

/-- the closures bound to the variable `m` -/
def boundTo (bs : List (Nat × Nat)) (m : Nat) : List Nat := (bs.filter fun b => b.1 = m).map Prod.snd

theorem pushSub_get {sub sub' : Sub} {m r : Nat} (h : pushSub sub m r = some sub') :
    m < sub.length ∧ sub'.length = sub.length ∧
    ∀ m', sub'[m']? = (sub[m']?).map (· ++ boundTo [(m, r)] m') := by
  unfold pushSub at h
  split at h
  · next l hl =>
    have hlt : m < sub.length := (List.getElem?_eq_some_iff.1 hl).1
    simp only [Option.some.injEq] at h
    subst h
    refine ⟨hlt, by simp, ?_⟩
    intro m'
    rw [List.getElem?_set]
    by_cases hm : m = m'
    · subst hm
      have : l = sub[m] := (List.getElem?_eq_some_iff.1 hl).2.symm
      simp [hlt, boundTo, this]
    · simp [hm, boundTo]
  · simp at h

theorem pushAll_get {sub sub' : Sub} {bs : List (Nat × Nat)} (h : pushAll sub bs = some sub') :
    sub'.length = sub.length ∧ (∀ b ∈ bs, b.1 < sub.length) ∧
    ∀ m, sub'[m]? = (sub[m]?).map (· ++ boundTo bs m) := by
  induction bs generalizing sub with
  | nil => simp [pushAll] at h; subst h; simp [boundTo]
  | cons b bs ih =>
    obtain ⟨m, r⟩ := b
    unfold pushAll at h
    split at h
    · simp at h
    · next sub1 heq =>
      obtain ⟨a1, a2, a3⟩ := pushSub_get heq
      obtain ⟨b1, b2, b3⟩ := ih h
      refine ⟨b1.trans a2, ?_, ?_⟩
      · intro b hb
        rcases List.mem_cons.1 hb with rfl | hb
        · exact a1
        · rw [← a2]; exact b2 b hb
      · intro m'
        rw [b3 m', a3 m', Option.map_map]
        congr 1
        funext l
        simp only [Function.comp, List.append_assoc, boundTo]
        rw [← List.map_append, ← List.filter_append]
        rfl

/-- the bindings of a match with the ghost terms of the bound closures -/
def ghostBs (G : Ghost) (bs : List (Nat × Nat)) : List (Nat × Tm) := bs.map fun b => (b.1, G.gs b.2)

/-- all bound closures are allocated and below the level -/
def BsOk (G : Ghost) (q : ℚ) (bs : List (Nat × Nat)) : Prop := ∀ b ∈ bs, b.2 < G.ns ∧ G.rs b.2 < q

theorem BsOk.ext {G G' : Ghost} {bs : List (Nat × Nat)} (h : BsOk G q bs) (e : Ghost.Ext G G') :
    BsOk G' q bs ∧ ghostBs G' bs = ghostBs G bs := by
  refine ⟨fun b hb => ?_, ?_⟩
  · obtain ⟨h1, h2⟩ := h b hb
    exact ⟨Nat.lt_of_lt_of_le h1 e.ns, by rw [e.rs _ h1]; exact h2⟩
  · apply List.map_congr_left
    intro b hb
    rw [e.gs _ (h b hb).1]

/-- post-condition of matching one closure -/
def MatchOne (R : RuleMap) (eta : Bool) (G0 : Ghost) (q : ℚ) (p : Pattern) (r : Nat) (sub : Sub) (G : Ghost)
    (res : Option Sub) : Prop :=
  (∀ sub', res = some sub' → ∃ bs t, pushAll sub bs = some sub' ∧ BsOk G q bs ∧ PBind p t (ghostBs G bs) ∧
    Rev R eta t (G0.gs r) ∧ MBind G R eta p r bs) ∧
  (res = none → MClash G R eta p r ∨ ∃ m ∈ p.vars, sub.length ≤ m)

/-- post-condition of matching several closures -/
def MatchMany (R : RuleMap) (eta : Bool) (G0 : Ghost) (q : ℚ) (ps : List Pattern) (rs : List Nat) (sub : Sub)
    (G : Ghost) (res : Option Sub) : Prop :=
  (∀ sub', res = some sub' → ∃ bs ts, pushAll sub bs = some sub' ∧ BsOk G q bs ∧ PBinds ps ts (ghostBs G bs) ∧
    List.Forall₂ (Rev R eta) ts ((rs.take ps.length).map G0.gs) ∧ MBinds G R eta ps (rs.take ps.length) bs) ∧
  (res = none → MClashes G R eta ps rs ∨ ∃ m ∈ Pattern.varsList ps, sub.length ≤ m)

mutual
  theorem Tri.matchPat {wr : Nat → M Unit}
      (hwr : ∀ (G : Ghost) (r : Nat), r < G.ns → G.rs r < q →
        Tri R eta G q (wr r) (fun G' _ => ∃ st, G'.wn r = some st))
      (p : Pattern) (G : Ghost) (r : Nat) (sub : Sub) (hr : r < G.ns) (hq : G.rs r < q) :
      Tri R eta G q (matchPat wr p r sub) (MatchOne R eta G q p r sub) := by
    cases p with
    | mvar m =>
      unfold Kontroli.matchPat
      refine Tri.pure ⟨?_, ?_⟩
      · intro sub' h
        refine ⟨[(m, r)], G.gs r, ?_, ?_, .mvar m _, Rev.refl _, .mvar m r⟩
        · simp [pushAll, h]
        · intro b hb; simp at hb; subst hb; exact ⟨hr, hq⟩
      · intro h
        refine .inr ⟨m, by simp [Pattern.vars], ?_⟩
        unfold pushSub at h
        split at h
        · simp at h
        · next hn => simpa using hn
    | joker =>
      unfold Kontroli.matchPat
      refine Tri.pure ⟨?_, by simp⟩
      intro sub' h
      exact ⟨[], G.gs r, h, by intro b hb; simp at hb, .joker _, Rev.refl _, .joker r⟩
    | symb sp pats =>
      unfold Kontroli.matchPat
      refine Tri.bind (hwr G r hr hq) ?_
      rintro G1 _ e1 ⟨st0, hst0⟩
      have hr1 : r < G1.ns := Nat.lt_of_lt_of_le hr e1.ns
      have hq1 : G1.rs r < q := by rw [e1.rs r hr]; exact hq
      refine Tri.bind (Tri.borrowState hr1 hq1) ?_
      rintro G2 st e2 ⟨rfl, hst, hcv, heq⟩
      obtain ⟨rfl, hmw⟩ := heq st0 hst0
      rw [e1.gs r hr] at hcv
      have hnone : ¬ (st.term = .const sp ∧ st.stack.length = pats.length) →
          MatchOne R eta G q (.symb sp pats) r sub G2 none :=
        fun hc => ⟨by simp, fun _ => .inl (.head hst0 hmw hc)⟩
      split
      · next s hs =>
        refine Tri.ite ?_ fun hc => Tri.pure (hnone ?_)
        · rintro ⟨rfl, hlen⟩
          have hst' := hst.mono hq1.le
          refine (Tri.matchPats hwr pats G2 st.stack sub hst'.2 (hlen ▸ Nat.le_refl _)).mono ?_
          intro G3 res e3 hres
          refine ⟨?_, ?_⟩
          · intro sub' hsub'
            obtain ⟨bs, ts, h1, h2, h3, h4, h5⟩ := hres.1 sub' hsub'
            refine ⟨bs, _, h1, h2, .symb h3, ?_, ?_⟩
            · have : G2.den st = Tm.apps (.const sp) (st.stack.map G2.gs) := by
                unfold Ghost.den; rw [hs]; rfl
              rw [← hlen, List.take_length] at h4
              rw [this] at hcv
              exact (Rev.apps (Rev.refl _) h4).trans hcv
            · rw [← hlen, List.take_length] at h5
              exact .symb (e3.wn _ _ hst0) (hmw.ext e3) hs h5
          · intro hn
            rcases hres.2 hn with h | ⟨m, hm, hlt⟩
            · exact .inl (.arg (e3.wn _ _ hst0) (hmw.ext e3) hs hlen h)
            · exact .inr ⟨m, by simpa [Pattern.vars] using hm, hlt⟩
        · rintro ⟨h1, h2⟩
          rw [hs] at h1
          cases h1
          exact hc ⟨rfl, h2⟩
      · next hs =>
        refine Tri.pure (hnone ?_)
        rintro ⟨h1, -⟩
        exact hs sp h1
  theorem Tri.matchPats {wr : Nat → M Unit}
      (hwr : ∀ (G : Ghost) (r : Nat), r < G.ns → G.rs r < q →
        Tri R eta G q (wr r) (fun G' _ => ∃ st, G'.wn r = some st))
      (ps : List Pattern) (G : Ghost) (rs : List Nat) (sub : Sub) (hrs : ∀ r ∈ rs, r < G.ns ∧ G.rs r < q)
      (hlen : ps.length ≤ rs.length) :
      Tri R eta G q (matchPats wr ps rs sub) (MatchMany R eta G q ps rs sub) := by
    cases ps with
    | nil =>
      unfold Kontroli.matchPats
      refine Tri.pure ⟨?_, by simp⟩
      intro sub' h
      exact ⟨[], [], h, by intro b hb; simp at hb, .nil, by simp, by simpa using MBinds.nil⟩
    | cons p ps =>
      cases rs with
      | nil => simp at hlen
      | cons r rs =>
        unfold Kontroli.matchPats
        have hr := hrs r List.mem_cons_self
        refine Tri.bind (Tri.matchPat hwr p G r sub hr.1 hr.2) ?_
        intro G1 res e1 hres
        cases res with
        | none =>
          refine Tri.pure ⟨by simp, fun _ => ?_⟩
          rcases hres.2 rfl with h | ⟨m, hm, hlt⟩
          · exact .inl (.here h)
          · exact .inr ⟨m, by simp [Pattern.varsList, hm], hlt⟩
        | some sub1 =>
          obtain ⟨bs, t, h1, h2, h3, h4, h4'⟩ := hres.1 sub1 rfl
          have hrs0 : ∀ r ∈ rs, r < G.ns ∧ G.rs r < q := fun r' hr' => hrs r' (List.mem_cons_of_mem _ hr')
          have hrs1 : ∀ r ∈ rs, r < G1.ns ∧ G1.rs r < q := fun r' hr' => by
            obtain ⟨a, b⟩ := hrs0 r' hr'
            exact ⟨Nat.lt_of_lt_of_le a e1.ns, by rw [e1.rs r' a]; exact b⟩
          refine (Tri.matchPats hwr ps G1 rs sub1 hrs1 (by simpa using hlen)).mono ?_
          intro G2 res e2 hres2
          refine ⟨?_, ?_⟩
          · intro sub2 hsub2
            obtain ⟨bs', ts, h5, h6, h7, h8, h9⟩ := hres2.1 sub2 hsub2
            obtain ⟨h2', heq⟩ := h2.ext e2
            refine ⟨bs ++ bs', t :: ts, ?_, ?_, ?_, ?_, ?_⟩
            · rw [pushAll_append _ _ _ h1]; exact h5
            · intro b hb
              rcases List.mem_append.1 hb with hb | hb
              · exact h2' b hb
              · exact h6 b hb
            · unfold ghostBs
              rw [List.map_append]
              refine .cons ?_ h7
              have := h3
              rw [← heq] at this
              exact this
            · simp only [List.length_cons, List.take_succ_cons, List.map_cons]
              refine .cons h4 ?_
              rwa [Ghost.map_gs_ext e1 (fun a ha => (hrs0 a (List.mem_of_mem_take ha)).1)] at h8
            · simp only [List.length_cons, List.take_succ_cons]
              exact .cons (h4'.ext e2) h9
          · intro hn
            rcases hres2.2 hn with h | ⟨m, hm, hlt⟩
            · exact .inl (.there h)
            · refine .inr ⟨m, by simp [Pattern.varsList, hm], ?_⟩
              rw [← (pushAll_get h1).1]; exact hlt
end

/-- two closures of the list are seen to be different, or the list is empty -/
def NotAll (R : RuleMap) (eta : Bool) (G : Ghost) (l : List Nat) : Prop :=
  l = [] ∨ ∃ a b t u, [a, b].Sublist l ∧ Red R eta (G.gs a) t ∧ Red R eta (G.gs b) u ∧ Apart R eta t u

theorem Tri.allConvRest {o : Ops} (ho : OpsOk R eta o) (l : List Nat) (G : Ghost) (a : Nat) (ha : a < G.nt)
    (hq : G.rt a < q) (hl : ∀ r ∈ l, r < G.ns ∧ G.rs r < q) :
    Tri R eta G q (allConvRest o a l) (fun G' res => (∀ c, res = some c →
      c = a ∧ ∀ r ∈ l, Conv R eta (G'.gs r) (G'.gt a)) ∧
      (res = none → ∃ r t u, r ∈ l ∧ Red R eta (G'.gt a) t ∧ Red R eta (G'.gs r) u ∧ Apart R eta t u)) := by
  induction l generalizing G with
  | nil => exact Tri.pure ⟨by intro c h; cases h; exact ⟨rfl, by simp⟩, by simp⟩
  | cons r l ih =>
    unfold Kontroli.allConvRest
    refine Tri.bind (TriR.force ho.rd ha hq).tri ?_
    rintro _ t e1 ⟨rfl, ht⟩
    have hr := hl r List.mem_cons_self
    refine Tri.bind (TriR.readR ho.rd hr.1 hr.2).tri ?_
    rintro _ u e2 ⟨rfl, hu⟩
    refine Tri.bind (ho.cv _ q [(t, u)]) ?_
    intro G3 b e hb
    refine Tri.ite (fun hb' => ?_) fun hb' => Tri.pure ⟨by simp, fun _ => ?_⟩
    · have hconv := hb.1 hb' (t, u) (by simp)
      refine (ih G3 (Nat.lt_of_lt_of_le ha e.nt) (by rw [e.rt a ha]; exact hq) ?_).mono ?_
      · intro r' hr'
        obtain ⟨h1, h2⟩ := hl r' (List.mem_cons_of_mem _ hr')
        exact ⟨Nat.lt_of_lt_of_le h1 e.ns, by rw [e.rs r' h1]; exact h2⟩
      · intro G4 res e4 h
        refine ⟨?_, ?_⟩
        · intro c hc
          obtain ⟨h1, h2⟩ := h.1 c hc
          refine ⟨h1, ?_⟩
          intro r' hr'
          rcases List.mem_cons.1 hr' with rfl | hr'
          · rw [(e.trans e4).gs r' hr.1, (e.trans e4).gt a ha]
            exact hu.rev.conv.symm.trans (hconv.symm.trans ht.conv)
          · exact h2 r' hr'
        · intro hn
          obtain ⟨r', t', u', h1, h2⟩ := h.2 hn
          exact ⟨r', t', u', List.mem_cons_of_mem _ h1, h2⟩
    · obtain ⟨p, hp, hap⟩ := hb.2 (by simpa using hb')
      simp only [List.mem_singleton] at hp
      subst hp
      refine ⟨r, t.den, u.den, List.mem_cons_self, ?_, ?_, hap⟩
      · rw [e.gt a ha]; exact ht
      · rw [e.gs r hr.1]; exact hu.rev

/-- post-condition of `allConv` -/
def ConvAll (R : RuleMap) (eta : Bool) (q : ℚ) (G : Ghost) (l : List Nat) (c : Nat) : Prop :=
  c < G.nt ∧ G.rt c < q ∧ (∃ r l', l = r :: l' ∧ G.gt c = G.gs r) ∧ ∀ r ∈ l, Conv R eta (G.gs r) (G.gt c)

theorem Tri.allConv {o : Ops} (ho : OpsOk R eta o) (l : List Nat) (G : Ghost)
    (hl : ∀ r ∈ l, r < G.ns ∧ G.rs r < q) :
    Tri R eta G q (allConv o l) (fun G' res => (∀ c, res = some c → ConvAll R eta q G' l c) ∧
      (res = none → NotAll R eta G' l)) := by
  cases l with
  | nil => exact Tri.pure ⟨by simp, fun _ => .inl rfl⟩
  | cons r l =>
    unfold Kontroli.allConv
    have hr := hl r List.mem_cons_self
    refine Tri.bind (Tri.newThunk hr.1 hr.2) ?_
    rintro G1 a e1 ⟨ha, hq, hgt⟩
    refine (Tri.allConvRest ho l G1 a ha hq ?_).mono ?_
    · intro r' hr'
      obtain ⟨h1, h2⟩ := hl r' (List.mem_cons_of_mem _ hr')
      exact ⟨Nat.lt_of_lt_of_le h1 e1.ns, by rw [e1.rs r' h1]; exact h2⟩
    · intro G2 res e2 h
      have hfst : G2.gt a = G2.gs r := by rw [(e1.trans e2).gs r hr.1, e2.gt a ha, hgt]
      refine ⟨?_, ?_⟩
      · intro c hc
        obtain ⟨rfl, h2⟩ := h.1 c hc
        refine ⟨Nat.lt_of_lt_of_le ha e2.nt, by rw [e2.rt c ha]; exact hq, ⟨r, l, rfl, hfst⟩, ?_⟩
        intro r' hr'
        rcases List.mem_cons.1 hr' with rfl | hr'
        · rw [hfst]; exact .refl _
        · exact h2 r' hr'
      · intro hn
        obtain ⟨r', t', u', h1, h2, h3, h4⟩ := h.2 hn
        rw [hfst] at h2
        exact .inr ⟨r, r', t', u', .cons_cons _ (List.singleton_sublist.2 h1), h2, h3, h4⟩

/-- post-condition of `flattenSub` -/
def FlatOk (R : RuleMap) (eta : Bool) (q : ℚ) (sub : Sub) (G : Ghost) (cs : List Nat) : Prop :=
  List.Forall₂ (ConvAll R eta q G) sub cs

theorem ConvAll.ext {G G' : Ghost} {l : List Nat} {c : Nat} (h : ConvAll R eta q G l c)
    (hs : ∀ r ∈ l, r < G.ns) (e : Ghost.Ext G G') : ConvAll R eta q G' l c := by
  obtain ⟨h1, h2, ⟨r, l', rfl, h3⟩, h4⟩ := h
  refine ⟨Nat.lt_of_lt_of_le h1 e.nt, by rw [e.rt c h1]; exact h2, ⟨r, l', rfl, ?_⟩, ?_⟩
  · rw [e.gt c h1, e.gs r (hs r List.mem_cons_self), h3]
  · intro r' hr'
    rw [e.gs r' (hs r' hr'), e.gt c h1]
    exact h4 r' hr'

theorem FlatOk.ext {G G' : Ghost} {sub : Sub} {cs : List Nat} (h : FlatOk R eta q sub G cs) (hs : SubOk G q sub)
    (e : Ghost.Ext G G') : FlatOk R eta q sub G' cs := by
  unfold FlatOk at *
  induction h with
  | nil => exact .nil
  | @cons l c sub cs h _ ih =>
    exact .cons (h.ext (fun r hr => (hs l List.mem_cons_self r hr).1) e)
      (ih (fun l hl => hs l (List.mem_cons_of_mem _ hl)))

theorem Tri.flattenSub {o : Ops} (ho : OpsOk R eta o) (sub : Sub) (G : Ghost) (hs : SubOk G q sub) :
    Tri R eta G q (flattenSub o sub) (fun G' res => (∀ cs, res = some cs → FlatOk R eta q sub G' cs) ∧
      (res = none → ∃ l ∈ sub, NotAll R eta G' l)) := by
  induction sub with
  | nil => exact Tri.pure ⟨by intro cs h; cases h; exact .nil, by simp⟩
  | cons l sub ih =>
    unfold Kontroli.flattenSub
    have hs' : SubOk G q sub := fun l hl => hs l (List.mem_cons_of_mem _ hl)
    refine Tri.bind (ih hs') ?_
    intro G1 res e1 h
    cases res with
    | none =>
      refine Tri.pure ⟨by simp, fun _ => ?_⟩
      obtain ⟨l', h1, h2⟩ := h.2 rfl
      exact ⟨l', List.mem_cons_of_mem _ h1, h2⟩
    | some cs =>
      have h := h.1 cs rfl
      have hs1 := hs.ext e1
      refine Tri.bind (Tri.allConv ho l G1 (hs1 l List.mem_cons_self)) ?_
      intro G2 res e2 h2
      cases res with
      | none => exact Tri.pure ⟨by simp, fun _ => ⟨l, List.mem_cons_self, h2.2 rfl⟩⟩
      | some c =>
        refine Tri.pure ⟨?_, by simp⟩
        intro cs' hcs'
        cases hcs'
        exact .cons (h2.1 c rfl) (h.ext (hs'.ext e1) e2)

theorem FlatOk.get {G : Ghost} {sub : Sub} {cs : List Nat} (h : FlatOk R eta q sub G cs) :
    sub.length = cs.length ∧ (∀ c ∈ cs, c < G.nt ∧ G.rt c < q) ∧
    ∀ (m : Nat) (l : List Nat), sub[m]? = some l → ∃ c, cs[m]? = some c ∧ ConvAll R eta q G l c := by
  unfold FlatOk at h
  induction h with
  | nil => simp
  | @cons l c sub cs h _ ih =>
    obtain ⟨i1, i2, i3⟩ := ih
    refine ⟨by simp [i1], ?_, ?_⟩
    · intro c' hc'
      rcases List.mem_cons.1 hc' with rfl | hc'
      · exact ⟨h.1, h.2.1⟩
      · exact i2 c' hc'
    · intro m l' hl'
      cases m with
      | zero =>
        simp only [List.getElem?_cons_zero, Option.some.injEq] at hl'
        subst hl'
        exact ⟨c, rfl, h⟩
      | succ m =>
        simp only [List.getElem?_cons_succ] at hl' ⊢
        exact i3 m l' hl'

theorem lookup_boundTo (G : Ghost) (bs : List (Nat × Nat)) (m : Nat) {t : Tm}
    (h : (ghostBs G bs).lookup m = some t) : ∃ r l, boundTo bs m = r :: l ∧ t = G.gs r := by
  induction bs with
  | nil => simp [ghostBs] at h
  | cons b bs ih =>
    obtain ⟨k, r⟩ := b
    simp only [ghostBs, List.map_cons, List.lookup_cons] at h
    by_cases hk : m = k
    · subst hk
      simp at h
      exact ⟨r, boundTo bs m, by simp [boundTo], h.symm⟩
    · have : (m == k) = false := by simpa using hk
      rw [this] at h
      obtain ⟨r', l, h1, h2⟩ := ih h
      refine ⟨r', l, ?_, h2⟩
      rw [← h1]
      simp [boundTo, Ne.symm hk]

theorem mem_boundTo {bs : List (Nat × Nat)} {b : Nat × Nat} (h : b ∈ bs) : b.2 ∈ boundTo bs b.1 := by
  unfold boundTo
  exact List.mem_map.2 ⟨b, List.mem_filter.2 ⟨h, by simp⟩, rfl⟩

theorem boundTo_mem {bs : List (Nat × Nat)} {m r : Nat} (h : r ∈ boundTo bs m) : (m, r) ∈ bs := by
  unfold boundTo at h
  obtain ⟨b, hb, rfl⟩ := List.mem_map.1 h
  obtain ⟨h1, h2⟩ := List.mem_filter.1 hb
  simp at h2
  subst h2
  exact h1

theorem boundTo_sublist {bs : List (Nat × Nat)} {m : Nat} {l : List Nat} (h : l.Sublist (boundTo bs m)) :
    (l.map fun r => (m, r)).Sublist bs := by
  unfold boundTo at h
  obtain ⟨l', hl, rfl⟩ := List.sublist_map_iff.1 h
  have : (l'.map Prod.snd).map (fun r => (m, r)) = l' := by
    rw [List.map_map]
    conv_rhs => rw [← List.map_id l']
    refine List.map_congr_left fun b hb => ?_
    have := (List.mem_filter.1 (hl.subset hb)).2
    simp at this
    simp [← this]
  rw [this]
  exact hl.trans List.filter_sublist

/-- A successful match gives an instance of the rule. -/
theorem Tri.matchFlatten {o : Ops} (ho : OpsOk R eta o) {rule : Rule} {stack : List Nat}
    (hs : ∀ r ∈ stack, r < G.ns ∧ G.rs r < q) :
    Tri R eta G q (matchFlatten o rule stack) (fun G' res => (∀ cs, res = some cs →
      rule.lhs.args.length ≤ stack.length ∧ (∀ c ∈ cs, c < G'.nt ∧ G'.rt c < q) ∧ rule.Scoped ∧ cs.length = rule.ctx.length ∧
      ∃ ts bs, PBinds rule.lhs.args ts bs ∧ Solves R eta bs (G'.ctxSub cs) ∧
        List.Forall₂ (Rev R eta) ts ((stack.take rule.lhs.args.length).map G.gs)) ∧
      (res = none → MRefused G' R eta rule stack)) := by
  unfold Kontroli.matchFlatten matchRule
  by_cases hlen : stack.length < rule.lhs.args.length
  · rw [if_pos hlen]
    exact Tri.bind (Φ := fun _ r => r = none) (Tri.pure rfl) fun _ res _ h => by
      subst h; exact Tri.pure ⟨by simp, fun _ => .short hlen⟩
  · rw [if_neg hlen]
    have hlen' : rule.lhs.args.length ≤ stack.length := by omega
    refine Tri.bind (Tri.matchPats (fun G r h1 h2 => Tri.rwhnf ho h1 h2) rule.lhs.args G stack _ hs hlen') ?_
    intro G1 res e1 hres
    cases res with
    | none =>
      refine Tri.pure ⟨by simp, fun _ => ?_⟩
      rcases hres.2 rfl with h | ⟨m, hm, hlt⟩
      · exact .clash h
      · rw [List.length_replicate] at hlt
        exact .unscoped fun hsc => Nat.not_lt.2 hlt ((hsc m).1 hm)
    | some sub =>
      obtain ⟨bs, ts, p1, p2, p3, p4, p5⟩ := hres.1 sub rfl
      obtain ⟨q1, q2, q3⟩ := pushAll_get p1
      have q3' : ∀ m, m < rule.ctx.length → sub[m]? = some (boundTo bs m) := by
        intro m hm
        rw [q3 m, List.getElem?_replicate, if_pos hm]
        rfl
      have q1' : sub.length = rule.ctx.length := by simpa using q1
      have hsub : SubOk G1 q sub := by
        intro l hl r hr
        obtain ⟨m, hm, rfl⟩ := List.mem_iff_getElem.1 hl
        have := q3' m (by omega)
        rw [List.getElem?_eq_getElem hm] at this
        simp only [Option.some.injEq] at this
        rw [this] at hr
        exact p2 _ (boundTo_mem hr)
      refine (Tri.flattenSub ho sub G1 hsub).mono ?_
      intro G2 res e2 h
      have hvars : (ghostBs G1 bs).map Prod.fst = Pattern.varsList rule.lhs.args := p3.vars
      refine ⟨?_, fun hn => ?_⟩
      swap
      · obtain ⟨l, hl, hna⟩ := h.2 hn
        obtain ⟨m, hm, rfl⟩ := List.mem_iff_getElem.1 hl
        have hbt := q3' m (by omega)
        rw [List.getElem?_eq_getElem hm] at hbt
        simp only [Option.some.injEq] at hbt
        rcases hna with hna | ⟨a, b, t, u, hab, hra, hrb, hap⟩
        · refine .unscoped fun hsc => ?_
          have := (hsc m).2 (by omega)
          rw [← hvars] at this
          obtain ⟨b, hb, hbm⟩ := List.mem_map.1 this
          obtain ⟨b', hb', rfl⟩ := List.mem_map.1 hb
          simp only at hbm
          have := mem_boundTo hb'
          rw [hbm, ← hbt, hna] at this
          simp at this
        · have hab' := boundTo_sublist (hbt ▸ hab)
          have ha' := hab'.subset (List.mem_cons_self)
          have hb' := hab'.subset (List.mem_cons_of_mem _ List.mem_cons_self)
          exact .apart (p5.ext e2) hab' (Nat.lt_of_lt_of_le (p2 _ ha').1 e2.ns)
            (Nat.lt_of_lt_of_le (p2 _ hb').1 e2.ns) hra hrb hap
      intro cs hcs
      obtain ⟨f1, f2, f3⟩ := (h.1 cs hcs).get
      obtain ⟨p2', hgb⟩ := p2.ext e2
      refine ⟨hlen', f2, ?_, f1.symm.trans q1', ts, ghostBs G2 bs, hgb ▸ p3, ⟨?_, ?_⟩, p4⟩
      · intro m
        rw [← hvars]
        constructor
        · intro hm
          obtain ⟨b, hb, rfl⟩ := List.mem_map.1 hm
          obtain ⟨b', hb', rfl⟩ := List.mem_map.1 hb
          simpa using q2 b' hb'
        · intro hm
          obtain ⟨c, -, -, -, ⟨r, l, hl, -⟩, -⟩ := f3 m _ (q3' m hm)
          have : r ∈ boundTo bs m := by rw [hl]; exact List.mem_cons_self
          exact List.mem_map.2 ⟨(m, G1.gs r), List.mem_map.2 ⟨(m, r), boundTo_mem this, rfl⟩, rfl⟩
      · intro m t ht
        obtain ⟨r, l, h1, h2⟩ := lookup_boundTo G2 bs m ht
        have hm : m < rule.ctx.length := by
          have : r ∈ boundTo bs m := by rw [h1]; exact List.mem_cons_self
          simpa using q2 _ (boundTo_mem this)
        obtain ⟨c, hc, -, -, ⟨r', l', hl, hgt⟩, -⟩ := f3 m _ (q3' m hm)
        rw [h1] at hl
        cases hl
        rw [ctxSub_shift_lt cs hc, hgt, h2]
      · intro b hb
        obtain ⟨b', hb', rfl⟩ := List.mem_map.1 hb
        have hm : b'.1 < rule.ctx.length := by simpa using q2 b' hb'
        obtain ⟨c, hc, -, -, -, hall⟩ := f3 b'.1 _ (q3' b'.1 hm)
        simp only
        rw [ctxSub_shift_lt cs hc]
        exact hall _ (mem_boundTo hb')

theorem Tri.firstMatch {o : Ops} (ho : OpsOk R eta o) {s : Sym} {stack : List Nat} {rules : List Rule}
    (hR : R s = some rules) (rs : List Rule) (hrs : ∀ r ∈ rs, r ∈ rules) (G : Ghost)
    (hs : ∀ r ∈ stack, r < G.ns ∧ G.rs r < q) :
    Tri R eta G q (firstMatch o stack rs) (fun G' res => (∀ cs rule, res = some (cs, rule) →
      rule.lhs.args.length ≤ stack.length ∧ (∀ c ∈ cs, c < G'.nt ∧ G'.rt c < q) ∧
      Rev R eta (rule.rhs.den.sub (G'.ctxSub cs))
        (Tm.apps (.const s) ((stack.take rule.lhs.args.length).map G.gs))) ∧
      (res = none → ∀ r ∈ rs, MRefused G' R eta r stack)) := by
  induction rs generalizing G with
  | nil => exact Tri.pure ⟨by simp, by simp⟩
  | cons r rs ih =>
    unfold Kontroli.firstMatch
    refine Tri.bind (Tri.matchFlatten ho (rule := r) hs) ?_
    intro G1 res e1 h
    cases res with
    | some cs =>
      refine Tri.pure ⟨?_, by simp⟩
      intro cs' rule heq
      simp only [Option.some.injEq, Prod.mk.injEq] at heq
      obtain ⟨rfl, rfl⟩ := heq
      obtain ⟨h1, h2, h3, hlen, ts, bs, h4, h5, h6⟩ := h.1 cs rfl
      refine ⟨h1, h2, ?_⟩
      have hred : Rev R eta (r.rhs.den.sub (G1.ctxSub cs)) (Tm.apps (.const s) ts) :=
        Red.rule hR (hrs r List.mem_cons_self) h3 h4 h5 fun m hm => by
          refine ⟨m - cs.length, ?_⟩
          unfold Ghost.ctxSub
          rw [List.getElem?_eq_none (by omega)]
      exact hred.trans (Rev.apps (Rev.refl _) h6)
    | none =>
      have hs1 : ∀ r ∈ stack, r < G1.ns ∧ G1.rs r < q := fun r' hr' => by
        obtain ⟨a, b⟩ := hs r' hr'
        exact ⟨Nat.lt_of_lt_of_le a e1.ns, by rw [e1.rs r' a]; exact b⟩
      refine (ih (fun r hr => hrs r (List.mem_cons_of_mem _ hr)) G1 hs1).mono ?_
      intro G2 res e2 h'
      refine ⟨?_, fun hn r' hr' => ?_⟩
      swap
      · rcases List.mem_cons.1 hr' with rfl | hr'
        · exact (h.2 rfl).ext e2
        · exact h'.2 hn r' hr'
      intro cs rule heq
      obtain ⟨h1, h2, h3⟩ := h'.1 cs rule heq
      rw [Ghost.map_gs_ext e1 (fun a ha => (hs a (List.mem_of_mem_take ha)).1)] at h3
      exact ⟨h1, h2, h3⟩

/-! ### The machine -/

/-- extend a substitution -/
def scons (u : Tm) (σ : Nat → Tm) : Nat → Tm
  | 0 => u
  | n + 1 => σ n

theorem up_inst (t u : Tm) (σ : Nat → Tm) : (t.sub (Tm.up σ)).inst u = t.sub (scons u σ) := by
  rw [Tm.inst, Tm.sub_sub]
  congr 1
  funext n
  cases n with
  | zero => rfl
  | succ n =>
    simp only [Tm.up, Tm.ren_sub, scons]
    exact Tm.sub_var _

theorem Ghost.ctxSub_cons (a : Nat) (ctx : List Nat) : G.ctxSub (a :: ctx) = scons (G.gt a) (G.ctxSub ctx) := by
  funext n
  cases n with
  | zero => simp [Ghost.ctxSub, scons]
  | succ n => simp [Ghost.ctxSub, scons]

theorem Tri.newStates (ctx : List Nat) (ts : List STerm) (G : Ghost)
    (hctx : ∀ a ∈ ctx, a < G.nt ∧ G.rt a < q) :
    Tri R eta G q (newStates ctx ts) (fun G' rs => (∀ r ∈ rs, r < G'.ns ∧ G'.rs r < q) ∧
      rs.map G'.gs = ts.map (fun t => t.den.sub (G.ctxSub ctx))) := by
  induction ts with
  | nil => exact Tri.pure ⟨by simp, rfl⟩
  | cons t ts ih =>
    unfold Kontroli.newStates
    refine Tri.bind ih ?_
    rintro G1 rs e1 ⟨h1, h2⟩
    have hst : G1.StOk q { ctx := ctx, term := t, stack := [] } := by
      refine ⟨fun a ha => ?_, by simp⟩
      obtain ⟨a1, a2⟩ := hctx a ha
      exact ⟨Nat.lt_of_lt_of_le a1 e1.nt, by rw [e1.rt a a1]; exact a2⟩
    refine Tri.bind (Tri.newState hst) ?_
    rintro G2 r e2 ⟨h3, h4, h5⟩
    refine Tri.pure ⟨?_, ?_⟩
    · intro r' hr'
      rcases List.mem_cons.1 hr' with rfl | hr'
      · exact ⟨h3, h4⟩
      · obtain ⟨a1, a2⟩ := h1 r' hr'
        exact ⟨Nat.lt_of_lt_of_le a1 e2.ns, by rw [e2.rs r' a1]; exact a2⟩
    · simp only [List.map_cons]
      rw [Ghost.map_gs_ext e2 (fun a ha => (h1 a ha).1), h2, h5]
      simp only [Ghost.den, List.map_nil, Tm.apps]
      rw [Ghost.ctxSub_ext e1 (fun a ha => (hctx a ha).1)]

/-- post-condition of evaluation -/
def WhPost (R : RuleMap) (eta : Bool) (q : ℚ) (t : Tm) (G' : Ghost) (st' : State) : Prop :=
  G'.StOk q st' ∧ Rev R eta (G'.den st') t ∧ MWhnf G' R eta st'

theorem Tri.whTo {o : Ops} (ho : OpsOk R eta o) {st : State} {t : Tm} (h : G.StOk q st)
    (hc : Rev R eta (G.den st) t) : Tri R eta G q (o.wh st) (WhPost R eta q t) :=
  (ho.wh G q st h).mono fun _ _ _ h' => ⟨h'.1, h'.2.1.trans hc, h'.2.2⟩

theorem Tri.finish {st : State} {t : Tm} (h : G.StOk q st) (hc : Rev R eta (G.den st) t)
    (hm : MWhnf G R eta st) (hv : ∀ n, st.term = .var n → st.ctx = []) : Tri R eta G q (finish st) (WhPost R eta q t) := by
  unfold Kontroli.finish
  split
  · next n hn =>
    have := hv n hn
    rw [this]
    exact Tri.pure ⟨h, hc, hm⟩
  · exact Tri.pure ⟨h, hc, hm⟩

theorem Tri.stepComb {o : Ops} (ho : OpsOk R eta o) {st : State} {c : SComb} (h : G.StOk q st)
    (hc : c.isWhnf st.stack.isEmpty = false) (hd : st.term.den = SComb.den c) :
    Tri R eta G q (stepComb o st c) (WhPost R eta q (G.den st)) := by
  cases c with
  | prod id ty tm => simp [Comb.isWhnf] at hc
  | abst id ty t =>
    unfold Kontroli.stepComb
    cases hst : st.stack with
    | nil => simp [Comb.isWhnf, hst] at hc
    | cons r rest =>
      have hr := h.2 r (by rw [hst]; exact List.mem_cons_self)
      refine Tri.bind (Tri.newThunk hr.1 hr.2) ?_
      rintro G1 a e1 ⟨h1, h2, h3⟩
      have hok : G1.StOk q { ctx := a :: st.ctx, term := t, stack := rest } := by
        refine ⟨?_, ?_⟩
        · intro a' ha'
          rcases List.mem_cons.1 ha' with rfl | ha'
          · exact ⟨h1, h2⟩
          · exact (h.ext e1).1 a' ha'
        · intro r' hr'
          exact (h.ext e1).2 r' (by rw [hst]; exact List.mem_cons_of_mem _ hr')
      refine Tri.whTo ho hok ?_
      have hrest : ∀ r ∈ rest, r < G.ns := fun r' hr' => (h.2 r' (by rw [hst]; exact List.mem_cons_of_mem _ hr')).1
      unfold Ghost.den
      simp only [hst, List.map_cons, Tm.apps]
      rw [Ghost.ctxSub_cons, h3, Ghost.ctxSub_ext e1 (fun a ha => (h.1 a ha).1), Ghost.map_gs_ext e1 hrest]
      refine Rev.apps ?_ (List.forall₂_same.2 fun x _ => Rev.refl x)
      rw [← up_inst, hd]
      cases ty with
      | none => exact Red.dbeta _ _
      | some A => exact Red.beta _ _ _
  | appl head tail =>
    unfold Kontroli.stepComb
    refine Tri.bind (Tri.newStates st.ctx tail G h.1) ?_
    rintro G1 rs e1 ⟨h1, h2⟩
    have hok : G1.StOk q { ctx := st.ctx, term := head, stack := rs ++ st.stack } := by
      refine ⟨(h.ext e1).1, ?_⟩
      intro r hr
      rcases List.mem_append.1 hr with hr | hr
      · exact h1 r hr
      · exact (h.ext e1).2 r hr
    refine Tri.whTo ho hok ?_
    unfold Ghost.den
    simp only [List.map_append, h2, hd, SComb.den, Tm.apps_sub, Tm.apps_append, STerm.denList_eq, List.map_map]
    rw [Ghost.ctxSub_ext e1 (fun a ha => (h.1 a ha).1), Ghost.map_gs_ext e1 (fun a ha => (h.2 a ha).1)]
    exact Rev.refl _

theorem MWhnf.comb {st : State} {c : LComb} (ht : st.term = .lcomb c) (hw : c.isWhnf st.stack.isEmpty = true) :
    MWhnf G R eta st := by
  cases c with
  | appl => simp [Comb.isWhnf] at hw
  | prod => exact .pi (by rw [ht]; trivial)
  | abst => exact .abs (by rw [ht]; trivial) (by simpa [Comb.isWhnf] using hw)

theorem MWhnf.comb' {st : State} {c : SComb} (ht : st.term = .scomb c) (hw : c.isWhnf st.stack.isEmpty = true) :
    MWhnf G R eta st := by
  cases c with
  | appl => simp [Comb.isWhnf] at hw
  | prod => exact .pi (by rw [ht]; trivial)
  | abst => exact .abs (by rw [ht]; trivial) (by simpa [Comb.isWhnf] using hw)

theorem Tri.whnfBody {gc : GCtx} {o : Ops} (ho : OpsOk gc.rules eta o) {st : State} (h : G.StOk q st) :
    Tri gc.rules eta G q (whnfBody gc o st) (WhPost gc.rules eta q (G.den st)) := by
  unfold Kontroli.whnfBody
  split
  · next ht => exact Tri.finish h (Rev.refl _) (.type ht) (by simp [ht])
  · next ht => exact Tri.finish h (Rev.refl _) (.kind ht) (by simp [ht])
  · next x ht =>
    split
    · next a ha =>
      have hc := h.1 a (List.mem_of_getElem? ha)
      refine Tri.bind (TriR.force ho.rd hc.1 hc.2).tri ?_
      rintro G1 t e1 ⟨-, hconv⟩
      have hok : G1.StOk q { ctx := [], term := t, stack := st.stack } := ⟨by simp, (h.ext e1).2⟩
      refine Tri.whTo ho hok ?_
      unfold Ghost.den
      simp only [ht, STerm.den, Tm.sub, Ghost.ctxSub_nil, Tm.sub_var]
      rw [ctxSub_shift_lt _ ha, Ghost.map_gs_ext e1 (fun a ha => (h.2 a ha).1)]
      exact Rev.apps hconv (List.forall₂_same.2 fun x _ => Rev.refl x)
    · next hnone =>
      have hge : st.ctx.length ≤ x := by
        by_contra hlt
        rw [List.getElem?_eq_getElem (by omega)] at hnone
        simp at hnone
      refine Tri.ite (fun he => ?_) fun _ => Tri.ite (fun h => by omega) fun _ => ?_
      · exact Tri.finish h (Rev.refl _) (.var ht (by simpa using he)) (fun _ _ => by simpa using he)
      · refine Tri.finish ⟨by simp, h.2⟩ ?_ (.var rfl rfl) (fun _ _ => rfl)
        have : G.ctxSub st.ctx x = .var (x - st.ctx.length) := by unfold Ghost.ctxSub; rw [hnone]
        unfold Ghost.den
        simp only [ht, STerm.den, Tm.sub, Ghost.ctxSub_nil, this]
        exact Rev.refl _
  · next s ht =>
    split
    · next hnone =>
      exact Tri.finish h (Rev.refl _) (.const ht fun rs r h1 _ => by
        rw [show gc.rules s = none from hnone] at h1; simp at h1) (by simp [ht])
    · next rules hrules =>
      refine Tri.bind (Tri.firstMatch ho (s := s) hrules rules (fun _ h => h) G h.2) ?_
      intro G1 res e1 hres
      cases res with
      | none =>
        refine Tri.finish (h.ext e1) ?_ (.const ht fun rs r h1 h2 => ?_) (by simp [ht])
        · rw [Ghost.den_ext e1 h]; exact Rev.refl _
        · rw [show gc.rules s = some rules from hrules] at h1
          cases h1
          exact hres.2 rfl r h2
      | some p =>
        obtain ⟨cs, rule⟩ := p
        obtain ⟨h1, h2, h3⟩ := hres.1 cs rule rfl
        simp only
        refine Tri.ite (fun h => by omega) fun _ => ?_
        have hok : G1.StOk q { ctx := cs, term := STerm.ofL rule.rhs, stack := st.stack.drop rule.lhs.args.length } :=
          ⟨h2, fun r hr => (h.ext e1).2 r (List.mem_of_mem_drop hr)⟩
        refine Tri.whTo ho hok ?_
        unfold Ghost.den
        simp only [ht, STerm.den, Tm.sub, STerm.den_ofL]
        rw [Ghost.map_gs_ext e1 (fun a ha => (h.2 a (List.mem_of_mem_drop ha)).1)]
        conv => rhs; rw [← List.take_append_drop rule.lhs.args.length st.stack]
        rw [List.map_append, Tm.apps_append]
        exact Rev.apps h3 (List.forall₂_same.2 fun x _ => Rev.refl x)
  · next c ht =>
    refine Tri.ite (fun hw => Tri.finish h (Rev.refl _) (MWhnf.comb ht hw) (by simp [ht])) fun hc =>
      Tri.stepComb ho h ?_ ?_
    · cases c <;> simp_all [SComb.ofL, Comb.isWhnf]
    · rw [ht]; simp [STerm.den]
  · next c ht =>
    refine Tri.ite (fun hw => Tri.finish h (Rev.refl _) (MWhnf.comb' ht hw) (by simp [ht])) fun hc =>
      Tri.stepComb ho h ?_ ?_
    · simpa using hc
    · rw [ht]; rfl

/-! ### Conversion -/

theorem Tri.whnfTerm {o : Ops} (ho : OpsOk R eta o) (t : STerm) :
    Tri R eta G q (whnfTerm o t) (fun _ t' => Rev R eta t'.den t.den ∧ Whnf R eta t'.den ∧ HForm t') := by
  unfold Kontroli.whnfTerm
  refine Tri.bind (ho.wh G q _ ⟨by simp, by simp⟩) ?_
  rintro G1 st e1 ⟨h1, h2, h3⟩
  refine (ho.rd G1 q st h1).tri.mono ?_
  rintro _ t' _ ⟨rfl, h4, h5⟩
  refine ⟨h4.trans (h2.trans ?_), h3.read h5, h3.hform h5⟩
  unfold Ghost.den
  simp only [Ghost.ctxSub_nil, Tm.sub_var, List.map_nil, Tm.apps]
  exact Rev.refl _

theorem Tri.shiftApp (t : STerm) :
    Tri R eta G q (shiftApp t) (fun _ t' => t'.den = .app (t.den.shift 1) (.var 0)) := by
  unfold Kontroli.shiftApp
  refine Tri.bind (Tri.shiftMut t 1) ?_
  intro G1 t1 _ h1
  refine (Tri.applyArgs t1 [.var 0]).mono ?_
  intro _ t2 _ h2
  rw [h2, h1]; rfl

/-- the new constraints imply the old ones and the convertibility of the given terms;
if one of the new constraints fails visibly, so does an old one, or the given terms differ -/
def StepPost (R : RuleMap) (eta : Bool) (cns : List (STerm × STerm)) (t1 t2 : Tm) :
    Option (List (STerm × STerm)) → Prop
  | none => Differ R eta t1 t2
  | some cns' => ((∀ p ∈ cns', Conv R eta p.1.den p.2.den) →
      (∀ p ∈ cns, Conv R eta p.1.den p.2.den) ∧ Conv R eta t1 t2) ∧
      ((∃ p ∈ cns', Apart R eta p.1.den p.2.den) →
        (∃ p ∈ cns, Apart R eta p.1.den p.2.den) ∨ Differ R eta t1 t2)

theorem denAbs_conv (ty : Option STerm) (b : Tm) : Conv R eta (STerm.denAbs ty b) (.dlam b) := by
  cases ty with
  | none => exact .refl _
  | some A => exact .annot _ _

theorem denAbs_isAbs (ty : Option STerm) (b : Tm) : (STerm.denAbs ty b).IsAbs b := by
  cases ty with
  | none => exact .dlam _
  | some A => exact .lam _ _

theorem HForm.atom_of {t : STerm} (h : HForm t) (hn : ¬ t.isAbs) : ∃ h ts, h.Atom ∧ t.den = Tm.apps h ts := by
  cases h with
  | atom h => exact ⟨t.den, [], h.atom, rfl⟩
  | abs h => exact absurd h hn
  | @app f args h h' => exact ⟨f.den, args.map STerm.den, h.atom, by simp [STerm.den, SComb.den, STerm.denList_eq]⟩

theorem Tri.etaStep {cns : List (STerm × STerm)} (he : eta = true) (ty : Option STerm) (b a : STerm)
    (ha : HForm a) (hna : ¬ a.isAbs) :
    Tri R eta G q (M.bind (Kontroli.shiftApp a) fun a => M.pure (some ((b, a) :: cns)))
      (fun _ res => StepPost R eta cns (STerm.denAbs ty b.den) a.den res ∧
        StepPost R eta cns a.den (STerm.denAbs ty b.den) res) := by
  refine Tri.bind (Tri.shiftApp a) ?_
  intro G1 a' _ ha'
  refine Tri.pure ?_
  obtain ⟨h, ts, hat, hden⟩ := ha.atom_of hna
  have key : (∀ p ∈ (b, a') :: cns, Conv R eta p.1.den p.2.den) →
      (∀ p ∈ cns, Conv R eta p.1.den p.2.den) ∧ Conv R eta (STerm.denAbs ty b.den) a.den := by
    intro h
    refine ⟨fun p hp => h p (List.mem_cons_of_mem _ hp), ?_⟩
    have := h (b, a') List.mem_cons_self
    simp only [ha'] at this
    exact (denAbs_conv ty b.den).trans ((Conv.dlam this).trans (.eta he _))
  have key2 : (∃ p ∈ (b, a') :: cns, Apart R eta p.1.den p.2.den) →
      (∃ p ∈ cns, Apart R eta p.1.den p.2.den) ∨
        Apart R eta b.den (.app ((h.apps ts).shift 1) (.var 0)) := by
    rintro ⟨p, hp, hap⟩
    rcases List.mem_cons.1 hp with rfl | hp
    · right
      simp only [ha', hden] at hap
      exact hap
    · exact .inl ⟨p, hp, hap⟩
  refine ⟨⟨key, fun h => ?_⟩, ⟨fun h => ⟨(key h).1, (key h).2.symm⟩, fun h => ?_⟩⟩
  · refine (key2 h).imp id fun h => ?_
    rw [hden]
    exact .etaL he (denAbs_isAbs _ _) hat h
  · refine (key2 h).imp id fun h => ?_
    rw [hden]
    exact .etaR he (denAbs_isAbs _ _) hat h

theorem zip_conv {as bs : List STerm} (hlen : as.length = bs.length)
    (h : ∀ p ∈ as.zip bs, Conv R eta p.1.den p.2.den) :
    List.Forall₂ (Conv R eta) (as.map STerm.den) (bs.map STerm.den) := by
  induction as generalizing bs with
  | nil => cases bs with
    | nil => exact .nil
    | cons => simp at hlen
  | cons a as ih => cases bs with
    | nil => simp at hlen
    | cons b bs =>
      exact .cons (h (a, b) (by simp)) (ih (by simpa using hlen) fun p hp => h p (by simp [hp]))

theorem zip_apart {as bs : List STerm} {p : STerm × STerm} (h : p ∈ as.zip bs) :
    (p.1.den, p.2.den) ∈ (as.map STerm.den).zip (bs.map STerm.den) := by
  rw [List.zip_map]
  exact List.mem_map.2 ⟨p, h, rfl⟩

theorem Tri.step2 (cns : List (STerm × STerm)) (c1 c2 : SComb) (f1 : HForm (.scomb c1)) (f2 : HForm (.scomb c2)) :
    Tri R eta G q (step2 eta cns c1 c2) (fun _ => StepPost R eta cns (SComb.den c1) (SComb.den c2)) := by
  unfold Kontroli.step2
  split
  · next t1 _ _ t2 =>
    refine Tri.pure ⟨fun h => ⟨fun p hp => h p (List.mem_cons_of_mem _ hp), ?_⟩, ?_⟩
    · exact (denAbs_conv _ _).trans ((Conv.dlam (h _ List.mem_cons_self)).trans (denAbs_conv _ _).symm)
    · rintro ⟨p, hp, hap⟩
      rcases List.mem_cons.1 hp with rfl | hp
      · exact .inr (.body (denAbs_isAbs _ _) (denAbs_isAbs _ _) hap)
      · exact .inl ⟨p, hp, hap⟩
  · next ty1 tm1 _ ty2 tm2 =>
    refine Tri.pure ⟨fun h => ⟨fun p hp => h p (by simp [hp]), ?_⟩, ?_⟩
    · exact .pi (h (ty1, ty2) (by simp)) (h (tm1, tm2) (by simp))
    · rintro ⟨p, hp, hap⟩
      rcases List.mem_cons.1 hp with rfl | hp
      · exact .inr (.cod hap)
      · rcases List.mem_cons.1 hp with rfl | hp
        · exact .inr (.dom hap)
        · exact .inl ⟨p, hp, hap⟩
  · next g1 args1 g2 args2 =>
    have a1 : g1.IsAtom := by
      cases f1 with
      | atom h => exact h.elim
      | abs h => exact h.elim
      | app h _ => exact h
    have a2 : g2.IsAtom := by
      cases f2 with
      | atom h => exact h.elim
      | abs h => exact h.elim
      | app h _ => exact h
    simp only [SComb.den, STerm.denList_eq]
    refine Tri.ite (fun hlen => Tri.pure ⟨fun h => ⟨fun p hp => h p (by simp [hp]), ?_⟩, ?_⟩) fun hlen => Tri.pure ?_
    · refine Conv.apps (h (g1, g2) (by simp)) (zip_conv hlen fun p hp => h p ?_)
      simp [hp]
    · rintro ⟨p, hp, hap⟩
      rcases List.mem_append.1 hp with hp | hp
      · exact .inr (.arg a1.atom a2.atom (by simpa using hlen) (zip_apart (List.mem_reverse.1 hp)) hap)
      · rcases List.mem_cons.1 hp with rfl | hp
        · exact .inr (.head a1.atom a2.atom (by simpa using hlen) hap)
        · exact .inl ⟨p, hp, hap⟩
    · exact .length a1.atom a2.atom (by simpa using hlen)
  · have hna : ¬ (STerm.scomb c2).isAbs := by
      cases c2 <;> simp_all [STerm.isAbs]
    refine Tri.ite (fun he => (Tri.etaStep he _ _ (.scomb c2) f2 hna).mono fun _ _ _ h => h.1) fun he => Tri.pure ?_
    obtain ⟨h, ts, hat, hden⟩ := f2.atom_of hna
    simp only [STerm.den] at hden
    unfold StepPost
    rw [hden]
    exact .absL (by simpa using he) (denAbs_isAbs _ _) hat
  · have hna : ¬ (STerm.scomb c1).isAbs := by
      cases c1 <;> simp_all [STerm.isAbs]
    refine Tri.ite (fun he => (Tri.etaStep he _ _ (.scomb c1) f1 hna).mono fun _ _ _ h => h.2) fun he => Tri.pure ?_
    obtain ⟨h, ts, hat, hden⟩ := f1.atom_of hna
    simp only [STerm.den] at hden
    unfold StepPost
    rw [hden]
    exact .absR (by simpa using he) (denAbs_isAbs _ _) hat
  · rename_i _ _ _ H2 H3
    refine Tri.pure ?_
    unfold StepPost
    cases f1 with
    | abs h => cases c1 <;> first | exact h.elim | (exfalso; simp_all; done)
    | atom h =>
      cases c1 with
      | appl f as => exact h.elim
      | abst i a b => exact h.elim
      | prod i A B =>
        cases f2 with
        | abs h => cases c2 <;> first | exact h.elim | (exfalso; simp_all; done)
        | atom h =>
          cases c2 with
          | appl f as => exact h.elim
          | abst i a b => exact h.elim
          | prod i' A' B' => first | exact (H2 _ _ _ _ _ _ rfl rfl).elim | exact (H3 _ _ _ _ rfl rfl).elim
        | @app f as hf hne =>
          simp only [SComb.den, STerm.denList_eq]
          refine Differ.length (h := .pi A.den B.den) (ts := []) (.pi _ _) hf.atom ?_
          cases as with
          | nil => exact absurd rfl hne
          | cons a as => simp
    | @app f as hf hne =>
      cases f2 with
      | abs h => cases c2 <;> first | exact h.elim | (exfalso; simp_all; done)
      | atom h =>
        cases c2 with
        | appl f as => exact h.elim
        | abst i a b => exact h.elim
        | prod i' A' B' =>
          simp only [SComb.den, STerm.denList_eq]
          refine Differ.length (h' := .pi A'.den B'.den) (ts' := []) hf.atom (.pi _ _) ?_
          cases as with
          | nil => exact absurd rfl hne
          | cons a as => simp
      | app => first | exact (H2 _ _ _ _ _ _ rfl rfl).elim | exact (H3 _ _ _ _ rfl rfl).elim

/-- terms without components -/
def STerm.Simple : STerm → Prop
  | .kind => True
  | .type => True
  | .const _ => True
  | .var _ => True
  | _ => False

theorem STerm.Simple.facts {t : STerm} (h : t.Simple) : t.IsAtom ∧ ¬ t.isAbs ∧ ∀ A B, t.den ≠ .pi A B := by
  cases t <;> first | exact ⟨trivial, fun h => h, by intro A B h; cases h⟩ | exact h.elim

theorem differ_simple {c : SComb} {a : STerm} (hc : HForm (.scomb c)) (ha : a.Simple)
    (h : eta = false ∨ ¬ (STerm.scomb c).isAbs) :
    Differ R eta (SComb.den c) a.den ∧ Differ R eta a.den (SComb.den c) := by
  obtain ⟨h1, h2, h3⟩ := ha.facts
  cases hc with
  | atom hat =>
    obtain ⟨A, B, e⟩ : ∃ A B, SComb.den c = .pi A B := by
      cases c with
      | prod => exact ⟨_, _, rfl⟩
      | _ => exact hat.elim
    refine ⟨.atom hat.atom h1.atom ?_, .atom h1.atom hat.atom ?_⟩
    · intro hs
      simp only [STerm.den, e] at hs
      generalize hx : a.den = x at hs h3
      cases hs
      exact h3 _ _ rfl
    · intro hs
      simp only [STerm.den, e] at hs
      generalize hx : a.den = x at hs h3
      cases hs
      exact h3 _ _ rfl
  | abs hab =>
    rcases h with h | h
    · obtain ⟨b, hb⟩ := hab.abs
      exact ⟨.absL (ts := []) h hb h1.atom, .absR (ts := []) h hb h1.atom⟩
    · exact absurd hab h
  | @app f as hf hne =>
    have : (as.map STerm.den).length ≠ 0 := by simpa using hne
    simp only [SComb.den, STerm.denList_eq]
    exact ⟨.length (ts' := []) hf.atom h1.atom this, .length (ts := []) h1.atom hf.atom (Ne.symm this)⟩

theorem Tri.step1 (he : eta = true) (cns : List (STerm × STerm)) (c : SComb) (t : STerm) (hc : HForm (.scomb c))
    (ht : t.Simple) :
    Tri R eta G q (step1 cns c t) (fun _ res => StepPost R eta cns (SComb.den c) t.den res ∧
      StepPost R eta cns t.den (SComb.den c) res) := by
  obtain ⟨h1, h2, h3⟩ := ht.facts
  unfold Kontroli.step1
  split
  · next ty b => exact Tri.etaStep he ty b t (.atom h1) h2
  · next hne =>
    refine Tri.pure (differ_simple hc ht (.inr ?_))
    cases c with
    | abst i a b => exact absurd rfl (hne i a b)
    | _ => simp [STerm.isAbs]

theorem HForm.ofL {c : LComb} (h : HForm (.lcomb c)) : HForm (.scomb (SComb.ofL c)) := by
  cases h with
  | atom h => cases c <;> first | exact h.elim | exact .atom trivial
  | abs h => cases c <;> first | exact h.elim | exact .abs trivial

theorem Tri.step (cns : List (STerm × STerm)) (t1 t2 : STerm) (f1 : HForm t1) (f2 : HForm t2) :
    Tri R eta G q (step eta cns t1 t2) (fun _ => StepPost R eta cns t1.den t2.den) := by
  have hid : ∀ {t : Tm}, StepPost R eta cns t t (some cns) := fun {t} => ⟨fun h => ⟨h, .refl _⟩, fun h => .inl h⟩
  have comb : ∀ {c : SComb} {a : STerm}, HForm (.scomb c) → a.Simple →
      Tri R eta G q (if eta then Kontroli.step1 cns c a else M.pure none)
        (fun _ res => StepPost R eta cns (SComb.den c) a.den res ∧ StepPost R eta cns a.den (SComb.den c) res) := by
    intro c a hc ha
    exact Tri.ite (fun he => Tri.step1 he cns c a hc ha) fun he =>
      Tri.pure (differ_simple hc ha (.inl (by simpa using he)))
  unfold Kontroli.step
  split
  · exact Tri.pure hid
  · exact Tri.pure hid
  · next s1 s2 =>
    refine Tri.ite (fun he => Tri.pure (by rw [he]; exact hid)) fun hne => Tri.pure ?_
    exact .atom (.const _) (.const _) (by intro h; cases h; exact hne rfl)
  · next s1 s2 =>
    refine Tri.ite (fun he => Tri.pure (by rw [he]; exact hid)) fun hne => Tri.pure ?_
    exact .atom (.var _) (.var _) (by intro h; cases h; exact hne rfl)
  · next c1 c2 => simpa [STerm.den] using Tri.step2 cns (SComb.ofL c1) (SComb.ofL c2) f1.ofL f2.ofL
  · next c1 c2 => simpa [STerm.den] using Tri.step2 cns (SComb.ofL c1) c2 f1.ofL f2
  · next c1 c2 => simpa [STerm.den] using Tri.step2 cns c1 (SComb.ofL c2) f1 f2.ofL
  · next c1 c2 => exact Tri.step2 cns c1 c2 f1 f2
  · next b h1 h2 =>
    refine (comb f1 ?_).mono fun _ _ _ h => h.1
    cases t2 <;> simp_all [STerm.Simple]
  · next b h1 h2 =>
    refine (comb f2 ?_).mono fun _ _ _ h => h.2
    cases t1 <;> simp_all [STerm.Simple]
  · next b h1 h2 =>
    have := (comb f1.ofL (a := t2) (by cases t2 <;> simp_all [STerm.Simple])).mono fun _ _ _ h => h.1
    simpa [STerm.den] using this
  · next b h1 h2 =>
    have := (comb f2.ofL (a := t1) (by cases t1 <;> simp_all [STerm.Simple])).mono fun _ _ _ h => h.2
    simpa [STerm.den] using this
  · refine Tri.pure ?_
    unfold StepPost
    cases t1 <;> cases t2 <;> first
      | (simp_all; done)
      | exact .atom (by constructor) (by constructor) (by intro h; cases h)

mutual
  theorem LTerm.beq_eq (a b : LTerm) (h : LTerm.beq a b = true) : a = b := by
    cases a <;> cases b <;> simp only [LTerm.beq, Bool.false_eq_true] at h
    · rfl
    · simpa using h
    · simpa using h
    · rw [LComb.beq_eq _ _ h]
  theorem LComb.beq_eq (a b : Comb Str LTerm) (h : LComb.beq a b = true) : a = b := by
    cases a <;> cases b <;> simp only [LComb.beq, Bool.false_eq_true, Bool.and_eq_true] at h
    · rw [LTerm.beq_eq _ _ h.1, LTerm.beqList_eq _ _ h.2]
    · have h1 := h.1.1; simp only [beq_iff_eq] at h1
      rw [h1, LTerm.beq_eq _ _ h.1.2, LTerm.beq_eq _ _ h.2]
    · have h1 := h.1.1; simp only [beq_iff_eq] at h1
      rw [h1, LTerm.beqOpt_eq _ _ h.1.2, LTerm.beq_eq _ _ h.2]
  theorem LTerm.beqList_eq (a b : List LTerm) (h : LTerm.beqList a b = true) : a = b := by
    cases a <;> cases b <;> simp only [LTerm.beqList, Bool.false_eq_true, Bool.and_eq_true] at h
    · rfl
    · rw [LTerm.beq_eq _ _ h.1, LTerm.beqList_eq _ _ h.2]
  theorem LTerm.beqOpt_eq (a b : Option LTerm) (h : LTerm.beqOpt a b = true) : a = b := by
    cases a <;> cases b <;> simp only [LTerm.beqOpt, Bool.false_eq_true] at h
    · rfl
    · rw [LTerm.beq_eq _ _ h]
end

mutual
  theorem STerm.beq_eq (a b : STerm) (h : STerm.beq a b = true) : a = b := by
    cases a <;> cases b <;> simp only [STerm.beq, Bool.false_eq_true] at h
    · rfl
    · rfl
    · simpa using h
    · simpa using h
    · rw [LComb.beq_eq _ _ h]
    · rw [SComb.beq_eq _ _ h]
  theorem SComb.beq_eq (a b : Comb Str STerm) (h : SComb.beq a b = true) : a = b := by
    cases a <;> cases b <;> simp only [SComb.beq, Bool.false_eq_true, Bool.and_eq_true] at h
    · rw [STerm.beq_eq _ _ h.1, STerm.beqList_eq _ _ h.2]
    · have h1 := h.1.1; simp only [beq_iff_eq] at h1
      rw [h1, STerm.beq_eq _ _ h.1.2, STerm.beq_eq _ _ h.2]
    · have h1 := h.1.1; simp only [beq_iff_eq] at h1
      rw [h1, STerm.beqOpt_eq _ _ h.1.2, STerm.beq_eq _ _ h.2]
  theorem STerm.beqList_eq (a b : List STerm) (h : STerm.beqList a b = true) : a = b := by
    cases a <;> cases b <;> simp only [STerm.beqList, Bool.false_eq_true, Bool.and_eq_true] at h
    · rfl
    · rw [STerm.beq_eq _ _ h.1, STerm.beqList_eq _ _ h.2]
  theorem STerm.beqOpt_eq (a b : Option STerm) (h : STerm.beqOpt a b = true) : a = b := by
    cases a <;> cases b <;> simp only [STerm.beqOpt, Bool.false_eq_true] at h
    · rfl
    · rw [STerm.beq_eq _ _ h]
end

theorem Tri.cvBody {gc : GCtx} {o : Ops} (ho : OpsOk R gc.eta o) (cns : List (STerm × STerm)) :
    Tri R gc.eta G q (cvBody gc o cns)
      (fun _ b => (b = true → ∀ p ∈ cns, Conv R gc.eta p.1.den p.2.den) ∧
        (b = false → ∃ p ∈ cns, Apart R gc.eta p.1.den p.2.den)) := by
  cases cns with
  | nil => exact Tri.pure (by simp)
  | cons p cns =>
    obtain ⟨cn1, cn2⟩ := p
    unfold Kontroli.cvBody
    refine Tri.ite (fun heq => ?_) fun _ => ?_
    · refine (ho.cv G q cns).mono ?_
      rintro _ b _ ⟨h, h'⟩
      refine ⟨fun hb p hp => ?_, fun hb => ?_⟩
      · rcases List.mem_cons.1 hp with rfl | hp
        · rw [STerm.beq_eq _ _ heq]; exact .refl _
        · exact h hb p hp
      · obtain ⟨p, hp, hap⟩ := h' hb
        exact ⟨p, List.mem_cons_of_mem _ hp, hap⟩
    · refine Tri.bind (Tri.whnfTerm ho cn1) ?_
      rintro G1 w1 _ ⟨h1, n1, f1⟩
      refine Tri.bind (Tri.whnfTerm ho cn2) ?_
      rintro G2 w2 _ ⟨h2, n2, f2⟩
      refine Tri.bind (Tri.step cns w1 w2 f1 f2) ?_
      intro G3 res _ h3
      cases res with
      | none => exact Tri.pure ⟨by simp, fun _ => ⟨(cn1, cn2), List.mem_cons_self, .mk h1 h2 n1 n2 h3⟩⟩
      | some cns' =>
        refine (ho.cv G3 q cns').mono ?_
        rintro _ b _ ⟨h, h'⟩
        refine ⟨fun hb p hp => ?_, fun hb => ?_⟩
        · obtain ⟨h4, h5⟩ := h3.1 (h hb)
          rcases List.mem_cons.1 hp with rfl | hp
          · exact h1.conv.symm.trans (h5.trans h2.conv)
          · exact h4 p hp
        · rcases h3.2 (h' hb) with ⟨p, hp, hap⟩ | hd
          · exact ⟨p, List.mem_cons_of_mem _ hp, hap⟩
          · exact ⟨(cn1, cn2), List.mem_cons_self, .mk h1 h2 n1 n2 hd⟩

theorem opsOk (gc : GCtx) (n : Nat) : OpsOk gc.rules gc.eta (ops gc n) := by
  induction n with
  | zero => exact ⟨fun _ _ _ _ => Tri.timeout, fun _ _ _ _ => TriR.timeout, fun _ _ _ => Tri.timeout⟩
  | succ n ih =>
    exact ⟨fun _ _ _ h => Tri.whnfBody ih h, RdOk.body ih.rd, fun _ _ cns => Tri.cvBody ih cns⟩

end

end Kontroli
