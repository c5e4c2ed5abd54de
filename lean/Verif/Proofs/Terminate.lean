import Verif.Proofs.Halts
import Verif.Proofs.Normal
import Verif.Spec.Eta

/-!
# Evaluation and conversion stop on strongly normalising terms
-/

namespace Kontroli

open Relation

section
variable {gc : GCtx} {G : Ghost} {q : ℚ}

/-- evaluation stops for all states that denote the term -/
def WhStops (gc : GCtx) (t : Tm) : Prop :=
  ∀ G q st, Ghost.StOk G q st → G.den st = t → TH gc.rules gc.eta G q (fun m => (ops gc m).wh st)

/-- comparison stops if the rest does -/
def CvStops (gc : GCtx) (a b : STerm) : Prop :=
  ∀ G q rest, (∀ G', Ghost.Ext G G' → TH gc.rules gc.eta G' q (fun m => (ops gc m).cv rest)) →
    TH gc.rules gc.eta G q (fun m => (ops gc m).cv ((a, b) :: rest))

theorem TH.rwhnf {r : Nat} (hr : r < G.ns) (hq : G.rs r < q)
    (hwh : ∀ st, G.StOk (G.rs r) st → Rev gc.rules gc.eta (G.den st) (G.gs r) →
      TH gc.rules gc.eta G (G.rs r) (fun m => (ops gc m).wh st)) :
    TH gc.rules gc.eta G q (fun m => rwhnf (ops gc m) r) := by
  intro s hW
  unfold Kontroli.rwhnf
  refine Halts.bind (.of_nt (.lockState r) s) fun _ w s1 e => ?_
  have hw : s.states[r]? = some w ∧ s1 = { s with states := s.states.set r { w with borrowed := true } } := by
    unfold lockState at e
    split at e
    · simp at e
    · next h =>
      split at e
      · simp at e
      · cases e; exact ⟨h, rfl⟩
  obtain ⟨hw, rfl⟩ := hw
  obtain ⟨hst, hcv⟩ := hW.st r w hw
  have hwn : G.wn r = if w.whnfed then some w.state else none := by
    rw [hW.wn r]; unfold wnOf; rw [hw]
  have hW1 : World gc.rules gc.eta G (G.rs r) { s with states := s.states.set r { w with borrowed := true } } :=
    hW.setState (w := { w with borrowed := true }) hr hst hcv hq.le (fun _ => le_refl _) hwn
  refine Halts.bind ?_ fun _ w' s2 _ => .of_nt (.unlockState _ _) _
  by_cases hwf : w.whnfed = true
  · simp only [if_pos hwf]
    exact .of_nt (.pure _) _
  · simp only [if_neg hwf]
    exact Halts.bind (hwh w.state hst hcv _ hW1) fun _ _ _ _ => .of_nt (.pure _) _

/-- evaluation stops for everything below the term -/
def WhBelow (gc : GCtx) (T : Tm) : Prop := ∀ t, Below gc.rules gc.eta t T → WhStops gc t

/-- comparison stops for everything below the term -/
def CvBelow (gc : GCtx) (T : Tm) : Prop :=
  ∀ a b : STerm, Below gc.rules gc.eta a.den T → Below gc.rules gc.eta b.den T → CvStops gc a b

theorem TH.rwhnfBelow {T : Tm} (hT : WhBelow gc T) {r : Nat} (hr : r < G.ns) (hq : G.rs r < q)
    (hb : Below gc.rules gc.eta (G.gs r) T) : TH gc.rules gc.eta G q (fun m => Kontroli.rwhnf (ops gc m) r) :=
  TH.rwhnf hr hq fun st hst hc => hT _ (Red.lower hc hb) G (G.rs r) st hst rfl

mutual
  theorem TH.matchPat {T : Tm} (hT : WhBelow gc T) (p : Pattern) (G : Ghost) (r : Nat) (sub : Sub) (hr : r < G.ns) (hq : G.rs r < q)
      (hb : Below gc.rules gc.eta (G.gs r) T) :
      TH gc.rules gc.eta G q (fun m => matchPat (Kontroli.rwhnf (ops gc m)) p r sub) := by
    cases p with
    | mvar m => unfold Kontroli.matchPat; exact .pure _
    | joker => unfold Kontroli.matchPat; exact .pure _
    | symb sp pats =>
      unfold Kontroli.matchPat
      refine TH.bind (TH.rwhnfBelow hT hr hq hb) (fun m => Tri.rwhnf (opsOk gc m) hr hq) ?_
      rintro G1 _ e1 -
      have hr1 : r < G1.ns := Nat.lt_of_lt_of_le hr e1.ns
      have hq1 : G1.rs r < q := by rw [e1.rs r hr]; exact hq
      refine TH.bind (F := fun _ => Kontroli.borrowState r) (.of_nt (.borrowState r)) (fun _ => Tri.borrowState hr1 hq1) ?_
      rintro _ st e2 ⟨rfl, hst, hcv, -⟩
      cases hs : st.term with
      | const s =>
        refine .ite (fun hc => ?_) fun _ => .pure _
        refine TH.matchPats hT pats _ st.stack sub (hst.mono hq1.le).2 (hc.2 ▸ Nat.le_refl _) fun r' hr' => ?_
        rw [e1.gs r hr] at hcv
        refine TransGen.trans ?_ (Red.lower hcv hb)
        exact below_apps_arg (List.mem_map.2 ⟨r', hr', rfl⟩)
      | _ => exact .pure _
  theorem TH.matchPats {T : Tm} (hT : WhBelow gc T) (ps : List Pattern) (G : Ghost) (rs : List Nat) (sub : Sub)
      (hrs : ∀ r ∈ rs, r < G.ns ∧ G.rs r < q) (hlen : ps.length ≤ rs.length) (hb : ∀ r ∈ rs, Below gc.rules gc.eta (G.gs r) T) :
      TH gc.rules gc.eta G q (fun m => matchPats (Kontroli.rwhnf (ops gc m)) ps rs sub) := by
    cases ps with
    | nil => unfold Kontroli.matchPats; exact .pure _
    | cons p ps =>
      cases rs with
      | nil => simp at hlen
      | cons r rs =>
        unfold Kontroli.matchPats
        have hr := hrs r List.mem_cons_self
        refine TH.bind (TH.matchPat hT p G r sub hr.1 hr.2 (hb r List.mem_cons_self))
          (fun m => Tri.matchPat (fun G r h1 h2 => Tri.rwhnf (opsOk gc m) h1 h2) p G r sub hr.1 hr.2) ?_
        intro G1 res e1 _
        cases res with
        | none => exact .pure _
        | some sub1 =>
          refine TH.matchPats hT ps G1 rs sub1 (fun r' hr' => ?_) (by simpa using hlen) fun r' hr' => ?_
          · obtain ⟨a, b⟩ := hrs r' (List.mem_cons_of_mem _ hr')
            exact ⟨Nat.lt_of_lt_of_le a e1.ns, by rw [e1.rs r' a]; exact b⟩
          · rw [e1.gs r' (hrs r' (List.mem_cons_of_mem _ hr')).1]
            exact hb r' (List.mem_cons_of_mem _ hr')
end

theorem TH.cvNil : TH gc.rules gc.eta G q (fun m => (ops gc m).cv []) := by
  refine TH.succ ?_
  change TH gc.rules gc.eta G q (fun m => cvBody gc (ops gc m) [])
  exact .pure _

theorem TH.allConvRest {T : Tm} (hC : CvBelow gc T) (l : List Nat) (G : Ghost) (a : Nat) (ha : a < G.nt)
    (hq : G.rt a < q) (hl : ∀ r ∈ l, r < G.ns ∧ G.rs r < q) (hba : Below gc.rules gc.eta (G.gt a) T)
    (hbl : ∀ r ∈ l, Below gc.rules gc.eta (G.gs r) T) :
    TH gc.rules gc.eta G q (fun m => allConvRest (ops gc m) a l) := by
  induction l generalizing G with
  | nil => exact .pure _
  | cons r l ih =>
    unfold Kontroli.allConvRest
    refine TH.bindR (TH.forced ha hq) (fun m => TriR.force (rdOk gc m) ha hq) fun t ht => ?_
    have hr := hl r List.mem_cons_self
    refine TH.bindR (TH.readR hr.1 hr.2) (fun m => TriR.readR (rdOk gc m) hr.1 hr.2) fun u hu => ?_
    refine TH.bind (hC t u (Red.lower ht hba) (Red.lower hu.rev (hbl r List.mem_cons_self)) G q [] fun _ _ => TH.cvNil)
      (fun m => (opsOk gc m).cv G q [(t, u)]) fun G3 b e _ => ?_
    refine .ite (fun _ => ?_) fun _ => .pure _
    refine ih G3 (Nat.lt_of_lt_of_le ha e.nt) (by rw [e.rt a ha]; exact hq) (fun r' hr' => ?_) (by rw [e.gt a ha]; exact hba)
      fun r' hr' => ?_
    · obtain ⟨h1, h2⟩ := hl r' (List.mem_cons_of_mem _ hr')
      exact ⟨Nat.lt_of_lt_of_le h1 e.ns, by rw [e.rs r' h1]; exact h2⟩
    · rw [e.gs r' (hl r' (List.mem_cons_of_mem _ hr')).1]
      exact hbl r' (List.mem_cons_of_mem _ hr')

theorem TH.allConv {T : Tm} (l : List Nat) (hC : l ≠ [] → CvBelow gc T) (G : Ghost)
    (hl : ∀ r ∈ l, r < G.ns ∧ G.rs r < q) (hbl : ∀ r ∈ l, Below gc.rules gc.eta (G.gs r) T) :
    TH gc.rules gc.eta G q (fun m => allConv (ops gc m) l) := by
  cases l with
  | nil => exact .pure _
  | cons r l =>
    unfold Kontroli.allConv
    have hr := hl r List.mem_cons_self
    refine TH.bind (F := fun _ => Kontroli.newThunk r) (.of_nt (.newThunk r)) (fun _ => Tri.newThunk hr.1 hr.2) ?_
    rintro G1 a e1 ⟨ha, hq, hgt⟩
    refine TH.allConvRest (hC nofun) l G1 a ha hq (fun r' hr' => ?_) (by rw [hgt]; exact hbl r List.mem_cons_self) fun r' hr' => ?_
    · obtain ⟨h1, h2⟩ := hl r' (List.mem_cons_of_mem _ hr')
      exact ⟨Nat.lt_of_lt_of_le h1 e1.ns, by rw [e1.rs r' h1]; exact h2⟩
    · rw [e1.gs r' (hl r' (List.mem_cons_of_mem _ hr')).1]
      exact hbl r' (List.mem_cons_of_mem _ hr')

theorem TH.flattenSub {T : Tm} (sub : Sub) (hC : ∀ l ∈ sub, l ≠ [] → CvBelow gc T) (G : Ghost) (hs : SubOk G q sub)
    (hb : ∀ l ∈ sub, ∀ r ∈ l, Below gc.rules gc.eta (G.gs r) T) :
    TH gc.rules gc.eta G q (fun m => flattenSub (ops gc m) sub) := by
  induction sub with
  | nil => exact .pure _
  | cons l sub ih =>
    unfold Kontroli.flattenSub
    have hs' : SubOk G q sub := fun l hl => hs l (List.mem_cons_of_mem _ hl)
    refine TH.bind (ih (fun l hl => hC l (List.mem_cons_of_mem _ hl)) hs' fun l hl => hb l (List.mem_cons_of_mem _ hl)) (fun m => Tri.flattenSub (opsOk gc m) sub G hs') ?_
    intro G1 res e1 _
    cases res with
    | none => exact .pure _
    | some cs =>
      have hs1 := hs.ext e1
      refine TH.bind (TH.allConv l (hC l List.mem_cons_self) G1 (hs1 l List.mem_cons_self) fun r hr => ?_)
        (fun m => Tri.allConv (opsOk gc m) l G1 (hs1 l List.mem_cons_self)) fun G2 res e2 _ => ?_
      · rw [e1.gs r (hs l List.mem_cons_self r hr).1]
        exact hb l List.mem_cons_self r hr
      · cases res <;> exact .pure _

/-- the ghost terms of matched closures are below the terms matched -/
theorem PBind.below_aux : ∀ (p : Pattern) {t : Tm} {bs : List (Nat × Tm)}, PBind p t bs → ∀ b ∈ bs,
    b.2 = t ∨ Below gc.rules gc.eta b.2 t := by
  intro p
  induction p using Pattern.rec (motive_2 := fun ps => ∀ {ts : List Tm} {bs : List (Nat × Tm)}, PBinds ps ts bs → ∀ b ∈ bs,
    ∃ t ∈ ts, b.2 = t ∨ Below gc.rules gc.eta b.2 t) with
  | symb s ps ih =>
    intro t bs h b hb
    cases h with
    | symb h =>
      obtain ⟨t, ht, h'⟩ := ih h b hb
      have := below_apps_arg (R := gc.rules) (eta := gc.eta) (f := .const s) ht
      rcases h' with h' | h'
      · exact .inr (h' ▸ this)
      · exact .inr (h'.trans this)
  | mvar m =>
    intro t bs h b hb
    cases h
    simp at hb
    exact .inl (by rw [hb])
  | joker =>
    intro t bs h b hb
    cases h
    simp at hb
  | nil =>
    rename_i h b hb
    cases h
    simp at hb
  | cons p ps ihp ihps =>
    rename_i h b hb
    cases h with
    | cons h1 h2 =>
      rcases List.mem_append.1 hb with hb | hb
      · exact ⟨_, List.mem_cons_self, ihp h1 b hb⟩
      · obtain ⟨t, ht, h'⟩ := ihps h2 b hb
        exact ⟨t, List.mem_cons_of_mem _ ht, h'⟩

theorem PBinds.below_aux {ps : List Pattern} {ts : List Tm} {bs : List (Nat × Tm)} (h : PBinds ps ts bs) {b : Nat × Tm} (hb : b ∈ bs) :
    ∃ t ∈ ts, b.2 = t ∨ Below gc.rules gc.eta b.2 t := by
  induction ps generalizing ts bs with
  | nil =>
    cases h
    simp at hb
  | cons p ps ih =>
    cases h with
    | cons h1 h2 =>
      rcases List.mem_append.1 hb with hb | hb
      · exact ⟨_, List.mem_cons_self, PBind.below_aux p h1 b hb⟩
      · obtain ⟨t, ht, h'⟩ := ih h2 hb
        exact ⟨t, List.mem_cons_of_mem _ ht, h'⟩

theorem TH.matchFlatten {T : Tm} (hT : WhBelow gc T) {rule : Rule} (hC : CvBelow gc T ∨ rule.lhs.args = []) {stack : List Nat} (G : Ghost)
    (hs : ∀ r ∈ stack, r < G.ns ∧ G.rs r < q) (hb : ∀ r ∈ stack, Below gc.rules gc.eta (G.gs r) T) :
    TH gc.rules gc.eta G q (fun m => matchFlatten (ops gc m) rule stack) := by
  unfold Kontroli.matchFlatten matchRule
  by_cases hlen : stack.length < rule.lhs.args.length
  · simp only [if_pos hlen]
    exact TH.pure none
  · simp only [if_neg hlen]
    have hlen' : rule.lhs.args.length ≤ stack.length := by omega
    refine TH.bind (TH.matchPats hT rule.lhs.args G stack _ hs hlen' hb)
      (fun m => Tri.matchPats (fun G r h1 h2 => Tri.rwhnf (opsOk gc m) h1 h2) rule.lhs.args G stack _ hs hlen') ?_
    intro G1 res e1 hres
    cases res with
    | none => exact .pure _
    | some sub =>
      obtain ⟨bs, ts, p1, p2, p3, p4, p5⟩ := hres.1 sub rfl
      obtain ⟨q1, q2, q3⟩ := pushAll_get p1
      have key : ∀ l ∈ sub, ∀ r ∈ l, (r < G1.ns ∧ G1.rs r < q) ∧ Below gc.rules gc.eta (G1.gs r) T := by
        intro l hl r hr
        obtain ⟨m, hm, rfl⟩ := List.mem_iff_getElem.1 hl
        have := q3 m
        rw [List.getElem?_replicate, if_pos (by rw [List.length_replicate] at q1; omega), List.getElem?_eq_getElem hm] at this
        simp only [Option.map_some, List.nil_append, Option.some.injEq] at this
        rw [this] at hr
        have hr := boundTo_mem hr
        refine ⟨p2 _ hr, ?_⟩
        obtain ⟨t, ht, h'⟩ := PBinds.below_aux (gc := gc) p3 (b := (m, G1.gs r)) (List.mem_map.2 ⟨(m, r), hr, rfl⟩)
        obtain ⟨i, hi, rfl⟩ := List.mem_iff_getElem.1 ht
        obtain ⟨hl2, hf⟩ := List.forall₂_iff_get.1 p4
        have hred := hf i hi (hl2 ▸ hi)
        simp only [List.get_eq_getElem, List.getElem_map] at hred
        have hbt : Below gc.rules gc.eta ts[i] T :=
          Red.lower hred (hb _ (List.mem_of_mem_take (List.getElem_mem _)))
        rcases h' with h' | h'
        · simp only at h'
          rw [h']; exact hbt
        · exact h'.trans hbt
      have hC' : ∀ l ∈ sub, l ≠ [] → CvBelow gc T := by
        intro l hl hne
        refine hC.resolve_right fun h0 => ?_
        rw [h0] at p3
        obtain rfl : bs = [] := by
          have hnil : ∀ {ts : List Tm} {bs' : List (Nat × Tm)}, PBinds [] ts bs' → bs' = [] := fun h => by cases h; rfl
          exact List.map_eq_nil_iff.1 (hnil p3)
        obtain ⟨r, hr⟩ := List.exists_mem_of_ne_nil l hne
        obtain ⟨m, hm, rfl⟩ := List.mem_iff_getElem.1 hl
        have := q3 m
        rw [List.getElem?_replicate, if_pos (by rw [List.length_replicate] at q1; omega), List.getElem?_eq_getElem hm] at this
        simp only [Option.map_some, List.nil_append, Option.some.injEq] at this
        rw [this] at hr
        have := boundTo_mem hr
        simp_all
      exact TH.flattenSub sub hC' G1 (fun l hl r hr => (key l hl r hr).1) fun l hl r hr => (key l hl r hr).2

theorem Tri.firstMatchStep {R : RuleMap} {eta : Bool} {o : Ops} (ho : OpsOk R eta o) {s : Sym} {stack : List Nat} {rules : List Rule}
    (hR : R s = some rules) (rs : List Rule) (hrs : ∀ r ∈ rs, r ∈ rules) (G : Ghost)
    (hs : ∀ r ∈ stack, r < G.ns ∧ G.rs r < q) :
    Tri R eta G q (Kontroli.firstMatch o stack rs) (fun G' res => ∀ cs rule, res = some (cs, rule) →
      rule.lhs.args.length ≤ stack.length ∧ (∀ c ∈ cs, c < G'.nt ∧ G'.rt c < q) ∧
      TransGen (Step R eta) (Tm.apps (.const s) ((stack.take rule.lhs.args.length).map G.gs)) (rule.rhs.den.sub (G'.ctxSub cs))) := by
  induction rs generalizing G with
  | nil => exact Tri.pure (by simp)
  | cons r rs ih =>
    unfold Kontroli.firstMatch
    refine Tri.bind (Tri.matchFlatten ho (rule := r) hs) ?_
    intro G1 res e1 h
    cases res with
    | some cs =>
      refine Tri.pure ?_
      intro cs' rule heq
      simp only [Option.some.injEq, Prod.mk.injEq] at heq
      obtain ⟨rfl, rfl⟩ := heq
      obtain ⟨h1, h2, h3, hlen, ts, bs, h4, h5, h6⟩ := h.1 cs rfl
      refine ⟨h1, h2, ?_⟩
      have hred : Rev R eta (Tm.apps (.const s) ts) (Tm.apps (.const s) ((stack.take r.lhs.args.length).map G.gs)) :=
        Rev.apps (Rev.refl _) h6
      refine TransGen.tail' (Red.steps hred) (.rule hR (hrs r List.mem_cons_self) h3 h4 h5 fun m hm => ?_)
      refine ⟨m - cs.length, ?_⟩
      unfold Ghost.ctxSub
      rw [List.getElem?_eq_none (by omega)]
    | none =>
      have hs1 : ∀ r ∈ stack, r < G1.ns ∧ G1.rs r < q := fun r' hr' => by
        obtain ⟨a, b⟩ := hs r' hr'
        exact ⟨Nat.lt_of_lt_of_le a e1.ns, by rw [e1.rs r' a]; exact b⟩
      refine (ih (fun r hr => hrs r (List.mem_cons_of_mem _ hr)) G1 hs1).mono ?_
      intro G2 res e2 h' cs rule heq
      obtain ⟨h1, h2, h3⟩ := h' cs rule heq
      rw [Ghost.map_gs_ext e1 (fun a ha => (hs a (List.mem_of_mem_take ha)).1)] at h3
      exact ⟨h1, h2, h3⟩

theorem TH.firstMatch {T : Tm} (hT : WhBelow gc T) {stack : List Nat} (rs : List Rule) (hC : CvBelow gc T ∨ ∀ r ∈ rs, r.lhs.args = []) (G : Ghost)
    (hs : ∀ r ∈ stack, r < G.ns ∧ G.rs r < q) (hb : ∀ r ∈ stack, Below gc.rules gc.eta (G.gs r) T) :
    TH gc.rules gc.eta G q (fun m => firstMatch (ops gc m) stack rs) := by
  induction rs generalizing G with
  | nil => exact .pure _
  | cons r rs ih =>
    unfold Kontroli.firstMatch
    refine TH.bind (TH.matchFlatten hT (hC.imp_right fun h => h r List.mem_cons_self) G hs hb) (fun m => Tri.matchFlatten (opsOk gc m) (rule := r) hs) ?_
    intro G1 res e1 _
    cases res with
    | some cs => exact .pure _
    | none =>
      refine ih (hC.imp_right fun h r' hr' => h r' (List.mem_cons_of_mem _ hr')) G1 (fun r' hr' => ?_) fun r' hr' => ?_
      · obtain ⟨a, b⟩ := hs r' hr'
        exact ⟨Nat.lt_of_lt_of_le a e1.ns, by rw [e1.rs r' a]; exact b⟩
      · rw [e1.gs r' (hs r' hr').1]
        exact hb r' hr'

/-! ### Evaluation -/

mutual
  /-- how many applications are nested at the head -/
  def LTerm.nest : LTerm → Nat
    | .comb c => LComb.nest c
    | _ => 0
  /-- how many applications are nested at the head -/
  def LComb.nest : Comb Str LTerm → Nat
    | .appl f _ => LTerm.nest f + 1
    | _ => 0
end

mutual
  /-- how many applications are nested at the head -/
  def STerm.nest : STerm → Nat
    | .lcomb c => LComb.nest c
    | .scomb c => SComb.nest c
    | _ => 0
  /-- how many applications are nested at the head -/
  def SComb.nest : Comb Str STerm → Nat
    | .appl f _ => STerm.nest f + 1
    | _ => 0
end

theorem STerm.nest_ofL (t : LTerm) : (STerm.ofL t).nest = t.nest := by
  cases t <;> simp [STerm.ofL, STerm.nest, LTerm.nest]

theorem SComb.nest_ofL (c : LComb) : SComb.nest (SComb.ofL c) = LComb.nest c := by
  cases c <;> simp [SComb.ofL, SComb.nest, LComb.nest, STerm.nest_ofL]

/-- evaluation stops for a state that denotes `T`, if it does for everything below and for the states that follow and denote the same -/
theorem TH.whnfBody {T : Tm} (hT : WhBelow gc T) (hC : CvBelow gc T ∨ Definitional gc.rules) {st : State} (h : G.StOk q st) (hd : G.den st = T)
    (hvar : st.ctx ≠ [] → ∀ G t, Ghost.StOk G q ⟨[], t, st.stack⟩ → G.den ⟨[], t, st.stack⟩ = T →
      TH gc.rules gc.eta G q (fun m => (ops gc m).wh ⟨[], t, st.stack⟩))
    (happ : ∀ G t stack, t.nest < st.term.nest → Ghost.StOk G q ⟨st.ctx, t, stack⟩ → G.den ⟨st.ctx, t, stack⟩ = T →
      TH gc.rules gc.eta G q (fun m => (ops gc m).wh ⟨st.ctx, t, stack⟩)) :
    TH gc.rules gc.eta G q (fun m => (ops gc m).wh st) := by
  have hcomb : ∀ c : SComb, SComb.nest c = st.term.nest → st.term.den = SComb.den c →
      TH gc.rules gc.eta G q (fun m => stepComb (ops gc m) st c) := by
    intro c hn hden
    cases c with
    | prod id ty tm => exact .of_nt .panic
    | abst id ty t =>
      cases hst : st.stack with
      | nil => simp only [stepComb, hst]; exact .of_nt .panic
      | cons r rest =>
        simp only [stepComb, hst]
        have hr := h.2 r (by rw [hst]; exact List.mem_cons_self)
        refine TH.bind (F := fun _ => Kontroli.newThunk r) (.of_nt (.newThunk r)) (fun _ => Tri.newThunk hr.1 hr.2) ?_
        rintro G1 a e1 ⟨h1, h2, h3⟩
        have hok : G1.StOk q { ctx := a :: st.ctx, term := t, stack := rest } := by
          refine ⟨?_, ?_⟩
          · intro a' ha'
            rcases List.mem_cons.1 ha' with rfl | ha'
            · exact ⟨h1, h2⟩
            · exact (h.ext e1).1 a' ha'
          · intro r' hr'
            exact (h.ext e1).2 r' (by rw [hst]; exact List.mem_cons_of_mem _ hr')
        refine hT _ ?_ G1 q _ hok rfl
        have hrest : ∀ r ∈ rest, r < G.ns := fun r' hr' => (h.2 r' (by rw [hst]; exact List.mem_cons_of_mem _ hr')).1
        rw [← hd]
        unfold Ghost.den
        simp only [hst, List.map_cons, Tm.apps]
        rw [Ghost.ctxSub_cons, h3, Ghost.ctxSub_ext e1 (fun a ha => (h.1 a ha).1), Ghost.map_gs_ext e1 hrest]
        refine .single (.inl (Step.apps ?_ _))
        rw [← up_inst, hden]
        cases ty with
        | none => exact Step.dbeta _ _
        | some A => exact Step.beta _ _ _
    | appl head tail =>
      simp only [stepComb]
      refine TH.bind (F := fun _ => Kontroli.newStates st.ctx tail) (.of_nt (.newStates _ _))
        (fun _ => Tri.newStates st.ctx tail G h.1) ?_
      rintro G1 rs e1 ⟨h1, h2⟩
      have hok : G1.StOk q { ctx := st.ctx, term := head, stack := rs ++ st.stack } := by
        refine ⟨(h.ext e1).1, ?_⟩
        intro r hr
        rcases List.mem_append.1 hr with hr | hr
        · exact h1 r hr
        · exact (h.ext e1).2 r hr
      refine happ G1 head _ ?_ hok ?_
      · rw [← hn]; simp [SComb.nest]
      · rw [← hd]
        unfold Ghost.den
        simp only [List.map_append, h2, hden, SComb.den, Tm.apps_sub, Tm.apps_append, STerm.denList_eq, List.map_map]
        rw [Ghost.ctxSub_ext e1 (fun a ha => (h.1 a ha).1), Ghost.map_gs_ext e1 (fun a ha => (h.2 a ha).1)]
        rfl
  refine TH.succ ?_
  change TH gc.rules gc.eta G q (fun m => Kontroli.whnfBody gc (ops gc m) st)
  unfold Kontroli.whnfBody
  cases ht : st.term with
  | type => exact .of_nt (.finish _)
  | kind => exact .of_nt (.finish _)
  | var x =>
    simp only
    cases hx : st.ctx[x]? with
    | some a =>
      simp only
      have ha := h.1 a (List.mem_of_getElem? hx)
      refine TH.bindR (TH.forced ha.1 ha.2) (fun m => TriR.force (rdOk gc m) ha.1 ha.2) fun t hconv => ?_
      have hok : G.StOk q { ctx := [], term := t, stack := st.stack } := ⟨by simp, h.2⟩
      have hne : st.ctx ≠ [] := by intro e; rw [e] at hx; simp at hx
      have hred : Red gc.rules gc.eta T (G.den ⟨[], t, st.stack⟩) := by
        rw [← hd]
        unfold Ghost.den
        simp only [ht, STerm.den, Tm.sub, Ghost.ctxSub_nil, Tm.sub_var]
        rw [ctxSub_shift_lt _ hx]
        exact Rev.apps hconv (List.forall₂_same.2 fun x _ => Rev.refl x)
      rcases hred.eq_or_lower with e | e
      · exact hvar hne G t hok e
      · exact hT _ e G q _ hok rfl
    | none =>
      simp only
      exact .ite (fun _ => .of_nt (.finish _)) fun _ => .ite (fun _ => .of_nt .panic) fun _ => .of_nt (.finish _)
  | const s =>
    simp only
    cases hr : gc.getRules s with
    | none => simp only; exact .of_nt (.finish _)
    | some rules =>
      simp only
      have hdc : T = Tm.apps (.const s) (st.stack.map G.gs) := by
        rw [← hd]; unfold Ghost.den; rw [ht]; rfl
      have hb : ∀ r ∈ st.stack, Below gc.rules gc.eta (G.gs r) T := fun r hr => by
        rw [hdc]; exact below_apps_arg (List.mem_map.2 ⟨r, hr, rfl⟩)
      refine TH.bind (TH.firstMatch hT rules (hC.imp_right fun h r hr' => h.args s rules r hr hr') G h.2 hb)
        (fun m => Tri.firstMatchStep (opsOk gc m) (s := s) hr rules (fun _ h => h) G h.2) ?_
      intro G1 res e1 hres
      cases res with
      | none => exact .of_nt (.finish _)
      | some p =>
        obtain ⟨cs, rule⟩ := p
        obtain ⟨h1, h2, h3⟩ := hres cs rule rfl
        refine .ite (fun _ => .of_nt .panic) fun _ => ?_
        have hok : G1.StOk q { ctx := cs, term := STerm.ofL rule.rhs, stack := st.stack.drop rule.lhs.args.length } :=
          ⟨h2, fun r hr => (h.ext e1).2 r (List.mem_of_mem_drop hr)⟩
        refine hT _ ?_ G1 q _ hok rfl
        rw [hdc]
        unfold Ghost.den
        simp only [STerm.den_ofL]
        rw [Ghost.map_gs_ext e1 (fun a ha => (h.2 a (List.mem_of_mem_drop ha)).1)]
        conv => rhs; rw [← List.take_append_drop rule.lhs.args.length st.stack]
        rw [List.map_append, Tm.apps_append]
        exact steps_below (transGen_apps h3 _)
  | lcomb c =>
    refine .ite (fun _ => .of_nt (.finish _)) fun _ => hcomb _ ?_ ?_
    · rw [SComb.nest_ofL, ht]; simp [STerm.nest]
    · rw [ht]; simp [STerm.den]
  | scomb c =>
    refine .ite (fun _ => .of_nt (.finish _)) fun _ => hcomb _ ?_ ?_
    · rw [ht]; simp [STerm.nest]
    · rw [ht]; rfl

theorem whStops_of {T : Tm} (hT : WhBelow gc T) (hC : CvBelow gc T ∨ Definitional gc.rules) : WhStops gc T := by
  have h0 : ∀ (n : Nat) G q st, st.term.nest = n → st.ctx = [] → Ghost.StOk G q st → G.den st = T →
      TH gc.rules gc.eta G q (fun m => (ops gc m).wh st) := by
    intro n
    induction n using Nat.strong_induction_on with
    | _ n ih =>
    intro G q st hn hctx hok hd
    refine TH.whnfBody hT hC hok hd (fun h => absurd hctx h) fun G' t stack hlt hok' hd' => ?_
    exact ih t.nest (hn ▸ hlt) G' q _ rfl hctx hok' hd'
  have h1 : ∀ (n : Nat) G q st, st.term.nest = n → Ghost.StOk G q st → G.den st = T →
      TH gc.rules gc.eta G q (fun m => (ops gc m).wh st) := by
    intro n
    induction n using Nat.strong_induction_on with
    | _ n ih =>
    intro G q st hn hok hd
    refine TH.whnfBody hT hC hok hd (fun _ G' t hok' hd' => h0 _ G' q _ rfl rfl hok' hd') fun G' t stack hlt hok' hd' => ?_
    exact ih t.nest (hn ▸ hlt) G' q _ rfl hok' hd'
  exact fun G q st hok hd => h1 _ G q st rfl hok hd

theorem TH.whnfTerm {t : STerm} (h : WhStops gc t.den) : TH gc.rules gc.eta G q (fun m => whnfTerm (ops gc m) t) := by
  unfold Kontroli.whnfTerm
  refine TH.bind (h G q _ ⟨by simp, by simp⟩ ?_) (fun m => (opsOk gc m).wh G q _ ⟨by simp, by simp⟩) ?_
  · unfold Ghost.den
    simp only [Ghost.ctxSub_nil, Tm.sub_var, List.map_nil, Tm.apps]
  · rintro G1 st e1 ⟨h1, -, -⟩
    exact TH.readback h1

/-! ### Conversion -/

/-- the new constraints of a step are about parts of the terms -/
def Smaller (R : RuleMap) (eta : Bool) (t1 t2 : Tm) (cns : List (STerm × STerm)) : Option (List (STerm × STerm)) → Prop
  | none => True
  | some cns' => ∃ ps, cns' = ps ++ cns ∧ ∀ p ∈ ps, Below R eta p.1.den t1 ∧ Below R eta p.2.den t2

theorem denAbs_below {R : RuleMap} {eta : Bool} (ty : Option STerm) (b : Tm) : Below R eta b (STerm.denAbs ty b) := by
  cases ty with
  | none => exact (Part.dlam b).below
  | some A => exact (Part.lamR _ b).below

theorem step2_smaller {R : RuleMap} {eta : Bool} (cns : List (STerm × STerm)) (c1 c2 : SComb) (f1 : HForm (.scomb c1))
    (f2 : HForm (.scomb c2)) : ∃ r, step2 false cns c1 c2 = M.pure r ∧ Smaller R eta (SComb.den c1) (SComb.den c2) cns r := by
  unfold Kontroli.step2
  split
  · next t1 _ _ t2 =>
    exact ⟨_, rfl, [(t1, t2)], rfl, by
      intro p hp
      simp only [List.mem_singleton] at hp
      subst hp
      exact ⟨denAbs_below _ _, denAbs_below _ _⟩⟩
  · next ty1 tm1 _ ty2 tm2 =>
    refine ⟨_, rfl, [(tm1, tm2), (ty1, ty2)], rfl, ?_⟩
    intro p hp
    simp only [List.mem_cons, List.not_mem_nil, or_false] at hp
    rcases hp with rfl | rfl
    · exact ⟨(Part.piR _ _).below, (Part.piR _ _).below⟩
    · exact ⟨(Part.piL _ _).below, (Part.piL _ _).below⟩
  · next g1 args1 g2 args2 =>
    have a1 : args1 ≠ [] := by
      cases f1 with
      | atom h => exact h.elim
      | abs h => exact h.elim
      | app _ h => exact h
    have a2 : args2 ≠ [] := by
      cases f2 with
      | atom h => exact h.elim
      | abs h => exact h.elim
      | app _ h => exact h
    split
    · refine ⟨_, rfl, (args1.zip args2).reverse ++ [(g1, g2)], by simp, ?_⟩
      simp only [SComb.den, STerm.denList_eq]
      intro p hp
      rcases List.mem_append.1 hp with hp | hp
      · have hp := List.mem_reverse.1 hp
        obtain ⟨h1, h2⟩ := List.of_mem_zip (a := p.1) (b := p.2) hp
        exact ⟨below_apps_arg (List.mem_map.2 ⟨_, h1, rfl⟩), below_apps_arg (List.mem_map.2 ⟨_, h2, rfl⟩)⟩
      · simp only [List.mem_singleton] at hp
        subst hp
        exact ⟨below_apps_head (by simpa using a1), below_apps_head (by simpa using a2)⟩
    · exact ⟨_, rfl, trivial⟩
  · exact ⟨_, rfl, trivial⟩
  · exact ⟨_, rfl, trivial⟩
  · exact ⟨_, rfl, trivial⟩

theorem step_smaller {R : RuleMap} {eta : Bool} (cns : List (STerm × STerm)) (t1 t2 : STerm) (f1 : HForm t1) (f2 : HForm t2) :
    ∃ r, step false cns t1 t2 = M.pure r ∧ Smaller R eta t1.den t2.den cns r := by
  unfold Kontroli.step
  split
  · exact ⟨_, rfl, [], rfl, by simp⟩
  · exact ⟨_, rfl, [], rfl, by simp⟩
  · split
    · exact ⟨_, rfl, [], rfl, by simp⟩
    · exact ⟨_, rfl, trivial⟩
  · split
    · exact ⟨_, rfl, [], rfl, by simp⟩
    · exact ⟨_, rfl, trivial⟩
  · next c1 c2 => simpa [STerm.den] using step2_smaller (R := R) (eta := eta) cns (SComb.ofL c1) (SComb.ofL c2) f1.ofL f2.ofL
  · next c1 c2 => simpa [STerm.den] using step2_smaller (R := R) (eta := eta) cns (SComb.ofL c1) c2 f1.ofL f2
  · next c1 c2 => simpa [STerm.den] using step2_smaller (R := R) (eta := eta) cns c1 (SComb.ofL c2) f1 f2.ofL
  · next c1 c2 => exact step2_smaller cns c1 c2 f1 f2
  all_goals exact ⟨_, rfl, trivial⟩

theorem cvStops_list {ps : List (STerm × STerm)} (h : ∀ p ∈ ps, CvStops gc p.1 p.2) {rest : List (STerm × STerm)}
    (hr : ∀ G', Ghost.Ext G G' → TH gc.rules gc.eta G' q (fun m => (ops gc m).cv rest)) :
    TH gc.rules gc.eta G q (fun m => (ops gc m).cv (ps ++ rest)) := by
  induction ps generalizing G with
  | nil => exact hr G (.refl G)
  | cons p ps ih =>
    refine h p List.mem_cons_self G q (ps ++ rest) fun G' e => ?_
    exact ih (fun p hp => h p (List.mem_cons_of_mem _ hp)) fun G'' e' => hr G'' (e.trans e')

theorem cvStops_of (he : gc.eta = false) {t : Tm} (hacc : Acc (Below gc.rules gc.eta) t) : ∀ (a b : STerm), a.den = t →
    WhStops gc a.den → WhBelow gc a.den → WhStops gc b.den → WhBelow gc b.den → CvStops gc a b := by
  induction hacc with
  | intro t _ ih =>
  rintro a b rfl ha ha' hb hb' G q rest hrest
  refine TH.succ ?_
  change TH gc.rules gc.eta G q (fun m => cvBody gc (ops gc m) ((a, b) :: rest))
  unfold Kontroli.cvBody
  refine .ite (fun _ => hrest G (.refl G)) fun _ => ?_
  refine TH.bind (TH.whnfTerm ha) (fun m => Tri.whnfTerm (opsOk gc m) a) ?_
  rintro G1 w1 e1 ⟨h1, -, f1⟩
  refine TH.bind (TH.whnfTerm hb) (fun m => Tri.whnfTerm (opsOk gc m) b) ?_
  rintro G2 w2 e2 ⟨h2, -, f2⟩
  obtain ⟨r, hr, hs⟩ := step_smaller (R := gc.rules) (eta := gc.eta) rest w1 w2 f1 f2
  have hr' : Kontroli.step gc.eta rest w1 w2 = M.pure r := by rw [he]; exact hr
  rw [hr']
  cases r with
  | none => exact .pure false
  | some cns' =>
    obtain ⟨ps, rfl, hps⟩ := hs
    change TH gc.rules gc.eta G2 q (fun m => (ops gc m).cv (ps ++ rest))
    refine cvStops_list (fun p hp => ?_) fun G' e => hrest G' ((e1.trans e2).trans e)
    obtain ⟨hp1, hp2⟩ := hps p hp
    have l1 := hp1.red h1
    have l2 := hp2.red h2
    exact ih _ l1 p.1 p.2 rfl (ha' _ l1) (fun t ht => ha' t (ht.trans l1)) (hb' _ l2) (fun t ht => hb' t (ht.trans l2))

theorem cvBelow_of (he : gc.eta = false) {T : Tm} (hacc : Acc (Below gc.rules gc.eta) T) (hT : WhBelow gc T) : CvBelow gc T :=
  fun a b ha hb => cvStops_of he (hacc.inv ha) a b rfl (hT _ ha) (fun t ht => hT t (ht.trans ha)) (hT _ hb)
    (fun t ht => hT t (ht.trans hb))

theorem whStops_acc (he : gc.eta = false) {T : Tm} (hacc : Acc (Below gc.rules gc.eta) T) : WhStops gc T := by
  induction hacc with
  | intro T hacc ih => exact whStops_of ih (.inl (cvBelow_of he (.intro T hacc) ih))

/-- Evaluation of a strongly normalising term stops. -/
theorem SN.whStops (he : gc.eta = false) {T : Tm} (h : SN gc.rules gc.eta T) : WhStops gc T := whStops_acc he h.below

/-- Comparison of strongly normalising terms stops. -/
theorem SN.cvStops (he : gc.eta = false) {a b : STerm} (ha : SN gc.rules gc.eta a.den) (hb : SN gc.rules gc.eta b.den) : CvStops gc a b :=
  cvStops_of he ha.below a b rfl (ha.whStops he) (fun _ h => whStops_acc he (ha.below.inv h)) (hb.whStops he)
    fun _ h => whStops_acc he (hb.below.inv h)

theorem SN.cv (he : gc.eta = false) {a b : STerm} (ha : SN gc.rules gc.eta a.den) (hb : SN gc.rules gc.eta b.den) :
    TH gc.rules gc.eta G q (fun m => (ops gc m).cv [(a, b)]) := SN.cvStops he ha hb G q [] fun _ _ => TH.cvNil

end

end Kontroli
