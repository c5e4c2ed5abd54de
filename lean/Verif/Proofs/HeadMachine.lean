import Verif.Proofs.Head
import Verif.Proofs.TerminateEta

/-!
# Evaluation finds weak-head normal forms

For rules that only unfold definitions, evaluation stops on every term that has a finite head reduction.
-/

namespace Kontroli

theorem HStep.apps {R : RuleMap} {f f' : Tm} (h : HStep R f f') (ts : List Tm) : HStep R (f.apps ts) (f'.apps ts) := by
  induction ts generalizing f f' with
  | nil => exact h
  | cons a ts ih => exact ih (.app h)

section
variable {gc : GCtx} {G : Ghost} {q : ℚ}

theorem TH.of_nt' {R : RuleMap} {eta : Bool} {α : Type} {F : Nat → M α} {m : M α} (h : NT m) (e : ∀ n, F n = m) : TH R eta G q F := by
  have : F = fun _ => m := funext e
  rw [this]
  exact .of_nt h

/-- rules without arguments match at once, and only if they have no variables -/
theorem matchFlatten_def (o : Ops) (rule : Rule) (h : rule.lhs.args = []) (stack : List Nat) :
    matchFlatten o rule stack = M.pure (if rule.ctx.length = 0 then some [] else none) := by
  have hf : ∀ n, flattenSub o (List.replicate n []) = M.pure (if n = 0 then some [] else none) := by
    intro n
    induction n with
    | zero => rfl
    | succ n ih =>
      rw [List.replicate_succ, flattenSub, ih]
      by_cases hn : n = 0
      · simp only [if_pos hn]; rfl
      · simp only [if_neg hn]; rfl
  unfold matchFlatten matchRule
  rw [h]
  simp only [List.length_nil, Nat.not_lt_zero, if_false]
  cases stack <;> exact hf _

theorem firstMatch_def (o o' : Ops) (rules : List Rule) (h : ∀ r ∈ rules, r.lhs.args = []) (stack : List Nat) :
    NT (firstMatch o stack rules) ∧ firstMatch o stack rules = firstMatch o' stack rules := by
  induction rules with
  | nil => exact ⟨.pure _, rfl⟩
  | cons r rules ih =>
    have hr := h r List.mem_cons_self
    obtain ⟨h1, h2⟩ := ih fun r' hr' => h r' (List.mem_cons_of_mem _ hr')
    unfold firstMatch
    rw [matchFlatten_def o r hr, matchFlatten_def o' r hr]
    refine ⟨.bind (.pure _) fun a => ?_, ?_⟩
    · cases a with
      | none => exact h1
      | some c => exact .pure _
    · rw [h2]

theorem Tri.firstMatchDef {R : RuleMap} {eta : Bool} {o : Ops} (ho : OpsOk R eta o) {stack : List Nat} (rs : List Rule) (G : Ghost)
    (hs : ∀ r ∈ stack, r < G.ns ∧ G.rs r < q) :
    Tri R eta G q (Kontroli.firstMatch o stack rs) (fun G' res => ∀ cs rule, res = some (cs, rule) →
      rule ∈ rs ∧ (∀ c ∈ cs, c < G'.nt ∧ G'.rt c < q) ∧ rule.Scoped ∧ rule.lhs.args.length ≤ stack.length) := by
  induction rs generalizing G with
  | nil => exact Tri.pure (by simp)
  | cons r rs ih =>
    unfold Kontroli.firstMatch
    refine Tri.bind (Tri.matchFlatten ho (rule := r) hs) ?_
    intro G1 res e1 h
    cases res with
    | some cs =>
      refine Tri.pure ?_
      intro cs' rule heq
      simp only [Option.some.injEq, Prod.mk.injEq] at heq
      obtain ⟨rfl, rfl⟩ := heq
      obtain ⟨h1, h2, h3, hlen, ts, bs, h4, h5, h6⟩ := h.1 cs rfl
      exact ⟨List.mem_cons_self, h2, h3, h1⟩
    | none =>
      have hs1 : ∀ r ∈ stack, r < G1.ns ∧ G1.rs r < q := fun r' hr' => by
        obtain ⟨a, b⟩ := hs r' hr'
        exact ⟨Nat.lt_of_lt_of_le a e1.ns, by rw [e1.rs r' a]; exact b⟩
      refine (ih G1 hs1).mono ?_
      intro G2 res e2 h' cs rule heq
      obtain ⟨h1, h2⟩ := h' cs rule heq
      exact ⟨List.mem_cons_of_mem _ h1, h2⟩

/-- evaluation stops for a state, if it does for states whose head reduction is shorter and for the states that follow -/
theorem TH.whnfBodyH (hd : Definitional gc.rules) {n : Nat}
    (hnext : ∀ m < n, ∀ G q st, Ghost.StOk G q st → HN gc.rules m (G.den st) → TH gc.rules gc.eta G q (fun m => (ops gc m).wh st))
    {st : State} (h : G.StOk q st) (hN : HN gc.rules n (G.den st))
    (hvar : st.ctx ≠ [] → ∀ G t, Ghost.StOk G q ⟨[], t, st.stack⟩ → HN gc.rules n (G.den ⟨[], t, st.stack⟩) →
      TH gc.rules gc.eta G q (fun m => (ops gc m).wh ⟨[], t, st.stack⟩))
    (happ : ∀ G t stack, t.nest < st.term.nest → Ghost.StOk G q ⟨st.ctx, t, stack⟩ → HN gc.rules n (G.den ⟨st.ctx, t, stack⟩) →
      TH gc.rules gc.eta G q (fun m => (ops gc m).wh ⟨st.ctx, t, stack⟩)) :
    TH gc.rules gc.eta G q (fun m => (ops gc m).wh st) := by
  have hcomb : ∀ c : SComb, SComb.nest c = st.term.nest → st.term.den = SComb.den c →
      TH gc.rules gc.eta G q (fun m => stepComb (ops gc m) st c) := by
    intro c hn hden
    cases c with
    | prod id ty tm => exact .of_nt .panic
    | abst id ty t =>
      cases hst : st.stack with
      | nil => simp only [stepComb, hst]; exact .of_nt .panic
      | cons r rest =>
        simp only [stepComb, hst]
        have hr := h.2 r (by rw [hst]; exact List.mem_cons_self)
        refine TH.bind (F := fun _ => Kontroli.newThunk r) (.of_nt (.newThunk r)) (fun _ => Tri.newThunk hr.1 hr.2) ?_
        rintro G1 a e1 ⟨h1, h2, h3⟩
        have hok : G1.StOk q { ctx := a :: st.ctx, term := t, stack := rest } := by
          refine ⟨?_, ?_⟩
          · intro a' ha'
            rcases List.mem_cons.1 ha' with rfl | ha'
            · exact ⟨h1, h2⟩
            · exact (h.ext e1).1 a' ha'
          · intro r' hr'
            exact (h.ext e1).2 r' (by rw [hst]; exact List.mem_cons_of_mem _ hr')
        have hrest : ∀ r ∈ rest, r < G.ns := fun r' hr' => (h.2 r' (by rw [hst]; exact List.mem_cons_of_mem _ hr')).1
        have hstep : HStep gc.rules (G.den st) (G1.den { ctx := a :: st.ctx, term := t, stack := rest }) := by
          unfold Ghost.den
          simp only [hst, List.map_cons, Tm.apps]
          rw [Ghost.ctxSub_cons, h3, Ghost.ctxSub_ext e1 (fun a ha => (h.1 a ha).1), Ghost.map_gs_ext e1 hrest]
          refine HStep.apps ?_ _
          rw [← up_inst, hden]
          cases ty with
          | none => exact .beta (.dlam _)
          | some A => exact .beta (.lam _ _)
        obtain ⟨m, rfl, hm⟩ := hN.after hd hstep
        exact hnext m (Nat.lt_succ_self m) G1 q _ hok hm
    | appl head tail =>
      simp only [stepComb]
      refine TH.bind (F := fun _ => Kontroli.newStates st.ctx tail) (.of_nt (.newStates _ _))
        (fun _ => Tri.newStates st.ctx tail G h.1) ?_
      rintro G1 rs e1 ⟨h1, h2⟩
      have hok : G1.StOk q { ctx := st.ctx, term := head, stack := rs ++ st.stack } := by
        refine ⟨(h.ext e1).1, ?_⟩
        intro r hr
        rcases List.mem_append.1 hr with hr | hr
        · exact h1 r hr
        · exact (h.ext e1).2 r hr
      refine happ G1 head _ ?_ hok ?_
      · rw [← hn]; simp [SComb.nest]
      · have e : G1.den { ctx := st.ctx, term := head, stack := rs ++ st.stack } = G.den st := ?_
        · rw [e]; exact hN
        unfold Ghost.den
        simp only [List.map_append, h2, hden, SComb.den, Tm.apps_sub, Tm.apps_append, STerm.denList_eq, List.map_map]
        rw [Ghost.ctxSub_ext e1 (fun a ha => (h.1 a ha).1), Ghost.map_gs_ext e1 (fun a ha => (h.2 a ha).1)]
        rfl
  refine TH.succ ?_
  change TH gc.rules gc.eta G q (fun m => Kontroli.whnfBody gc (ops gc m) st)
  unfold Kontroli.whnfBody
  cases ht : st.term with
  | type => exact .of_nt (.finish _)
  | kind => exact .of_nt (.finish _)
  | var x =>
    simp only
    cases hx : st.ctx[x]? with
    | some a =>
      simp only
      have ha := h.1 a (List.mem_of_getElem? hx)
      refine TH.bindR (TH.forced ha.1 ha.2) (fun m => TriR.force (rdOk gc m) ha.1 ha.2) fun t hconv => ?_
      have hok : G.StOk q { ctx := [], term := t, stack := st.stack } := ⟨by simp, h.2⟩
      have hne : st.ctx ≠ [] := by intro e; rw [e] at hx; simp at hx
      have hred : Red gc.rules gc.eta (G.den st) (G.den ⟨[], t, st.stack⟩) := by
        unfold Ghost.den
        simp only [ht, STerm.den, Tm.sub, Ghost.ctxSub_nil, Tm.sub_var]
        rw [ctxSub_shift_lt _ hx]
        exact Rev.apps hconv (List.forall₂_same.2 fun x _ => Rev.refl x)
      exact hvar hne G t hok (hN.reduces hd hred)
    | none =>
      simp only
      exact .ite (fun _ => .of_nt (.finish _)) fun _ => .ite (fun _ => .of_nt .panic) fun _ => .of_nt (.finish _)
  | const s =>
    simp only
    cases hr : gc.getRules s with
    | none => simp only; exact .of_nt (.finish _)
    | some rules =>
      simp only
      refine TH.bind (.of_nt' (firstMatch_def (ops gc 0) (ops gc 0) rules (fun r hr' => hd.args s rules r hr hr') st.stack).1
        fun m => (firstMatch_def _ _ rules (fun r hr' => hd.args s rules r hr hr') st.stack).2)
        (fun m => Tri.firstMatchDef (opsOk gc m) rules G h.2) ?_
      intro G1 res e1 hres
      cases res with
      | none => exact .of_nt (.finish _)
      | some p =>
        obtain ⟨cs, rule⟩ := p
        obtain ⟨h1, h2, h3, h4⟩ := hres cs rule rfl
        refine .ite (fun _ => .of_nt .panic) fun _ => ?_
        have h0 := hd.args s rules rule hr h1
        have hdef : Defines gc.rules s rule.rhs.den := ⟨rules, rule, hr, h1, h3, rfl⟩
        have hok : G1.StOk q { ctx := cs, term := STerm.ofL rule.rhs, stack := st.stack.drop rule.lhs.args.length } :=
          ⟨h2, fun r hr => (h.ext e1).2 r (List.mem_of_mem_drop hr)⟩
        have hstep : HStep gc.rules (G.den st) (G1.den { ctx := cs, term := STerm.ofL rule.rhs, stack := st.stack.drop rule.lhs.args.length }) := by
          unfold Ghost.den
          simp only [STerm.den_ofL, h0, List.length_nil, List.drop_zero]
          rw [Ghost.map_gs_ext e1 (fun a ha => (h.2 a ha).1), ht, (hd.free hdef).sub_closed]
          exact HStep.apps (.delta hdef) _
        obtain ⟨m, rfl, hm⟩ := hN.after hd hstep
        exact hnext m (Nat.lt_succ_self m) G1 q _ hok hm
  | lcomb c =>
    refine .ite (fun _ => .of_nt (.finish _)) fun _ => hcomb _ ?_ ?_
    · rw [SComb.nest_ofL, ht]; simp [STerm.nest]
    · rw [ht]; simp [STerm.den]
  | scomb c =>
    refine .ite (fun _ => .of_nt (.finish _)) fun _ => hcomb _ ?_ ?_
    · rw [ht]; simp [STerm.nest]
    · rw [ht]; rfl

/-- Evaluation stops for a state whose head reduction is finite. -/
theorem HN.wh (hd : Definitional gc.rules) (n : Nat) : ∀ G q st, Ghost.StOk G q st → HN gc.rules n (G.den st) →
    TH gc.rules gc.eta G q (fun m => (ops gc m).wh st) := by
  induction n using Nat.strong_induction_on with
  | _ n ihn =>
  have h0 : ∀ (k : Nat) G q st, st.term.nest = k → st.ctx = [] → Ghost.StOk G q st → HN gc.rules n (G.den st) →
      TH gc.rules gc.eta G q (fun m => (ops gc m).wh st) := by
    intro k
    induction k using Nat.strong_induction_on with
    | _ k ih =>
    intro G q st hk hctx hok hN
    refine TH.whnfBodyH hd ihn hok hN (fun h => absurd hctx h) fun G' t stack hlt hok' hN' => ?_
    exact ih t.nest (hk ▸ hlt) G' q _ rfl hctx hok' hN'
  have h1 : ∀ (k : Nat) G q st, st.term.nest = k → Ghost.StOk G q st → HN gc.rules n (G.den st) →
      TH gc.rules gc.eta G q (fun m => (ops gc m).wh st) := by
    intro k
    induction k using Nat.strong_induction_on with
    | _ k ih =>
    intro G q st hk hok hN
    refine TH.whnfBodyH hd ihn hok hN (fun _ G' t hok' hN' => h0 _ G' q _ rfl rfl hok' hN') fun G' t stack hlt hok' hN' => ?_
    exact ih t.nest (hk ▸ hlt) G' q _ rfl hok' hN'
  exact fun G q st hok hN => h1 _ G q st rfl hok hN

theorem HN.whStops (hd : Definitional gc.rules) {n : Nat} {t : Tm} (h : HN gc.rules n t) : WhStops gc t :=
  fun G q st hok e => HN.wh hd n G q st hok (e ▸ h)

end

end Kontroli
