import Verif.Spec.Correct
import Verif.Props.Strict
import Verif.Proofs.Process

/-!
# Sessions: what is accepted is right, what is right is accepted
-/

namespace Kontroli

/-! ## Rules as terms -/

theorem annotations_iff {ctx : List (Str × Option LTerm)} {tys : List LTerm} : annotations ctx = some tys ↔ ctx.map Prod.snd = tys.map some := by
  induction ctx generalizing tys with
  | nil => cases tys <;> simp [annotations]
  | cons a ctx ih =>
    obtain ⟨x, A⟩ := a
    cases A with
    | none => cases tys <;> simp [annotations]
    | some A =>
      cases tys with
      | nil => simp [annotations]
      | cons ty tys =>
        simp only [annotations, Option.map_eq_some_iff, List.map_cons, List.cons.injEq, Option.some.injEq]
        constructor
        · rintro ⟨l, h, rfl, rfl⟩
          exact ⟨rfl, ih.1 h⟩
        · rintro ⟨rfl, h⟩
          exact ⟨tys, ih.2 h, rfl, rfl⟩

theorem Pattern.toLList_get {ps : List Pattern} {ts : List LTerm} (h : Pattern.toLList ps = some ts) :
    ps.length = ts.length ∧ ∀ (i : Nat) p, ps[i]? = some p → ∃ t, ts[i]? = some t ∧ p.toL = some t := by
  induction ps generalizing ts with
  | nil => cases h; simp
  | cons p ps ih =>
    rw [Pattern.toLList] at h
    cases h1 : p.toL with
    | none => rw [h1] at h; cases h
    | some t =>
      rw [h1] at h
      cases h2 : Pattern.toLList ps with
      | none => rw [h2] at h; cases h
      | some ts' =>
        rw [h2] at h
        cases h
        obtain ⟨h3, h4⟩ := ih h2
        refine ⟨by simp [h3], ?_⟩
        intro i q hq
        cases i with
        | zero => cases hq; exact ⟨t, rfl, h1⟩
        | succ i => exact h4 i q hq

theorem Pattern.toLList_of {ps : List Pattern} {us : List Tm} (hl : ps.length = us.length)
    (h : ∀ (i : Nat) p u, ps[i]? = some p → us[i]? = some u → ∃ t, p.toL = some t ∧ t.den = u) :
    ∃ ts, Pattern.toLList ps = some ts ∧ LTerm.denList ts = us := by
  induction ps generalizing us with
  | nil => cases us with
    | nil => exact ⟨[], rfl, rfl⟩
    | cons u us => cases hl
  | cons p ps ih =>
    cases us with
    | nil => cases hl
    | cons u us =>
      obtain ⟨t, h1, h2⟩ := h 0 p u rfl rfl
      obtain ⟨ts, h3, h4⟩ := ih (us := us) (by simpa using hl) fun i p u hp hu => h (i + 1) p u hp hu
      exact ⟨t :: ts, by rw [Pattern.toLList, h1, h3], by rw [LTerm.denList, h2, h4]⟩

theorem denList_getElem? (ts : List LTerm) (i : Nat) : (LTerm.denList ts)[i]? = ts[i]?.map LTerm.den := by
  induction ts generalizing i with
  | nil => simp [LTerm.denList]
  | cons t ts ih => cases i <;> simp [LTerm.denList, ih]

theorem PatTm.toL {p : Pattern} {u : Tm} (h : PatTm p u) : ∃ t, p.toL = some t ∧ t.den = u := by
  induction h with
  | var => exact ⟨_, rfl, rfl⟩
  | @symb s ps us hl _ ih =>
    obtain ⟨ts, h1, h2⟩ := Pattern.toLList_of hl ih
    exact ⟨_, by rw [Pattern.toL, h1]; rfl, by simp [LTerm.den, LComb.den, h2]⟩

mutual
  theorem Pattern.toL_patTm {p : Pattern} {t : LTerm} (h : p.toL = some t) : PatTm p t.den := by
    cases p with
    | mvar n => cases h; exact .var
    | joker => cases h
    | symb s ps =>
      rw [Pattern.toL, Option.map_eq_some_iff] at h
      obtain ⟨ts, h1, rfl⟩ := h
      obtain ⟨h2, h3⟩ := Pattern.toLList_get h1
      refine .symb (ts := LTerm.denList ts) ?_ ?_
      · have : ∀ l : List LTerm, (LTerm.denList l).length = l.length := by
          intro l
          induction l with
          | nil => rfl
          | cons a l ih => simp [LTerm.denList, ih]
        rw [this, h2]
      · exact Pattern.toLList_patTm h1
  theorem Pattern.toLList_patTm {ps : List Pattern} {ts : List LTerm} (h : Pattern.toLList ps = some ts) :
      ∀ (i : Nat) p u, ps[i]? = some p → (LTerm.denList ts)[i]? = some u → PatTm p u := by
    cases ps with
    | nil => intro i p u hp; simp at hp
    | cons p ps =>
      rw [Pattern.toLList] at h
      cases h1 : p.toL with
      | none => rw [h1] at h; cases h
      | some t =>
        rw [h1] at h
        cases h2 : Pattern.toLList ps with
        | none => rw [h2] at h; cases h
        | some ts' =>
          rw [h2] at h
          cases h
          intro i q u hq hu
          cases i with
          | zero =>
            cases hq
            simp only [LTerm.denList, List.getElem?_cons_zero, Option.some.injEq] at hu
            subst hu
            exact Pattern.toL_patTm h1
          | succ i => exact Pattern.toLList_patTm h2 i q u hq (by simpa [LTerm.denList] using hu)
end

theorem Rule.consists_iff {r : Rule} {Γ : List Tm} {l u : Tm} :
    r.Consists Γ l u ↔ ∃ t, r.toT = some t ∧ Γ = (t.ctx.map LTerm.den).reverse ∧ l = t.lhs.den ∧ u = r.rhs.den := by
  constructor
  · rintro ⟨tys, h1, rfl, h2, rfl⟩
    obtain ⟨t, h3, rfl⟩ := h2.toL
    refine ⟨⟨tys, t, r.rhs⟩, ?_, rfl, rfl, rfl⟩
    unfold Rule.toT
    rw [annotations_iff.2 h1, h3]
  · rintro ⟨t, h1, rfl, rfl, rfl⟩
    unfold Rule.toT at h1
    split at h1
    · cases h1
    · next tys h2 =>
      split at h1
      · cases h1
      · next lhs h3 =>
        cases h1
        exact ⟨tys, annotations_iff.1 h2, rfl, Pattern.toL_patTm h3, rfl⟩

theorem Rule.full_iff {r : Rule} : r.Full ↔ r.toT.isSome := by
  constructor
  · rintro ⟨Γ, l, u, h⟩
    obtain ⟨t, h, -⟩ := Rule.consists_iff.1 h
    rw [h]; rfl
  · intro h
    obtain ⟨t, h⟩ := Option.isSome_iff_exists.1 h
    exact ⟨_, _, _, Rule.consists_iff.2 ⟨t, h, rfl, rfl, rfl⟩⟩

theorem RuleRight.strict {T : Theory} {r : Rule} (h : RuleRight T r) :
    RuleStrict T r ∧ ∀ t, r.toT = some t → WfCtx T (t.ctx.map LTerm.den).reverse := by
  obtain ⟨Γ, l, u, hc, hw, A, s, hs, h1, h2, h3⟩ := h
  obtain ⟨t, ht, rfl, rfl, rfl⟩ := Rule.consists_iff.1 hc
  constructor
  · intro t' ht'
    rw [ht] at ht'
    cases ht'
    exact ⟨A, s, hs, h1, h2, h3⟩
  · intro t' ht'
    rw [ht] at ht'
    cases ht'
    exact hw

theorem RuleRight.full {T : Theory} {r : Rule} (h : RuleRight T r) : r.Full := by
  obtain ⟨Γ, l, u, hc, -⟩ := h
  exact ⟨Γ, l, u, hc⟩

theorem RuleStrict.right {T : Theory} {r : Rule} (h : RuleStrict T r) (hf : r.Full)
    (hw : ∀ Γ l u, r.Consists Γ l u → WfCtx T Γ) : RuleRight T r := by
  obtain ⟨Γ, l, u, hc⟩ := hf
  have hc' := hc
  obtain ⟨t, ht, rfl, rfl, rfl⟩ := Rule.consists_iff.1 hc
  obtain ⟨A, s, hs, h1, h2, h3⟩ := h t ht
  exact ⟨_, _, _, hc', hw _ _ _ hc', A, s, hs, h1, h2, h3⟩

/-! ## Commands and theories -/

theorem Introduces.ruleList {T : Theory} {s : Sym} {it : Intro LTerm} {A : Tm} {rs : Option (List Rule)} (h : Introduces T s it A rs) :
    rs = it.ruleList s := by cases h <;> rfl

theorem Introduces.strict {T : Theory} {s : Sym} {it : Intro LTerm} {A : Tm} {rs : Option (List Rule)} (h : Introduces T s it A rs) :
    IntroStrict T it ∧ T.IsType A := by
  cases h with
  | declared h => exact ⟨h, h⟩
  | injective h => exact ⟨h, h⟩
  | definable h => exact ⟨h, h⟩
  | defined h h' => exact ⟨⟨h, h'⟩, h⟩
  | inferred h h' =>
    obtain ⟨s, hs, h⟩ := h
    exact ⟨⟨_, s, hs, h, h'⟩, ⟨s, hs, h⟩⟩
  | proved h h' => exact ⟨⟨h, h'⟩, h⟩

theorem rulesOfCmds_snoc (cmds : List Cmd) (cmd : Cmd) : rulesOfCmds (cmds ++ [cmd]) = match cmd with
    | .intro s it => fun c => if c = s then it.ruleList s else rulesOfCmds cmds c
    | .rules rs => fun c => (rulesOfCmds cmds c).map (· ++ rs.filter fun r => r.lhs.symbol = c) := by
  unfold rulesOfCmds
  rw [List.foldl_append]
  cases cmd <;> rfl

theorem SessionIn.rulesEq {eta : Bool} {cmds : List Cmd} {T : Theory} (h : SessionIn eta cmds T) : T.rules = rulesOfCmds cmds := by
  induction h with
  | nil => rfl
  | intro _ _ h ih => rw [rulesOfCmds_snoc, ← ih]; simp only [← h.ruleList]; rfl
  | rules _ _ ih => rw [rulesOfCmds_snoc, ← ih]; rfl

theorem SessionIn.eta {eta : Bool} {cmds : List Cmd} {T : Theory} (h : SessionIn eta cmds T) : T.eta = eta := by
  induction h with
  | nil => rfl
  | intro _ _ _ ih => exact ih
  | rules _ _ ih => exact ih

theorem SessionIn.dom {eta : Bool} {cmds : List Cmd} {T : Theory} (h : SessionIn eta cmds T) (s : Sym) (hs : T.ty s = none) : T.rules s = none := by
  induction h with
  | nil => rfl
  | intro _ _ _ ih =>
    simp only [Theory.declare] at hs ⊢
    split at hs
    · cases hs
    · next hne => rw [if_neg hne]; exact ih hs
  | rules _ _ ih =>
    simp only [Theory.extend] at hs ⊢
    rw [ih hs]
    rfl

theorem SessionIn.full {eta : Bool} {cmds : List Cmd} {T : Theory} (h : SessionIn eta cmds T) {s : Sym} {rs : List Rule} {r : Rule} (hs : T.rules s = some rs)
    (hr : r ∈ rs) : r.Full := by
  induction h generalizing rs with
  | nil => cases hs
  | intro _ _ h ih =>
    simp only [Theory.declare] at hs
    split at hs
    · subst hs
      have hnil : ∀ (tm : LTerm) (s : Sym), Rule.Full ⟨[], ⟨s, []⟩, tm⟩ := fun tm s => Rule.full_iff.2 rfl
      cases h with
      | injective => simp at hr
      | definable => simp at hr
      | defined => simp only [List.mem_singleton] at hr; subst hr; exact hnil _ _
      | inferred => simp only [List.mem_singleton] at hr; subst hr; exact hnil _ _
    · exact ih hs hr
  | rules _ h ih =>
    simp only [Theory.extend, Option.map_eq_some_iff] at hs
    obtain ⟨l, h1, rfl⟩ := hs
    rcases List.mem_append.1 hr with hr | hr
    · exact ih h1 hr
    · exact (h r (List.mem_filter.1 hr).1).2.full

theorem GCtx.theory_start (eta : Bool) : (GCtx.start eta).theory = Theory.bare eta := rfl

theorem inferCheck_rulesEq {k : Kern} (hk : k.Real) {opt : Opt} {gc gc' : GCtx} (hd : ∀ s, gc.types s = none → gc.rules s = none) {cmd : Cmd}
    (h : inferCheck k opt gc cmd = (gc', .ok ())) : gc'.rules = match cmd with
    | .intro s it => fun c => if c = s then it.ruleList s else gc.rules c
    | .rules rs => fun c => (gc.rules c).map (· ++ rs.filter fun r => r.lhs.symbol = c) := by
  cases cmd with
  | intro s it =>
    obtain ⟨ty, chk, h1, -, h3⟩ := inferWith_intro_ok h
    obtain ⟨n, rc, st, h4⟩ := hk.intro _ _ _ h1
    have hp := TriG.ok (Tri.intro n it) h4
    obtain ⟨h6, h7, rfl⟩ := GCtx.insert_ok h3
    have htm := hp.tm
    simp only at htm
    have hn := hd s h6
    cases it with
    | declaration inj A =>
      cases inj with
      | false =>
        simp only [Intro.rewritable, Bool.false_eq_true, if_false, Intro.ruleList]
        funext c
        split
        · next e => rw [e, hn]
        · rfl
      | true => simp only [Intro.rewritable, if_true, Intro.ruleList, htm, GCtx.initRules]; rfl
    | theorem_ A tm =>
      simp only [Intro.rewritable, Bool.false_eq_true, if_false, Intro.ruleList]
      funext c
      split
      · next e => rw [e, hn]
      · rfl
    | definition oty otm =>
      simp only [Intro.rewritable, if_true]
      cases otm with
      | none => simp only [Intro.ruleList, htm, GCtx.initRules]; rfl
      | some tm => simp only [Intro.ruleList, htm, GCtx.initRules]; rfl
  | rules rs =>
    obtain ⟨-, h2⟩ := inferWith_rules_ok h
    obtain ⟨-, -, h3, -⟩ := GCtx.addRules_ok h2
    funext c
    exact h3 c

theorem inferCheck_dom {k : Kern} {opt : Opt} {gc gc' : GCtx} (hd : ∀ s, gc.types s = none → gc.rules s = none) {cmd : Cmd}
    (h : inferCheck k opt gc cmd = (gc', .ok ())) : ∀ s, gc'.types s = none → gc'.rules s = none := by
  cases cmd with
  | intro s it =>
    obtain ⟨ty, chk, h1, -, h3⟩ := inferWith_intro_ok h
    obtain ⟨h6, h7, rfl⟩ := GCtx.insert_ok h3
    intro c hc
    simp only [mapInsert] at hc ⊢
    split at hc
    · cases hc
    · next hne =>
      split
      · rw [mapInsert, if_neg hne]
        exact hd c hc
      · exact hd c hc
  | rules rs =>
    obtain ⟨-, h2⟩ := inferWith_rules_ok h
    obtain ⟨h1, -, h3, -⟩ := GCtx.addRules_ok h2
    intro c hc
    rw [h1] at hc
    rw [h3, hd c hc]
    rfl

theorem inferCheck_eta {k : Kern} {opt : Opt} {gc gc' : GCtx} {cmd : Cmd} (h : inferCheck k opt gc cmd = (gc', .ok ())) : gc'.eta = gc.eta := by
  cases cmd with
  | intro s it =>
    obtain ⟨ty, chk, h1, -, h3⟩ := inferWith_intro_ok h
    obtain ⟨h6, h7, rfl⟩ := GCtx.insert_ok h3
    rfl
  | rules rs =>
    obtain ⟨-, h2⟩ := inferWith_rules_ok h
    exact (GCtx.addRules_ok h2).2.1

theorem seqLoop_eta {k : Kern} {opt : Opt} {cmds : List (Out Cmd)} {gc gc' : GCtx} (h : seqLoop k opt gc cmds = (gc', .ok ())) : gc'.eta = gc.eta := by
  induction cmds generalizing gc with
  | nil => cases h; rfl
  | cons c cs ih =>
    obtain ⟨c, gc2, h3, h4, h5⟩ := seqLoop_cons_ok h
    rw [ih h5]
    exact inferCheck_eta h4

theorem map_ok_snoc (cmds : List Cmd) (cmd : Cmd) : (cmds ++ [cmd]).map Out.ok = cmds.map Out.ok ++ [Out.ok cmd] := by simp

theorem seqLoop_snoc_ok {k : Kern} {opt : Opt} {gc gc' : GCtx} {cmds : List Cmd} {cmd : Cmd}
    (h : seqLoop k opt gc ((cmds ++ [cmd]).map .ok) = (gc', .ok ())) :
    ∃ gc1, seqLoop k opt gc (cmds.map .ok) = (gc1, .ok ()) ∧ inferCheck k opt gc1 cmd = (gc', .ok ()) := by
  rw [map_ok_snoc] at h
  obtain ⟨gc1, h1, h2⟩ := seqLoop_append_ok h
  obtain ⟨c, gc2, h3, h4, h5⟩ := seqLoop_cons_ok h2
  cases h3
  cases h5
  exact ⟨gc1, h1, h4⟩

theorem seqLoop_rulesEq {k : Kern} (hk : k.Real) {opt : Opt} {eta : Bool} {gc' : GCtx} {cmds : List Cmd}
    (h : seqLoop k opt (GCtx.start eta) (cmds.map .ok) = (gc', .ok ())) :
    gc'.rules = rulesOfCmds cmds ∧ ∀ s, gc'.types s = none → gc'.rules s = none := by
  induction cmds using List.reverseRecOn generalizing gc' with
  | nil => cases h; exact ⟨rfl, fun _ _ => rfl⟩
  | append_singleton cmds cmd ih =>
    obtain ⟨gc1, h1, h2⟩ := seqLoop_snoc_ok h
    obtain ⟨h3, h4⟩ := ih h1
    refine ⟨?_, inferCheck_dom h4 h2⟩
    rw [inferCheck_rulesEq hk h4 h2, rulesOfCmds_snoc, h3]
    cases cmd <;> rfl

/-! ## What is accepted is right -/

/-- the recorded type -/
theorem IntroPost.introduces {gc : GCtx} (cr : gc.theory.Church) (hT : gc.theory.WellFormed) {it : Intro LTerm}
    {ty : Typing} {chk : Option Check} (s : Sym) (hp : IntroPost gc it (ty, chk))
    (hc : ∀ c, chk = some c → Chk gc.theory (denCtx c.lc) c.tm.den c.ty.den) (hit : it ≠ .definition none none) :
    Introduces gc.theory s it ty.ty.den (it.ruleList s) := by
  obtain ⟨hS, hty, hb⟩ := hp.strict cr hT hc hit
  cases it with
  | declaration inj A =>
    have hA : ty.ty = A := hp.given A (by cases inj <;> simp)
    subst hA
    cases inj with
    | false => exact .declared hty
    | true => exact .injective hty
  | theorem_ A tm =>
    have hA : ty.ty = A := hp.given A (.inr (.inr (.inr ⟨_, rfl⟩)))
    subst hA
    exact .proved hty (hb tm rfl)
  | definition oty otm =>
    cases oty with
    | some A =>
      have hA : ty.ty = A := hp.given A (.inr (.inr (.inl ⟨_, rfl⟩)))
      subst hA
      cases otm with
      | none => exact .definable hty
      | some tm => exact .defined hty (hb tm rfl)
    | none =>
      cases otm with
      | none => exact absurd rfl hit
      | some tm => exact .inferred hty (hb tm rfl)

theorem Definitional.sub {R R' : RuleMap} (up : ∀ s rs r, R s = some rs → r ∈ rs → ∃ rs', R' s = some rs' ∧ r ∈ rs')
    (h : Definitional R') : Definitional R := by
  refine ⟨?_, ?_, ?_⟩
  · intro s rs r h1 h2
    obtain ⟨rs', k1, k2⟩ := up s rs r h1 h2
    exact h.args s rs' r k1 k2
  · intro s rs r h1 h2
    obtain ⟨rs', k1, k2⟩ := up s rs r h1 h2
    exact h.closed s rs' r k1 k2
  · intro s rs r r' h1 h2 h3
    obtain ⟨rs', k1, k2⟩ := up s rs r h1 h2
    obtain ⟨rs'', k3, k4⟩ := up s rs r' h1 h3
    rw [k1] at k3
    cases k3
    exact h.unique s rs' r r' k1 k2 k4

theorem Amenable.sub {eta : Bool} {R R' : RuleMap} (up : ∀ s rs r, R s = some rs → r ∈ rs → ∃ rs', R' s = some rs' ∧ r ∈ rs')
    (h : Amenable eta R') : Amenable eta R := by
  cases eta with
  | false => exact Orthogonal.sub up h
  | true => exact Definitional.sub up h

theorem Amenable.grows {eta : Bool} {gc gc' : GCtx} (hg : gc.Grows gc') (h : Amenable eta gc'.rules) : Amenable eta gc.rules := by
  refine h.sub ?_
  intro s rs r h1 h2
  obtain ⟨more, h3⟩ := hg.rules s rs h1
  exact ⟨_, h3, List.mem_append_left _ h2⟩

theorem Amenable.church {gc : GCtx} (h : Amenable gc.eta gc.rules) (hd : ∀ s, gc.types s = none → gc.rules s = none) : gc.theory.Church := by
  cases he : gc.eta with
  | false =>
    rw [he] at h
    exact .plain he (Orthogonal.confluent h)
  | true =>
    rw [he] at h
    refine .eta he h ?_
    rintro s d ⟨rs, r, h1, -⟩
    cases ht : gc.types s with
    | none => rw [show gc.theory.rules s = gc.rules s from rfl, hd s ht] at h1; cases h1
    | some A => exact ⟨A.den, by simp [GCtx.theory, ht]⟩

theorem session_sound {k : Kern} (hk : k.Real) {opt : Opt} {eta : Bool} (ho : opt.omits .check = false) {cmds : List Cmd} {gc' : GCtx}
    (hf : ∀ rs, Cmd.rules rs ∈ cmds → ∀ r ∈ rs, r.Full) (hw : CtxsRightIn eta cmds)
    (hcr : ∀ pre post, cmds = pre ++ post → ∀ gci, seqLoop k opt (GCtx.start eta) (pre.map .ok) = (gci, .ok ()) → gci.theory.Church)
    (h : seqLoop k opt (GCtx.start eta) (cmds.map .ok) = (gc', .ok ())) : SessionIn eta cmds gc'.theory ∧ gc'.Right := by
  induction cmds using List.reverseRecOn generalizing gc' with
  | nil => cases h; exact ⟨.nil, GCtx.start_right _⟩
  | append_singleton cmds cmd ih =>
    obtain ⟨gc1, h1, h2⟩ := seqLoop_snoc_ok h
    obtain ⟨ih1, ih2⟩ := ih (fun rs hm => hf rs (List.mem_append_left _ hm))
      (fun pre rs post T e => hw pre rs (post ++ [cmd]) T (by rw [e]; simp))
      (fun pre post e => hcr pre (post ++ [cmd]) (by rw [e]; simp)) h1
    have cr := hcr cmds [cmd] rfl gc1 h1
    have hU : gc1.Untyped := by
      intro s rs r h3 h4 h5
      have := Rule.full_iff.1 (ih1.full (T := gc1.theory) h3 h4)
      rw [h5] at this
      cases this
    have hT := ih2.wellFormed cr hU
    have hwc : cmd.WfCtx gc1 := by
      cases cmd with
      | intro s it => trivial
      | rules rs =>
        intro r hr t ht
        exact hw cmds rs [] gc1.theory rfl ih1 r hr _ _ _ (Rule.consists_iff.2 ⟨t, ht, rfl, rfl, rfl⟩)
    obtain ⟨h3, h4⟩ := C38_command gc1 cr ih2 hU k hk opt ho cmd hwc gc' h2
    refine ⟨?_, h4⟩
    have hr := inferCheck_rulesEq hk ih2.dom h2
    cases cmd with
    | intro s it =>
      obtain ⟨ty, chk, k1, k2, k3⟩ := inferWith_intro_ok h2
      obtain ⟨n, rc, st, k4⟩ := hk.intro _ _ _ k1
      have k5 : ∀ c, chk = some c → k.check gc1 c = .ok () := by
        rintro c rfl
        simp only [ho, Bool.false_eq_true, if_false] at k2
        exact Res.out_ok.1 k2
      have hp := TriG.ok (Tri.intro n it) k4
      have hi := hp.introduces cr hT s (by
        intro c hc
        obtain ⟨n', rc', s', h9⟩ := hk.check _ _ (k5 _ hc)
        exact TriG.ok (Tri.checkCheck n' _) h9) (by rintro rfl; cases k4)
      obtain ⟨k6, -, k7⟩ := GCtx.insert_ok k3
      have hth : gc'.theory = gc1.theory.declare s ty.ty.den (it.ruleList s) := by
        unfold Theory.declare GCtx.theory
        rw [hr]
        congr 1
        · funext c
          rw [k7]
          simp only [mapInsert]
          split <;> rfl
        · rw [k7]
      rw [hth]
      exact .intro ih1 (by simp [GCtx.theory, k6]) hi
    | rules rs =>
      obtain ⟨-, k2⟩ := inferWith_rules_ok h2
      obtain ⟨k3, k4, -, k5⟩ := GCtx.addRules_ok k2
      have hth : gc'.theory = gc1.theory.extend rs := by
        unfold Theory.extend GCtx.theory
        rw [hr, k3, k4]
      rw [hth]
      refine .rules ih1 fun r hr' => ⟨k5 r hr', ?_⟩
      exact (h3 r hr').2.right (hf rs (by simp) r hr') (hw cmds rs [] gc1.theory rfl ih1 r hr')

/-! ## What is right is accepted -/

/-- the context agrees with a theory, up to the conversion of types -/
structure Agrees (T : Theory) (gc : GCtx) : Prop where
  rules : gc.rules = T.rules
  eta : gc.eta = T.eta
  none : ∀ c, T.ty c = none → gc.types c = none
  some : ∀ c A, T.ty c = some A → (∃ A', gc.types c = some A' ∧ gc.theory.Conv A'.den A) ∧ gc.theory.IsType A

theorem Strict.agrees {T : Theory} {gc : GCtx} (ha : Agrees T gc) (hS : gc.theory.Sorted) {Γ : List Tm} {t A : Tm} (h : Strict T Γ t A) :
    Strict gc.theory Γ t A := by
  have hconv : ∀ {A B : Tm}, T.Conv A B → gc.theory.Conv A B := by
    intro A B h
    unfold Theory.Conv GCtx.theory at *
    simp only
    rw [ha.rules, ha.eta]
    exact h
  induction h with
  | type => exact .type
  | @const Γ c A hc =>
    obtain ⟨⟨A', h1, h2⟩, s, hs, h3⟩ := ha.some c A hc
    refine .conv (A := A'.den) (.const (by simp [GCtx.theory, h1])) h2 ?_ hs
    have h4 := h3.ren hS.closed (Δ := Γ) (ρ := id) (by intro n B hB; simp at hB)
    rwa [h3.freeBelow.ren_eq, hs.ren] at h4
  | var hv => exact .var hv
  | app _ _ ih1 ih2 => exact .app ih1 ih2
  | lam _ _ _ hs ih1 ih2 ih3 => exact .lam ih1 ih2 ih3 hs
  | dlam _ _ _ hs ih1 ih2 ih3 => exact .dlam ih1 ih2 ih3 hs
  | pi _ _ hs ih1 ih2 => exact .pi ih1 ih2 hs
  | conv _ hc _ hs ih1 ih2 => exact .conv ih1 (hconv hc) ih2 hs

theorem Theory.IsType.agrees {T : Theory} {gc : GCtx} (ha : Agrees T gc) (hS : gc.theory.Sorted) {A : Tm} (h : T.IsType A) :
    gc.theory.IsType A := by
  obtain ⟨s, hs, h⟩ := h
  exact ⟨s, hs, h.agrees ha hS⟩

theorem WfCtx.agrees {T : Theory} {gc : GCtx} (ha : Agrees T gc) (hS : gc.theory.Sorted) {Γ : List Tm} (h : WfCtx T Γ) : WfCtx gc.theory Γ := by
  induction h with
  | nil => exact .nil
  | cons _ h ih => exact ih.cons (h.agrees ha hS)

theorem Introduces.agrees {T : Theory} {gc : GCtx} (ha : Agrees T gc) (hS : gc.theory.Sorted) {s : Sym} {it : Intro LTerm} {A : Tm}
    {rs : Option (List Rule)} (h : Introduces T s it A rs) : Introduces gc.theory s it A rs := by
  cases h with
  | declared h => exact .declared (h.agrees ha hS)
  | injective h => exact .injective (h.agrees ha hS)
  | definable h => exact .definable (h.agrees ha hS)
  | defined h h' => exact .defined (h.agrees ha hS) (h'.agrees ha hS)
  | inferred h h' => exact .inferred (h.agrees ha hS) (h'.agrees ha hS)
  | proved h h' => exact .proved (h.agrees ha hS) (h'.agrees ha hS)

theorem RuleRight.agrees {T : Theory} {gc : GCtx} (ha : Agrees T gc) (hS : gc.theory.Sorted) {r : Rule} (h : RuleRight T r) :
    RuleRight gc.theory r := by
  obtain ⟨Γ, l, u, hc, hw, A, s, hs, h1, h2, h3⟩ := h
  exact ⟨Γ, l, u, hc, hw.agrees ha hS, A, s, hs, h1.agrees ha hS, h2.agrees ha hS, h3.agrees ha hS⟩

/-- given types that are kinds are written as such -/
theorem LTerm.Proper.kindForm : ∀ {t : LTerm}, t.Proper → t.den.IsKind → t.KindForm
  | .type, _, _ => trivial
  | .const _, _, h => h.elim
  | .var _, _, h => h.elim
  | .comb (.abst _ none _), _, h => h.elim
  | .comb (.abst _ (some _) _), _, h => h.elim
  | .comb (.prod _ ty tm), hp, h => LTerm.Proper.kindForm (t := tm) hp.2 h.2
  | .comb (.appl f args), hp, h => by
    cases hargs : args with
    | nil =>
      obtain ⟨s, rfl⟩ := hp.2.2 hargs
      subst hargs
      exact h.elim
    | cons a as =>
      subst hargs
      have key : ∀ (us : List Tm) (g u : Tm), ¬ (Tm.apps g (u :: us)).IsKind := by
        intro us
        induction us with
        | nil => intro g u h; exact h
        | cons v us ih => intro g u h; exact ih (.app g u) v h
      exact (key _ _ _ h).elim

theorem Cmd.Proper.given {s : Sym} {it : Intro LTerm} (h : (Cmd.intro s it).Proper) : ∀ A, it.given = some A → A.den.IsKind → A.KindForm := by
  intro A hA hk
  refine LTerm.Proper.kindForm ?_ hk
  cases it with
  | declaration inj ty => cases hA; exact h
  | theorem_ ty tm => cases hA; exact h.1
  | definition oty otm =>
    cases hA
    exact h.1

theorem WfCtx.small {T : Theory} (hL : T.Levelled) (cr : T.Church) {Γ : List Tm} (h : WfCtx T Γ) :
    ∀ A ∈ Γ, A.Small := by
  induction h with
  | nil => simp
  | cons _ h ih =>
    intro B hB
    rcases List.mem_cons.1 hB with rfl | hB
    · exact (h.level hL cr ih).type
    · exact ih B hB

/-- an introduction that is right is accepted, or its checks do not end -/
theorem intro_complete {k : Kern} (hk : k.Exact) {opt : Opt} (ho : opt.omits .check = false) {gc : GCtx} {T : Theory} 
    (cr : gc.theory.Church) (hU : gc.Untyped) (hA : Agrees T gc) (hR : gc.Right) (hL : gc.Levelled) {s : Sym} {it : Intro LTerm} {A : Tm}
    {rs : Option (List Rule)} (hs : T.ty s = none) (hd : T.rules s = none) (hI : Introduces T s it A rs) (hAn : (Cmd.intro s it).Known)
    (hP : (Cmd.intro s it).Proper) :
    (∃ gc1, inferCheck k opt gc (.intro s it) = (gc1, .ok ()) ∧ Agrees (T.declare s A rs) gc1 ∧ gc1.Right ∧ gc1.Levelled) ∨
    (inferCheck k opt gc (.intro s it)).2 = .timeout := by
  have hI' := hI.agrees hA hR.types
  have hCS : CmdStrict gc (.intro s it) := ⟨hA.none s hs, by rw [hA.rules]; exact hd, hI'.strict.1⟩
  have hLv : Cmd.Levelled (.intro s it) := Cmd.Proper.given (s := s) hP
  rcases hr : inferCheck k opt gc (.intro s it) with ⟨gc1, o⟩
  have hF := C44_command_known gc ⟨cr, fun _ => hR.wellFormed cr hU⟩ hL k hk opt (.intro s it) (fun _ => trivial) hP hAn hLv hCS
  rw [hr] at hF
  rcases hF with hF | hF
  · simp only at hF
    subst hF
    have hR1 := (C38_command gc cr hR hU k hk.real opt ho (.intro s it) trivial gc1 hr).2
    refine .inl ⟨gc1, rfl, ?_, hR1, inferCheck_levelled ⟨cr, fun _ => hR.wellFormed cr hU⟩ hL hk.real ho hLv hr⟩
    have hg := (inferWith_grows hr).le
    have hreq := inferCheck_rulesEq hk.real hR.dom hr
    refine ⟨?_, (inferWith_grows hr).eta.trans hA.eta, ?_, ?_⟩
    · rw [hreq, hA.rules, hI.ruleList]
      rfl
    · obtain ⟨ty, chk, -, -, k3⟩ := inferWith_intro_ok hr
      obtain ⟨-, -, rfl⟩ := GCtx.insert_ok k3
      intro c hc
      simp only [Theory.declare] at hc
      simp only [mapInsert]
      split at hc
      · cases hc
      · next hne => rw [if_neg hne]; exact hA.none c hc
    · intro c B hB
      simp only [Theory.declare] at hB
      split at hB
      · next e =>
        subst e
        cases hB
        refine ⟨?_, Theory.Sorted.mono hg hI'.strict.2⟩
        obtain ⟨ty, chk, k1, -, k3⟩ := inferWith_intro_ok hr
        obtain ⟨n, rc, st, k4⟩ := hk.real.intro _ _ _ k1
        have hpost := TriG.ok (Tri.intro n it) k4
        obtain ⟨-, -, rfl⟩ := GCtx.insert_ok k3
        refine ⟨ty.ty, by simp [mapInsert], hg.conv ?_⟩
        cases hI' with
        | declared => rw [show ty.ty = _ from hpost.given _ (.inl rfl)]; exact .refl _
        | injective => rw [show ty.ty = _ from hpost.given _ (.inr (.inl rfl))]; exact .refl _
        | definable => rw [show ty.ty = _ from hpost.given _ (.inr (.inr (.inl ⟨_, rfl⟩)))]; exact .refl _
        | defined => rw [show ty.ty = _ from hpost.given _ (.inr (.inr (.inl ⟨_, rfl⟩)))]; exact .refl _
        | proved => rw [show ty.ty = _ from hpost.given _ (.inr (.inr (.inr ⟨_, rfl⟩)))]; exact .refl _
        | inferred h h' => exact Inf.unique cr (hpost.infd _ rfl) .nil (h'.wellTyped hL.theory cr (by simp))
      · obtain ⟨⟨A', k1, k2⟩, k3⟩ := hA.some c B hB
        exact ⟨⟨A', (inferWith_grows hr).types c A' k1, hg.conv k2⟩, Theory.Sorted.mono hg k3⟩
  · simp only at hF
    subst hF
    exact .inr rfl

theorem session_complete {k : Kern} (hk : k.Exact) {opt : Opt} {eta : Bool} (ho : opt.omits .check = false) {cmds : List Cmd} {T : Theory}
    (h : SessionIn eta cmds T) (ha : ∀ cmd ∈ cmds, cmd.Known) (hp : ∀ cmd ∈ cmds, cmd.Proper) (hO : Amenable eta T.rules) :
    (∃ gc, seqLoop k opt (GCtx.start eta) (cmds.map .ok) = (gc, .ok ()) ∧ Agrees T gc ∧ gc.Right ∧ gc.Levelled) ∨
    (seqLoop k opt (GCtx.start eta) (cmds.map .ok)).2 = .timeout := by
  induction h with
  | nil =>
    refine .inl ⟨_, rfl, ⟨rfl, rfl, fun _ _ => rfl, ?_⟩, GCtx.start_right _, GCtx.start_levelled _⟩
    intro c A h
    cases h
  | @intro cmds T s it A rs hS hs hI ih =>
    have hle : T.Le (T.declare s A rs) := by
      refine ⟨?_, ?_, rfl⟩
      · intro c B hB
        simp only [Theory.declare]
        split
        · next e => rw [e, hs] at hB; cases hB
        · exact hB
      · intro c l hl
        refine ⟨l, ?_, fun _ h => h⟩
        simp only [Theory.declare]
        split
        · next e => rw [e, hS.dom s hs] at hl; cases hl
        · exact hl
    have hO' : Amenable eta T.rules := hO.sub (by
      intro c l r h1 h2
      obtain ⟨l', h3, h4⟩ := hle.rules c l h1
      exact ⟨l', h3, h4 r h2⟩)
    rw [map_ok_snoc, seqLoop_append]
    rcases ih (fun c hc => ha c (List.mem_append_left _ hc)) (fun c hc => hp c (List.mem_append_left _ hc)) hO' with
      ⟨gc, h1, hA, hR, hL⟩ | h1
    · rw [h1]
      simp only
      have cr : gc.theory.Church := by
        refine Amenable.church ?_ hR.dom
        rw [hA.rules, show gc.eta = eta from hA.eta.trans hS.eta]
        exact hO'
      have hU : gc.Untyped := by
        intro s rs r h3 h4 h5
        rw [hA.rules] at h3
        have := Rule.full_iff.1 (hS.full h3 h4)
        rw [h5] at this
        cases this
      rcases intro_complete hk ho cr hU hA hR hL hs (hS.dom s hs) hI (ha _ (by simp)) (hp _ (by simp)) with ⟨gc1, hr, h2, h3, h4⟩ | hF
      · exact .inl ⟨gc1, by rw [seqLoop_cons hr]; rfl, h2, h3, h4⟩
      · rcases hr : inferCheck k opt gc (.intro s it) with ⟨gc1, o⟩
        rw [hr] at hF
        simp only at hF
        subst hF
        refine .inr ?_
        rw [seqLoop, hr]
    · refine .inr ?_
      rcases hr : seqLoop k opt (GCtx.start eta) (cmds.map .ok) with ⟨gc, o⟩
      rw [hr] at h1
      simp only at h1
      subst h1
      rfl
  | @rules cmds T rs hS hrs ih =>
    have hO' : Amenable eta T.rules := hO.sub (by
      intro c l r h1 h2
      exact ⟨_, by simp only [Theory.extend, h1]; rfl, List.mem_append_left _ h2⟩)
    rw [map_ok_snoc, seqLoop_append]
    rcases ih (fun c hc => ha c (List.mem_append_left _ hc)) (fun c hc => hp c (List.mem_append_left _ hc)) hO' with
      ⟨gc, h1, hA, hR, hL⟩ | h1
    · rw [h1]
      simp only
      have cr : gc.theory.Church := by
        refine Amenable.church ?_ hR.dom
        rw [hA.rules, show gc.eta = eta from hA.eta.trans hS.eta]
        exact hO'
      have hU : gc.Untyped := by
        intro s rs r h3 h4 h5
        rw [hA.rules] at h3
        have := Rule.full_iff.1 (hS.full h3 h4)
        rw [h5] at this
        cases this
      have hrs' : ∀ r ∈ rs, RuleRight gc.theory r := fun r hr => (hrs r hr).2.agrees hA hR.types
      have hCS : CmdStrict gc (.rules rs) := fun r hr => ⟨by rw [hA.rules]; exact (hrs r hr).1, (hrs' r hr).strict.1⟩
      have hAn := ha (.rules rs) (by simp)
      have hLv : Cmd.Levelled (.rules rs) := by
        intro r hr
        refine ⟨?_, ?_⟩
        · intro t ht B hB
          exact ((hrs' r hr).strict.2 t ht).small hL.theory cr B.den (by simpa using ⟨B, hB, rfl⟩)
        · intro h
          have := Rule.full_iff.1 (hrs' r hr).full
          rw [h] at this
          cases this
      rcases hr : inferCheck k opt gc (.rules rs) with ⟨gc1, o⟩
      have hF := C44_command_known gc ⟨cr, fun _ => hR.wellFormed cr hU⟩ hL k hk opt (.rules rs) (fun _ r hr => (hrs' r hr).strict.2) (hp (.rules rs) (by simp)) hAn hLv hCS
      rw [hr] at hF
      rcases hF with hF | hF
      · simp only at hF
        subst hF
        have hR1 := (C38_command gc cr hR hU k hk.real opt ho (.rules rs) (fun r hr => (hrs' r hr).strict.2) gc1 hr).2
        refine .inl ⟨gc1, by rw [seqLoop_cons hr]; rfl, ?_, hR1, inferCheck_levelled ⟨cr, fun _ => hR.wellFormed cr hU⟩ hL hk.real ho hLv hr⟩
        have hg := (inferWith_grows hr).le
        have hreq := inferCheck_rulesEq hk.real hR.dom hr
        obtain ⟨-, k2⟩ := inferWith_rules_ok hr
        obtain ⟨k3, -, -, -⟩ := GCtx.addRules_ok k2
        refine ⟨?_, (inferWith_grows hr).eta.trans hA.eta, ?_, ?_⟩
        · rw [hreq, hA.rules]
          rfl
        · intro c hc
          rw [k3]
          exact hA.none c hc
        · intro c B hB
          obtain ⟨⟨A', k1, k2⟩, k3⟩ := hA.some c B hB
          exact ⟨⟨A', (inferWith_grows hr).types c A' k1, hg.conv k2⟩, Theory.Sorted.mono hg k3⟩
      · simp only at hF
        subst hF
        refine .inr ?_
        rw [seqLoop, hr]
    · refine .inr ?_
      rcases hr : seqLoop k opt (GCtx.start eta) (cmds.map .ok) with ⟨gc, o⟩
      rw [hr] at h1
      simp only at h1
      subst h1
      rfl

end Kontroli
