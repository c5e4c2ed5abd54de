import Verif.Proofs.SimInfer
import Verif.Proofs.Process
import Verif.Model.Files

/-!
# Verdicts of the driver do not depend on the kernel runs
-/

namespace Kontroli

/-! ## Outcomes -/

/-- related outcomes: values are related, errors are the same -/
def OutRel {α β : Type} (Q : α → β → Prop) : Out α → Out β → Prop
  | .ok a, .ok b => Q a b
  | .err e, .err e' => e = e'
  | .ok _, .err _ => False
  | .err _, .ok _ => False
  | _, _ => True

theorem OutRel.bind {α β α' β' : Type} {Q : α → β → Prop} {Q' : α' → β' → Prop} {m : Out α} {m' : Out β} {f : α → Out α'}
    {f' : β → Out β'} (h : OutRel Q m m') (hf : ∀ a b, Q a b → OutRel Q' (f a) (f' b)) : OutRel Q' (m.bind f) (m'.bind f') := by
  cases m <;> cases m' <;> simp only [OutRel, Out.bind] at * <;> first | exact h | exact hf _ _ h | skip
  all_goals (split <;> trivial)

theorem ResRel.out {α β : Type} {Q : α → β → Prop} {m : Res (α × St)} {m' : Res (β × St)} (h : ResRel (fun p q => Q p.1 q.1) m m') :
    OutRel Q m.value.out m'.value.out := by
  cases m <;> cases m' <;> simp_all [ResRel, OutRel, Res.value, Res.out]

theorem OutRel.decided {α β : Type} {Q : α → β → Prop} {m : Out α} {m' : Out β} (h : OutRel Q m m') (hd : m.Decided)
    (hd' : m'.Decided) : (∃ a b, m = .ok a ∧ m' = .ok b ∧ Q a b) ∨ ∃ e, m = .err e ∧ m' = .err e := by
  rcases hd with ⟨a, rfl⟩ | ⟨e, rfl⟩ <;> rcases hd' with ⟨b, rfl⟩ | ⟨e', rfl⟩ <;> simp only [OutRel] at h
  · exact .inl ⟨a, b, rfl, rfl, h⟩
  · exact .inr ⟨e, rfl, by rw [h]⟩

/-- related results of the driver, which returns the context also with errors -/
def DRel {α : Type} (p p' : GCtx × Out α) : Prop := p.2.Decided → p'.2.Decided → p.2 = p'.2 ∧ GRel p.1 p'.1

/-! ## Contexts -/

theorem GRel.insert {gc gc' : GCtx} (hg : GRel gc gc') {t t' : Typing} (ht : TypingRel t t') (s : Sym) (rw : Bool) :
    GRel (gc.insert s t rw).1 (gc'.insert s t' rw).1 ∧ (gc.insert s t rw).2 = (gc'.insert s t' rw).2 := by
  have htypes : ∀ s', Option.Rel LEqP (mapInsert gc.types s t.ty s') (mapInsert gc'.types s t'.ty s') := by
    intro s'
    unfold mapInsert
    split
    · exact .some ht.ty
    · exact hg.types s'
  have hsome : (gc'.types s).isSome = (gc.types s).isSome := by
    have := hg.types s
    revert this
    generalize gc.types s = a
    generalize gc'.types s = b
    intro h
    cases h <;> rfl
  have hinit : ∀ r ∈ GCtx.initRules s t.tm, r.rhs.Proper := by
    intro r hr
    cases htm : t.tm with
    | none => rw [htm] at hr; simp [GCtx.initRules] at hr
    | some u =>
      rw [htm] at hr
      simp only [GCtx.initRules, List.mem_singleton] at hr
      subst hr
      exact ht.proper u htm
  unfold GCtx.insert
  simp only [GCtx.introType, hsome, ht.tm]
  cases h1 : (gc.types s).isSome
  · simp only [Bool.false_eq_true, if_false]
    cases rw
    · exact ⟨⟨hg.rules, hg.eta, hg.proper, htypes⟩, rfl⟩
    · simp only [if_true, GCtx.introRules, hg.rules]
      have : GRel ⟨mapInsert gc.types s t.ty, mapInsert gc.rules s (GCtx.initRules s t.tm), gc.eta⟩
          ⟨mapInsert gc'.types s t'.ty, mapInsert gc.rules s (GCtx.initRules s t.tm), gc'.eta⟩ := by
        refine ⟨rfl, hg.eta, ?_, htypes⟩
        intro s' rs hrs r hr
        simp only [mapInsert] at hrs
        split at hrs
        · cases hrs; exact hinit r hr
        · exact hg.proper s' rs hrs r hr
      cases h2 : (gc.rules s).isSome <;> exact ⟨this, rfl⟩
  · simp only [if_true]
    exact ⟨⟨hg.rules, hg.eta, hg.proper, htypes⟩, trivial⟩

theorem GRel.addRules {gc gc' : GCtx} (hg : GRel gc gc') {rs : List Rule} (hrs : ∀ r ∈ rs, r.rhs.Proper) :
    GRel (addRules gc rs).1 (addRules gc' rs).1 ∧ (addRules gc rs).2 = (addRules gc' rs).2 := by
  induction rs generalizing gc gc' with
  | nil => exact ⟨hg, rfl⟩
  | cons r rs ih =>
    unfold Kontroli.addRules GCtx.addRule
    rw [hg.rules]
    cases h : gc.rules r.lhs.symbol with
    | none => exact ⟨hg, rfl⟩
    | some rs0 =>
      refine ih ⟨rfl, hg.eta, ?_, hg.types⟩ fun r' hr' => hrs r' (by simp [hr'])
      intro s' rs' h' r' hr'
      simp only [mapInsert] at h'
      split at h'
      · cases h'
        rcases List.mem_append.1 hr' with hr' | hr'
        · exact hg.proper _ _ h r' hr'
        · simp only [List.mem_singleton] at hr'
          subst hr'
          exact hrs r' (by simp)
      · exact hg.proper s' rs' h' r' hr'

theorem GRel.theory {gc gc' : GCtx} (hg : GRel gc gc') : gc.theory = gc'.theory := by
  have ht : (fun s => (gc.types s).map LTerm.den) = fun s => (gc'.types s).map LTerm.den := by
    funext s
    have := hg.types s
    revert this
    generalize gc.types s = a
    generalize gc'.types s = b
    intro h
    cases h with
    | none => rfl
    | some h => simp [h.1]
  unfold GCtx.theory
  rw [ht, hg.rules, hg.eta]

theorem GRel.refl {gc : GCtx} (h : gc.ProperRules) (ht : ∀ s A, gc.types s = some A → A.Proper) : GRel gc gc := by
  refine ⟨rfl, rfl, h, fun s => ?_⟩
  cases e : gc.types s with
  | none => exact .none
  | some A => exact .some (.refl (ht s A e))

theorem GRel.start (eta : Bool) : GRel (GCtx.start eta) (GCtx.start eta) :=
  .refl (fun _ _ h => nomatch h) (fun _ _ h => nomatch h)

/-! ## Left-hand sides as terms -/

mutual
  theorem Pattern.toL_proper {p : Pattern} {t : LTerm} (h : p.toL = some t) : t.Proper := by
    cases p with
    | mvar v => simp [Pattern.toL] at h; subst h; trivial
    | joker => simp [Pattern.toL] at h
    | symb s args =>
      unfold Pattern.toL at h
      cases h1 : Pattern.toLList args with
      | none => rw [h1] at h; cases h
      | some as =>
        rw [h1] at h
        cases h
        exact ⟨trivial, Pattern.toLList_proper h1, fun _ => ⟨s, rfl⟩⟩
  theorem Pattern.toLList_proper {ps : List Pattern} {ts : List LTerm} (h : Pattern.toLList ps = some ts) : LTerm.ProperList ts := by
    cases ps with
    | nil => simp [Pattern.toLList] at h; subst h; trivial
    | cons p ps =>
      unfold Pattern.toLList at h
      cases h1 : p.toL with
      | none => rw [h1] at h; cases h
      | some t =>
        rw [h1] at h
        cases h2 : Pattern.toLList ps with
        | none => rw [h2] at h; cases h
        | some ts =>
          rw [h2] at h
          cases h
          exact ⟨Pattern.toL_proper h1, Pattern.toLList_proper h2⟩
end

theorem annotations_proper {ctx : List (Str × Option LTerm)} {tys : List LTerm} (h : annotations ctx = some tys)
    (hp : ∀ a ∈ ctx, LTerm.ProperOpt a.2) : ∀ A ∈ tys, A.Proper := by
  induction ctx generalizing tys with
  | nil => simp [annotations] at h; subst h; simp
  | cons a ctx ih =>
    obtain ⟨x, A⟩ := a
    cases A with
    | none => simp [annotations] at h
    | some A =>
      unfold annotations at h
      cases h1 : annotations ctx with
      | none => rw [h1] at h; cases h
      | some tys' =>
        rw [h1] at h
        cases h
        intro B hB
        rcases List.mem_cons.1 hB with rfl | hB
        · exact hp (x, some B) (by simp)
        · exact ih h1 (fun a ha => hp a (by simp [ha])) B hB

theorem Rule.toT_proper {r : Rule} {t : TRule} (h : r.toT = some t) (hp : r.Proper) :
    (∀ A ∈ t.ctx, A.Proper) ∧ t.lhs.Proper ∧ t.rhs.Proper := by
  unfold Rule.toT at h
  cases h1 : annotations r.ctx with
  | none => rw [h1] at h; simp at h
  | some tys =>
    rw [h1] at h
    cases h2 : (Pattern.symb r.lhs.symbol r.lhs.args).toL with
    | none => simp_all
    | some l =>
      simp_all
      subst h
      exact ⟨annotations_proper h1 hp.2, Pattern.toL_proper h2, hp.1⟩

/-! ## Commands and sessions -/

section
variable {k k' : Kern} (hk : k.Exact) (hk' : k'.Exact)
include hk hk'

theorem Kern.intro_rel {gc gc' : GCtx} (hg : GRel gc gc') {i : Intro LTerm} (hi : i.Proper) :
    OutRel (fun r r' => TypingRel r.1 r'.1 ∧ Option.Rel CheckRel r.2 r'.2) (k.intro gc i).out (k'.intro gc' i).out := by
  obtain ⟨n, rc, h⟩ := hk.intro gc i
  obtain ⟨m, rc', h'⟩ := hk'.intro gc' i
  rw [h, h']
  exact (Agree.intro hg n m hi _ _).out

theorem Kern.rewrite_rel {gc gc' : GCtx} (hg : GRel gc gc') {r : TRule} (hc : ∀ A ∈ r.ctx, A.Proper) (hl : r.lhs.Proper)
    (hr : r.rhs.Proper) : OutRel CheckRel (k.rewrite gc r).out (k'.rewrite gc' r).out := by
  obtain ⟨n, rc, h⟩ := hk.rewrite gc r
  obtain ⟨m, rc', h'⟩ := hk'.rewrite gc' r
  rw [h, h']
  exact (Agree.rewrite hg n m hc hl hr _ _).out

theorem Kern.check_rel {gc gc' : GCtx} (hg : GRel gc gc') {c c' : Check} (hc : CheckRel c c') :
    OutRel (fun _ _ => True) (k.check gc c).out (k'.check gc' c').out := by
  obtain ⟨n, rc, h⟩ := hk.check gc c
  obtain ⟨m, rc', h'⟩ := hk'.check gc' c'
  rw [h, h']
  exact (Agree.checkCheck hg n m hc _ _).out

theorem rewriteAll_rel {gc gc' : GCtx} (hg : GRel gc gc') {f f' : Unit → Check → GCtx → Out Unit}
    (hf : ∀ c c', CheckRel c c' → OutRel (fun _ _ => True) (f () c gc) (f' () c' gc')) {rs : List Rule}
    (hrs : ∀ r ∈ rs, r.Proper) : OutRel (fun _ _ => True) (rewriteAll k f gc rs ()) (rewriteAll k' f' gc' rs ()) := by
  induction rs with
  | nil => exact trivial
  | cons r rs ih =>
    have ih := ih fun r' hr' => hrs r' (by simp [hr'])
    unfold rewriteAll
    cases h : r.toT with
    | none => exact ih
    | some t =>
      obtain ⟨h1, h2, h3⟩ := Rule.toT_proper h (hrs r (by simp))
      exact (Kern.rewrite_rel hk hk' hg h1 h2 h3).bind fun c c' hc => (hf c c' hc).bind fun _ _ _ => ih

theorem inferWith_rel {gc gc' : GCtx} (hg : GRel gc gc') {f f' : Unit → Check → GCtx → Out Unit}
    (hf : ∀ c c', CheckRel c c' → OutRel (fun _ _ => True) (f () c gc) (f' () c' gc')) {cmd : Cmd} (hc : cmd.Proper) :
    DRel (inferWith k f gc () cmd) (inferWith k' f' gc' () cmd) := by
  cases cmd with
  | intro s it =>
    have h1 : OutRel (fun (r r' : Typing × Unit) => TypingRel r.1 r'.1)
        ((k.intro gc it).out.bind fun r => match r.2 with
          | some c => (f () c gc).bind fun t => .ok (r.1, t)
          | none => .ok (r.1, ()))
        ((k'.intro gc' it).out.bind fun r => match r.2 with
          | some c => (f' () c gc').bind fun t => .ok (r.1, t)
          | none => .ok (r.1, ())) := by
      refine (Kern.intro_rel hk hk' hg hc).bind fun r r' hr => ?_
      obtain ⟨t, c⟩ := r
      obtain ⟨t', c'⟩ := r'
      obtain ⟨ht, hc⟩ := hr
      cases hc with
      | none => exact ht
      | some hc => exact (hf _ _ hc).bind fun _ _ _ => ht
    intro hd hd'
    unfold inferWith at hd hd' ⊢
    simp only at hd hd' ⊢
    revert h1 hd hd'
    generalize ((k.intro gc it).out.bind _) = o
    generalize ((k'.intro gc' it).out.bind _) = o'
    intro h1 hd hd'
    have hu : ∀ {α : Type}, ¬ (Out.panic : Out α).Decided := by rintro α (⟨a, h⟩ | ⟨a, h⟩) <;> cases h
    have hu' : ∀ {α : Type}, ¬ (Out.timeout : Out α).Decided := by rintro α (⟨a, h⟩ | ⟨a, h⟩) <;> cases h
    cases o with
    | panic => exact absurd hd hu
    | timeout => exact absurd hd hu'
    | err e =>
      cases o' with
      | panic => exact absurd hd' hu
      | timeout => exact absurd hd' hu'
      | err e' => exact ⟨by rw [show e = e' from h1], hg⟩
      | ok a => exact h1.elim
    | ok a =>
      cases o' with
      | panic => exact absurd hd' hu
      | timeout => exact absurd hd' hu'
      | err e' => exact h1.elim
      | ok a' =>
        have h2 := hg.insert h1 s it.rewritable
        dsimp only
        rw [h2.2]
        exact ⟨rfl, h2.1⟩
  | rules rs =>
    have h1 := rewriteAll_rel hk hk' hg hf hc
    intro hd hd'
    unfold inferWith at hd hd' ⊢
    simp only at hd hd' ⊢
    revert h1 hd hd'
    generalize (rewriteAll k f gc rs ()) = o
    generalize (rewriteAll k' f' gc' rs ()) = o'
    intro h1 hd hd'
    have hu : ∀ {α : Type}, ¬ (Out.panic : Out α).Decided := by rintro α (⟨a, h⟩ | ⟨a, h⟩) <;> cases h
    have hu' : ∀ {α : Type}, ¬ (Out.timeout : Out α).Decided := by rintro α (⟨a, h⟩ | ⟨a, h⟩) <;> cases h
    cases o with
    | panic => exact absurd hd hu
    | timeout => exact absurd hd hu'
    | err e =>
      cases o' with
      | panic => exact absurd hd' hu
      | timeout => exact absurd hd' hu'
      | err e' => exact ⟨by rw [show e = e' from h1], hg⟩
      | ok a => exact h1.elim
    | ok a =>
      cases o' with
      | panic => exact absurd hd' hu
      | timeout => exact absurd hd' hu'
      | err e' => exact h1.elim
      | ok a' =>
        have h2 := hg.addRules fun r hr => (hc r hr).1
        dsimp only
        rw [h2.2]
        exact ⟨rfl, h2.1⟩

theorem inferCheck_rel {gc gc' : GCtx} (hg : GRel gc gc') (opt : Opt) {cmd : Cmd} (hc : cmd.Proper) :
    DRel (inferCheck k opt gc cmd) (inferCheck k' opt gc' cmd) := by
  refine inferWith_rel hk hk' hg (fun c c' h => ?_) hc
  split
  · exact trivial
  · exact Kern.check_rel hk hk' hg h

theorem seqLoop_rel {gc gc' : GCtx} (hg : GRel gc gc') (opt : Opt) {cmds : List (Out Cmd)}
    (hc : ∀ c, .ok c ∈ cmds → c.Proper) : DRel (seqLoop k opt gc cmds) (seqLoop k' opt gc' cmds) := by
  induction cmds generalizing gc gc' with
  | nil => exact fun _ _ => ⟨rfl, hg⟩
  | cons c cmds ih =>
    cases c with
    | err e => exact fun _ _ => ⟨rfl, hg⟩
    | panic => rintro (⟨a, h⟩ | ⟨a, h⟩) <;> simp [seqLoop] at h
    | timeout => rintro (⟨a, h⟩ | ⟨a, h⟩) <;> simp [seqLoop] at h
    | ok c =>
      have h1 := inferCheck_rel hk hk' hg opt (hc c (by simp))
      have ih := fun {g g' : GCtx} (h : GRel g g') => ih h fun c h => hc c (by simp [h])
      intro hd hd'
      unfold seqLoop at hd hd' ⊢
      revert h1 hd hd'
      obtain ⟨g, o⟩ := inferCheck k opt gc c
      obtain ⟨g', o'⟩ := inferCheck k' opt gc' c
      intro h1 hd hd'
      have ho : o.Decided := by
        cases o with
        | ok a => exact .inl ⟨_, rfl⟩
        | err e => exact .inr ⟨_, rfl⟩
        | _ => exact hd
      have ho' : o'.Decided := by
        cases o' with
        | ok a => exact .inl ⟨_, rfl⟩
        | err e => exact .inr ⟨_, rfl⟩
        | _ => exact hd'
      obtain ⟨h2, h3⟩ := h1 ho ho'
      simp only at h2
      subst h2
      cases o with
      | ok a => exact ih h3 hd hd'
      | err e => exact ⟨rfl, h3⟩
      | panic => exact ⟨rfl, h3⟩
      | timeout => exact ⟨rfl, h3⟩

theorem inferChecksSeq_rel {gc gc' : GCtx} (hg : GRel gc gc') (opt : Opt) {cmds : List (Out Cmd)}
    (hc : ∀ c, .ok c ∈ cmds → c.Proper) : DRel (inferChecksSeq k opt gc cmds) (inferChecksSeq k' opt gc' cmds) :=
  seqLoop_rel hk hk' hg opt fun c h => hc c (List.mem_of_mem_filter h)

end

/-! ## Sharing makes proper commands -/

mutual
  theorem PTerm.share_proper {syms : Symbols} {t : PTerm Atom} {l : LTerm} (h : t.share syms = .ok l) : l.Proper := by
    cases t with
    | app hd args =>
      cases args with
      | nil =>
        unfold PTerm.share at h
        cases h1 : PHead.share syms hd with
        | error e => rw [h1] at h; cases h
        | ok head => rw [h1] at h; cases h; exact PHead.share_proper h1
      | cons a as =>
        unfold PTerm.share at h
        cases h1 : PHead.share syms hd with
        | error e => rw [h1] at h; cases h
        | ok head =>
          rw [h1] at h
          cases h2 : PTerm.share syms a with
          | error e => rw [h2] at h; cases h
          | ok t =>
            rw [h2] at h
            cases h3 : PTerm.shareList syms as with
            | error e => rw [h3] at h; cases h
            | ok ts =>
              rw [h3] at h
              cases h
              exact ⟨PHead.share_proper h1, ⟨PTerm.share_proper h2, PTerm.shareList_proper h3⟩, by simp⟩
  theorem PHead.share_proper {syms : Symbols} {t : PHead Atom} {l : LTerm} (h : t.share syms = .ok l) : l.Proper := by
    cases t with
    | atom a =>
      cases a with
      | const c =>
        unfold PHead.share at h
        cases h1 : PSymb.share syms c with
        | error e => rw [h1] at h; cases h
        | ok head => rw [h1] at h; cases h; trivial
      | var v => simp [PHead.share] at h; subst h; trivial
      | type => simp [PHead.share] at h; subst h; trivial
    | prod x ty tm =>
      unfold PHead.share at h
      cases h1 : PTerm.share syms ty with
      | error e => rw [h1] at h; cases h
      | ok ty' =>
        rw [h1] at h
        cases h2 : PTerm.share syms tm with
        | error e => rw [h2] at h; cases h
        | ok tm' => rw [h2] at h; cases h; exact ⟨PTerm.share_proper h1, PTerm.share_proper h2⟩
    | abst x ty tm =>
      unfold PHead.share at h
      cases h1 : PTerm.shareOpt syms ty with
      | error e => rw [h1] at h; cases h
      | ok ty' =>
        rw [h1] at h
        cases h2 : PTerm.share syms tm with
        | error e => rw [h2] at h; cases h
        | ok tm' => rw [h2] at h; cases h; exact ⟨PTerm.shareOpt_proper h1, PTerm.share_proper h2⟩
  theorem PTerm.shareList_proper {syms : Symbols} {t : List (PTerm Atom)} {l : List LTerm} (h : PTerm.shareList syms t = .ok l) :
      LTerm.ProperList l := by
    cases t with
    | nil => simp [PTerm.shareList] at h; subst h; trivial
    | cons t ts =>
      unfold PTerm.shareList at h
      cases h1 : PTerm.share syms t with
      | error e => rw [h1] at h; cases h
      | ok t' =>
        rw [h1] at h
        cases h2 : PTerm.shareList syms ts with
        | error e => rw [h2] at h; cases h
        | ok ts' => rw [h2] at h; cases h; exact ⟨PTerm.share_proper h1, PTerm.shareList_proper h2⟩
  theorem PTerm.shareOpt_proper {syms : Symbols} {t : Option (PTerm Atom)} {l : Option LTerm} (h : PTerm.shareOpt syms t = .ok l) :
      LTerm.ProperOpt l := by
    cases t with
    | none => simp [PTerm.shareOpt] at h; subst h; trivial
    | some t =>
      unfold PTerm.shareOpt at h
      cases h1 : PTerm.share syms t with
      | error e => rw [h1] at h; cases h
      | ok t' => rw [h1] at h; cases h; exact PTerm.share_proper h1
end

theorem shareCtx_proper {syms : Symbols} {ctx : List (Str × Option (PTerm Atom))} {ctx' : List (Str × Option LTerm)}
    (h : shareCtx syms ctx = .ok ctx') : ∀ a ∈ ctx', LTerm.ProperOpt a.2 := by
  induction ctx generalizing ctx' with
  | nil => simp [shareCtx] at h; subst h; simp
  | cons a ctx ih =>
    obtain ⟨x, A⟩ := a
    unfold shareCtx at h
    cases h1 : PTerm.shareOpt syms A with
    | error e => rw [h1] at h; cases h
    | ok A' =>
      rw [h1] at h
      cases h2 : shareCtx syms ctx with
      | error e => rw [h2] at h; cases h
      | ok ctx1 =>
        rw [h2] at h
        cases h
        intro b hb
        rcases List.mem_cons.1 hb with rfl | hb
        · exact PTerm.shareOpt_proper h1
        · exact ih h2 b hb

theorem PRule.share_proper {syms : Symbols} {r : PRule (PTerm Atom)} {r' : Rule} (h : r.share syms = .ok r') : r'.Proper := by
  unfold PRule.share at h
  repeat' split at h
  all_goals first | (cases h; done) | skip
  cases h
  refine ⟨PTerm.share_proper (by assumption), shareCtx_proper (by assumption)⟩

theorem shareRules_proper {syms : Symbols} {rs : List (PRule (PTerm Atom))} {rs' : List Rule} (h : shareRules syms rs = .ok rs') :
    ∀ r ∈ rs', r.Proper := by
  induction rs generalizing rs' with
  | nil => simp [shareRules] at h; subst h; simp
  | cons r rs ih =>
    unfold shareRules at h
    cases h1 : r.share syms with
    | error e => rw [h1] at h; cases h
    | ok r1 =>
      rw [h1] at h
      cases h2 : shareRules syms rs with
      | error e => rw [h2] at h; cases h
      | ok rs1 =>
        rw [h2] at h
        cases h
        intro b hb
        rcases List.mem_cons.1 hb with rfl | hb
        · exact PRule.share_proper h1
        · exact ih h2 b hb

theorem Intro.share_proper {syms : Symbols} {it : Intro (PTerm Atom)} {it' : Intro LTerm} (h : it.share syms = .ok it') : it'.Proper := by
  cases it with
  | definition oty otm =>
    unfold Intro.share at h
    simp only at h
    cases h1 : PTerm.shareOpt syms oty with
    | error e => rw [h1] at h; cases h
    | ok ty =>
      rw [h1] at h
      cases h2 : PTerm.shareOpt syms otm with
      | error e => simp [h2] at h
      | ok tm => simp only [h2] at h; cases h; exact ⟨PTerm.shareOpt_proper h1, PTerm.shareOpt_proper h2⟩
  | theorem_ oty otm =>
    unfold Intro.share at h
    simp only at h
    cases h1 : PTerm.share syms oty with
    | error e => rw [h1] at h; cases h
    | ok ty =>
      rw [h1] at h
      cases h2 : PTerm.share syms otm with
      | error e => simp [h2] at h
      | ok tm => simp only [h2] at h; cases h; exact ⟨PTerm.share_proper h1, PTerm.share_proper h2⟩
  | declaration inj oty =>
    unfold Intro.share at h
    simp only at h
    cases h1 : PTerm.share syms oty with
    | error e => rw [h1] at h; cases h
    | ok ty => rw [h1] at h; cases h; exact PTerm.share_proper h1

theorem wrapArg_proper {x : Str} {A : LTerm} (hA : A.Proper) {it : Intro LTerm} (h : it.Proper) : (wrapArg x A it).Proper := by
  cases it with
  | definition oty otm =>
    refine ⟨?_, ?_⟩
    · cases oty with
      | none => trivial
      | some ty => exact ⟨hA, h.1⟩
    · cases otm with
      | none => trivial
      | some tm => exact ⟨hA, h.2⟩
  | theorem_ ty tm => exact ⟨⟨hA, h.1⟩, ⟨hA, h.2⟩⟩
  | declaration inj ty => exact ⟨hA, h⟩

theorem shareArgs_proper {syms : Symbols} {args : List (Str × PTerm Atom)} {it it' : Intro LTerm} (h : it.Proper)
    (h' : shareArgs syms args it = .ok it') : it'.Proper := by
  induction args generalizing it with
  | nil => simp [shareArgs] at h'; subst h'; exact h
  | cons a args ih =>
    obtain ⟨x, A⟩ := a
    unfold shareArgs at h'
    cases h1 : A.share syms with
    | error e => rw [h1] at h'; cases h'
    | ok A' => rw [h1] at h'; exact ih (wrapArg_proper (PTerm.share_proper h1) h) h'

theorem shareCmd_proper {st : ShState} {c : Scoped} {cmd : Cmd} (h : (shareCmd st c).2 = .ok cmd) : cmd.Proper := by
  unfold shareCmd at h
  cases c with
  | intro x args it =>
    cases h1 : Scoped.share st.syms (.intro x args it) with
    | error e => rw [h1] at h; cases h
    | ok sc =>
      rw [h1] at h
      unfold Scoped.share at h1
      simp only at h1
      cases h2 : it.share st.syms with
      | error e => rw [h2] at h1; cases h1
      | ok it1 =>
        rw [h2] at h1
        cases h3 : shareArgs st.syms args.reverse it1 with
        | error e => simp [h3] at h1
        | ok it2 =>
          simp only [h3] at h1
          cases h1
          have := shareArgs_proper (Intro.share_proper h2) h3
          simp only at h
          revert h
          obtain ⟨syms, r⟩ := st.syms.insert x st.next
          cases r with
          | error e => intro h; cases h
          | ok sym => intro h; cases h; exact this
  | rules rs =>
    cases h1 : Scoped.share st.syms (.rules rs) with
    | error e => rw [h1] at h; cases h
    | ok sc =>
      rw [h1] at h
      unfold Scoped.share at h1
      simp only at h1
      cases h2 : shareRules st.syms rs with
      | error e => rw [h2] at h1; cases h1
      | ok rs1 =>
        rw [h2] at h1
        cases h1
        cases h
        exact shareRules_proper h2

theorem shareAll_proper {st : ShState} {cs : List (Out Scoped)} : ∀ cmd, .ok cmd ∈ (shareAll st cs).2 → cmd.Proper := by
  induction cs generalizing st with
  | nil => simp [shareAll]
  | cons c cs ih =>
    intro cmd h
    rcases List.mem_cons.1 h with h | h
    · cases c with
      | ok c => exact shareCmd_proper h.symm
      | _ => cases h
    · exact ih cmd h

/-! ## Runs over files -/

theorem runFiles_rel {k k' : Kern} (hk : k.Exact) (hk' : k'.Exact) {opt : Opt} (hj : opt.jobs = false) {st : ShState} {gc gc' : GCtx}
    {files : List (Out ParsedFile)} {g g' : GCtx} {res res' : Out Unit} (hg : GRel gc gc') (h : RunFiles k opt st gc files g res)
    (h' : RunFiles k' opt st gc' files g' res') : DRel (g, res) (g', res') := by
  have hic : ∀ {k : Kern} {gc gc1 : GCtx} {cmds : List (Out Cmd)} {r : Out Unit}, InferChecks k opt gc cmds gc1 r →
      inferChecksSeq k opt gc cmds = (gc1, r) := by
    intro k gc gc1 cmds r h
    unfold InferChecks at h
    rw [hj] at h
    exact h
  have hu : ∀ {α : Type}, ¬ (Out.panic : Out α).Decided := by rintro α (⟨a, h⟩ | ⟨a, h⟩) <;> cases h
  have hu' : ∀ {α : Type}, ¬ (Out.timeout : Out α).Decided := by rintro α (⟨a, h⟩ | ⟨a, h⟩) <;> cases h
  induction h generalizing gc' with
  | nil => cases h'; exact fun _ _ => ⟨rfl, hg⟩
  | @next st gc gc1 gc2 f fs res h1 h2 ih =>
    intro hd hd'
    have hp : ∀ c, .ok c ∈ (fileCmds opt st f).2 → c.Proper := shareAll_proper
    have hr := inferChecksSeq_rel hk hk' hg opt hp
    rw [show inferChecksSeq k opt gc _ = _ from hic h1] at hr
    cases h' with
    | next h3 h4 =>
      rw [show inferChecksSeq k' opt gc' _ = _ from hic h3] at hr
      exact ih (hr (.inl ⟨_, rfl⟩) (.inl ⟨_, rfl⟩)).2 h4 hd hd'
    | fail h3 h4 =>
      rw [show inferChecksSeq k' opt gc' _ = _ from hic h3] at hr
      have := (hr (.inl ⟨_, rfl⟩) hd').1
      simp only at this
      subst this
      cases h4
  | @fail st gc gc1 f fs res h1 h2 =>
    intro hd hd'
    have hp : ∀ c, .ok c ∈ (fileCmds opt st f).2 → c.Proper := shareAll_proper
    have hr := inferChecksSeq_rel hk hk' hg opt hp
    rw [show inferChecksSeq k opt gc _ = _ from hic h1] at hr
    cases h' with
    | next h3 h4 =>
      rw [show inferChecksSeq k' opt gc' _ = _ from hic h3] at hr
      have := (hr hd (.inl ⟨_, rfl⟩)).1
      simp only at this
      subst this
      cases h2
    | fail h3 h4 =>
      rw [show inferChecksSeq k' opt gc' _ = _ from hic h3] at hr
      exact hr hd hd'
  | openErr => cases h'; exact fun _ _ => ⟨rfl, hg⟩
  | openPanic => exact fun h => absurd h hu
  | openTimeout => exact fun h => absurd h hu'

/-! ## The option for threads is not looked at elsewhere -/

theorem seqLoop_jobs (k : Kern) (opt : Opt) (j : Bool) (gc : GCtx) (cmds : List (Out Cmd)) :
    seqLoop k { opt with jobs := j } gc cmds = seqLoop k opt gc cmds := by
  induction cmds generalizing gc with
  | nil => rfl
  | cons c cmds ih =>
    cases c with
    | ok c =>
      unfold seqLoop
      rw [show inferCheck k { opt with jobs := j } gc c = inferCheck k opt gc c from rfl]
      split <;> simp_all
    | _ => rfl

theorem inferChecksSeq_jobs (k : Kern) (opt : Opt) (j : Bool) (gc : GCtx) (cmds : List (Out Cmd)) :
    inferChecksSeq k { opt with jobs := j } gc cmds = inferChecksSeq k opt gc cmds := seqLoop_jobs k opt j gc _

theorem allCmds_jobs (opt : Opt) (j : Bool) (st : ShState) (files : List ParsedFile) :
    allCmds { opt with jobs := j } st files = allCmds opt st files := by
  induction files generalizing st with
  | nil => rfl
  | cons f files ih =>
    unfold allCmds
    rw [show fileCmds { opt with jobs := j } st f = fileCmds opt st f from rfl, ih]

end Kontroli
