import Verif.Spec.Grammar
import Verif.Proofs.ParseClean

/-! # The parser and the grammar: what is parsed is derivable -/

namespace Kontroli

/-! ## Terms -/

theorem GApp.pushSymb {ts : List Token} {t : PTerm PSymb} (h : GApp ts t) (s : PSymb) :
    GApp (ts ++ [.symb s]) (t.pushArg (symbTerm s)) := by
  obtain ⟨h', as⟩ := t
  exact .symbArg h

theorem GApp.pushPar {ts us : List Token} {t u : PTerm PSymb} (h : GApp ts t) (hu : GTerm us u) :
    GApp (ts ++ .lpar :: us ++ [.rpar]) (t.pushArg u) := by
  obtain ⟨h', as⟩ := t
  exact .parArg h hu

/-- the tokens of the beginning of a quantified term -/
def binderToks : Option Str → List Token
  | none => []
  | some x => [nameTok x, .colon]

/-- the tokens of the part of a term read so far: a binder, and an application -/
def PartOf (ts : List Token) (x : Option Str) (app : Option (PTerm PSymb)) : Prop :=
  ∃ as, ts = binderToks x ++ as ∧ match app with
    | none => as = []
    | some t => GApp as t

/-- the tokens of the open constructs -/
inductive Opens : List Token → List (Cont PSymb) → Prop
  | nil : Opens [] []
  | abst {ts : List Token} {st : List (Cont PSymb)} {x : Str} : Opens ts st → Opens (ts ++ [nameTok x, .fatArrow]) (.abst x none :: st)
  | abstTy {ts as : List Token} {st : List (Cont PSymb)} {x : Str} {ty : PTerm PSymb} : Opens ts st → GApp as ty →
      Opens (ts ++ nameTok x :: .colon :: as ++ [.fatArrow]) (.abst x (some ty) :: st)
  | prod {ts as : List Token} {st : List (Cont PSymb)} {x : Option Str} {ty : PTerm PSymb} : Opens ts st → GApp as ty →
      Opens (ts ++ binderToks x ++ as ++ [.arrow]) (.prod x ty :: st)
  | lpar {ts as : List Token} {st : List (Cont PSymb)} {l : LPar PSymb} : Opens ts st → PartOf as l.x l.app →
      Opens (ts ++ as ++ [.lpar]) (.lpar l :: st)

/-- the tokens of the state of the term parser -/
def TState.Of (ts : List Token) : TState PSymb → Prop
  | .init => ts = []
  | .symb s => ts = [nameTok s]
  | .varof v => PartOf ts (some v) none
  | .aterm x t => PartOf ts x (some t)

/-- the tokens read so far -/
def TermInv (ts : List Token) (st : TState PSymb) (stack : List (Cont PSymb)) : Prop :=
  ∃ as bs, ts = as ++ bs ∧ Opens as stack ∧ st.Of bs

theorem TermInv.start : TermInv [] .init [] := ⟨[], [], rfl, .nil, rfl⟩

theorem reduce_sound {stack : List (Cont PSymb)} {as bs : List Token} {t : PTerm PSymb} (h : Opens as stack) (ht : GTerm bs t) :
    match reduceStack stack t with
    | (none, t', st') => st' = [] ∧ GTerm (as ++ bs) t'
    | (some l, t', st') => ∃ cs ds es, as ++ bs = cs ++ ds ++ .lpar :: es ∧ Opens cs st' ∧ PartOf ds l.x l.app ∧ GTerm es t' := by
  induction h generalizing bs t with
  | nil => exact ⟨rfl, ht⟩
  | @abst ts st x _ ih =>
    have := ih (.abst (x := x) ht)
    rw [reduceStack]
    simp only [List.append_assoc, List.cons_append, List.nil_append] at this ⊢
    exact this
  | @abstTy ts as st x ty _ ha ih =>
    have := ih (.abstTy (x := x) ha ht)
    rw [reduceStack]
    simp only [List.append_assoc, List.cons_append, List.nil_append] at this ⊢
    exact this
  | @prod ts as st x ty _ ha ih =>
    rw [reduceStack]
    cases x with
    | none =>
      have := ih (.arrow ha ht)
      simp only [binderToks, List.append_assoc, List.cons_append, List.nil_append] at this ⊢
      exact this
    | some x =>
      have := ih (.prod (x := x) ha ht)
      simp only [binderToks, List.append_assoc, List.cons_append, List.nil_append] at this ⊢
      exact this
  | @lpar ts as st l ho hp ih =>
    rw [reduceStack]
    exact ⟨ts, as, bs, by simp, ho, hp, ht⟩

/-- one step, in terms of the tokens read -/
def TRes.Inv (ts : List Token) : TRes PSymb → Prop
  | .more st ctx => TermInv ts st ctx.stack
  | .done _ _ => True
  | .err _ _ => True

theorem closeStep_sound {as bs : List Token} {ctx : PCtx PSymb} {t : PTerm PSymb} {tok : Token} (h : Opens as ctx.stack) (ht : GTerm bs t) :
    match closeStep t ctx tok with
    | .more st ctx' => TermInv (as ++ bs ++ [tok]) st ctx'.stack
    | .done t' ctx' => GTerm (as ++ bs) t' ∧ ctx'.stack = []
    | .err _ _ => True := by
  have hr := reduce_sound h ht
  unfold closeStep
  revert hr
  cases reduceStack ctx.stack t with
  | mk l r =>
    obtain ⟨t', st'⟩ := r
    cases l with
    | none => exact fun hr => ⟨hr.2, hr.1⟩
    | some l =>
      rintro ⟨cs, ds, es, he, ho, hp, hg⟩
      by_cases htok : tok = .rpar
      · subst htok
        simp only [if_true]
        obtain ⟨fs, hf, ha⟩ := hp
        obtain ⟨x, app⟩ := l
        cases app with
        | none =>
          simp only at ha
          subst ha
          exact ⟨cs, binderToks x ++ (.lpar :: es ++ [.rpar]), by rw [he, hf]; simp, ho, _, rfl, .par hg⟩
        | some app =>
          exact ⟨cs, binderToks x ++ (fs ++ .lpar :: es ++ [.rpar]), by rw [he, hf]; simp, ho, _, rfl, ha.pushPar hg⟩
      · simp [htok]

theorem atermStep_sound {as bs : List Token} {ctx : PCtx PSymb} {x : Option Str} {t : PTerm PSymb} {tok : Token} (h : Opens as ctx.stack)
    (ht : PartOf bs x (some t)) : match atermStep scopeSymb x t ctx tok with
    | .more st ctx' => TermInv (as ++ bs ++ [tok]) st ctx'.stack
    | .done t' ctx' => GTerm (as ++ bs) t' ∧ ctx'.stack = []
    | .err _ _ => True := by
  obtain ⟨cs, rfl, hg⟩ := ht
  simp only at hg
  have other : (match (match x with
      | some _ => TRes.err TermError.abstWithoutRhs ctx
      | none => closeStep t ctx tok) with
    | .more st ctx' => TermInv (as ++ (binderToks x ++ cs) ++ [tok]) st ctx'.stack
    | .done t' ctx' => GTerm (as ++ (binderToks x ++ cs)) t' ∧ ctx'.stack = []
    | .err _ _ => True) := by
    cases x with
    | some x => trivial
    | none => exact closeStep_sound h (.app hg)
  cases tok with
  | symb s => exact ⟨as, binderToks x ++ (cs ++ [.symb s]), by simp, h, _, rfl, hg.pushSymb s⟩
  | arrow => exact ⟨as ++ (binderToks x ++ cs) ++ [.arrow], [], by simp, by rw [← List.append_assoc]; exact .prod h hg, rfl⟩
  | fatArrow =>
    cases x with
    | none => trivial
    | some x => exact ⟨as ++ (binderToks (some x) ++ cs) ++ [.fatArrow], [], by simp, .abstTy h hg, rfl⟩
  | lpar => exact ⟨as ++ (binderToks x ++ cs) ++ [.lpar], [], by simp, .lpar (l := ⟨x, some t⟩) h ⟨cs, rfl, hg⟩, rfl⟩
  | _ => exact other

theorem tstep_sound {ts : List Token} {ctx : PCtx PSymb} {st : TState PSymb} {tok : Token} (h : TermInv ts st ctx.stack) :
    match tstep scopeSymb ctx tok st with
    | .more st' ctx' => TermInv (ts ++ [tok]) st' ctx'.stack
    | .done t ctx' => GTerm ts t ∧ ctx'.stack = []
    | .err _ _ => True := by
  obtain ⟨as, bs, rfl, ho, hst⟩ := h
  cases st with
  | init =>
    simp only [TState.Of] at hst
    subst hst
    cases tok with
    | symb s =>
      simp only [tstep, symbState]
      obtain ⟨p, n⟩ := s
      cases p with
      | nil => exact ⟨as, [nameTok n], by simp [nameTok], ho, rfl⟩
      | cons a p => exact ⟨as, [.symb ⟨a :: p, n⟩], by simp, ho, _, rfl, .symb⟩
    | lpar => exact ⟨as ++ [] ++ [.lpar], [], by simp, .lpar (l := ⟨none, none⟩) ho ⟨[], rfl, rfl⟩, rfl⟩
    | _ => trivial
  | symb s =>
    simp only [TState.Of] at hst
    subst hst
    have := atermStep_sound (x := none) (tok := tok) ho ⟨[nameTok s], rfl, .symb⟩
    cases tok with
    | fatArrow => exact ⟨as ++ [nameTok s, .fatArrow], [], by simp, .abst ho, rfl⟩
    | colon => exact ⟨as, [nameTok s, .colon], by simp, ho, [], by simp [binderToks], rfl⟩
    | _ => exact this
  | varof v =>
    obtain ⟨cs, rfl, hc⟩ := hst
    simp only at hc
    subst hc
    cases tok with
    | symb s => exact ⟨as, binderToks (some v) ++ [.symb s], by simp, ho, _, rfl, .symb⟩
    | lpar => exact ⟨as ++ (binderToks (some v) ++ []) ++ [.lpar], [], by simp, .lpar (l := ⟨some v, none⟩) ho ⟨[], rfl, rfl⟩, rfl⟩
    | _ => trivial
  | aterm x t => exact atermStep_sound ho hst

/-! ## Commands -/

theorem GArgs.snoc {ts us : List Token} {as : List (Str × PTerm PSymb)} (h : GArgs ts as) {x : Str} {t : PTerm PSymb} (ht : GTerm us t) :
    GArgs (ts ++ .lpar :: nameTok x :: .colon :: us ++ [.rpar]) (as ++ [(x, t)]) := by
  induction h with
  | nil => exact .cons ht .nil
  | @cons y ts us' t' as h' _ ih =>
    have := GArgs.cons (x := y) h' ih
    simpa using this

/-- variables, each followed by a comma -/
inductive VarsOpen : List Token → List (Str × Option (PTerm PSymb)) → Prop
  | nil : VarsOpen [] []
  | snoc {ts us : List Token} {vs : List (Str × Option (PTerm PSymb))} {v : Str × Option (PTerm PSymb)} : VarsOpen ts vs → GVar us v →
      VarsOpen (ts ++ us ++ [.comma]) (vs ++ [v])

theorem VarsOpen.append {ts us : List Token} {vs ws : List (Str × Option (PTerm PSymb))} (h : VarsOpen ts vs) (h' : GVars us ws) :
    GVars (ts ++ us) (vs ++ ws) := by
  induction h generalizing us ws with
  | nil => exact h'
  | snoc _ hv ih =>
    have := ih (.cons hv h')
    simpa using this

theorem GRules.snoc {ts as bs cs : List Token} {rs : List (PRule (PTerm PSymb))} {vs : List (Str × Option (PTerm PSymb))} {l r : PTerm PSymb}
    (h : GRules ts rs) (h1 : GVars as vs) (h2 : GTerm bs l) (h3 : GTerm cs r) :
    GRules (ts ++ .lbrk :: as ++ .rbrk :: bs ++ .longArrow :: cs) (rs ++ [⟨vs, l, r⟩]) := by
  induction h with
  | nil =>
    have := GRules.cons h1 h2 h3 .nil
    simpa using this
  | cons g1 g2 g3 _ ih =>
    have := GRules.cons g1 g2 g3 ih
    simpa using this

/-- the token before the name of a command -/
def prefixToks : Option Prefix → List Token
  | none => []
  | some .def_ => [.def_]
  | some .thm => [.thm]
  | some .inj => [.inj]

/-- the tokens of the beginning of a command -/
def ArgsOf (ts : List Token) (p : Option Prefix) (s : Str) (bound : List Str) (ctx : List (PTerm PSymb)) : Prop :=
  ∃ as, ts = prefixToks p ++ nameTok s :: as ∧ bound.length = ctx.length ∧ GArgs as (bound.zip ctx)

/-- the tokens of a name in parentheses or brackets, up to the colon -/
def varToks : Option (Str × Bool) → List Token
  | none => []
  | some (x, false) => [nameTok x]
  | some (x, true) => [nameTok x, .colon]

/-- the tokens of the state of the command parser -/
def CState.Of (ts : List Token) (bound : List Str) : CState (PTerm PSymb) → Prop
  | .init => ts = [] ∧ bound = []
  | .prefix_ p => ts = prefixToks (some p) ∧ bound = []
  | .args p s ctx none => ArgsOf ts p s bound ctx
  | .args p s ctx (some .of) => ∃ as, ts = as ++ [.colon] ∧ ArgsOf as p s bound ctx
  | .args p s ctx (some .eq) => ∃ as, ts = as ++ [.colonEq] ∧ p = some .def_ ∧ ArgsOf as p s bound ctx
  | .argsIn p s ctx x => ∃ as, ts = as ++ .lpar :: varToks x ∧ ArgsOf as p s bound ctx
  | .ofEq p s ctx ty => ∃ as bs, ts = as ++ .colon :: bs ++ [.colonEq] ∧ ArgsOf as p s bound ctx ∧ GTerm bs ty
  | .ruleCtx c x => ∃ as bs, ts = as ++ .lbrk :: bs ++ varToks x ∧ GRules as c.rules ∧ bound.length = c.vars.length ∧
      VarsOpen bs (bound.zip c.vars)
  | .ruleL c => ∃ as bs b, bound = joker :: b ∧ ts = as ++ .lbrk :: bs ++ [.rbrk] ∧ GRules as c.rules ∧ b.length = c.vars.length ∧
      GVars bs (b.zip c.vars)
  | .ruleR c lhs => ∃ as bs cs, ts = as ++ .lbrk :: bs ++ .rbrk :: cs ++ [.longArrow] ∧ GRules as c.rules ∧ bound.length = c.vars.length ∧
      GVars bs (bound.zip c.vars) ∧ GTerm cs lhs
  | .pragma => (∃ ps, ts = .hash :: ps ∧ .dot ∉ ps) ∧ bound = []
  | .command c => (∃ as, ts = as ++ [.dot] ∧ GCmd as c) ∧ bound = []

/-- what a state answers: the tokens of a pragma are forgotten at its end -/
def CState.After (ts : List Token) (bound : List Str) (st : CState (PTerm PSymb)) : Prop :=
  st.Of ts bound ∨ (st = .init ∧ bound = [] ∧ ∃ ps, ts = .hash :: ps ++ [.dot] ∧ .dot ∉ ps)

theorem parse_sound {ts : List Token} {bound bound' : List Str} {st st' : CState (PTerm PSymb)} {tok : Token} (h : st.Of ts bound)
    (he : st.parse bound tok = (.ok st', bound')) : st'.After (ts ++ [tok]) bound' := by
  have hsymb : ∀ (s : PSymb) (st : CState (PTerm PSymb)), st.Of ts bound → st ≠ .pragma →
      (if s.path.isEmpty then (st.applyName s.name, bound) else (.err .unexpectedPath, bound)) = (.ok st', bound') →
      st'.After (ts ++ [.symb s]) bound' := by
    rintro ⟨path, name⟩ st h hp he
    left
    cases path with
    | cons a p => cases he
    | nil =>
      rcases st with _ | p | ⟨_, _, _, _ | _⟩ | ⟨_, _, _, _ | _⟩ | _ | ⟨_, _ | _⟩ | _ | _ | _ | _ <;> cases he
      · obtain ⟨rfl, rfl⟩ := h
        exact ⟨[], rfl, rfl, .nil⟩
      · obtain ⟨rfl, rfl⟩ := h
        exact ⟨[], by cases p <;> rfl, rfl, .nil⟩
      · obtain ⟨as, rfl, ha⟩ := h
        exact ⟨as, by simp [varToks, nameTok], ha⟩
      · obtain ⟨as, bs, rfl, ha⟩ := h
        exact ⟨as, bs, by simp [varToks, nameTok], ha⟩
  rcases st with _ | _ | ⟨p, s, c, _ | _ | _⟩ | ⟨p, _, _, _ | ⟨_, _ | _⟩⟩ | ⟨p, _, _, _⟩ | ⟨c, _ | ⟨x, _ | _⟩⟩ | _ | _ | _ | _
  case pragma =>
    obtain ⟨⟨ps, rfl, hps⟩, rfl⟩ := h
    by_cases hd : tok = .dot
    · subst hd; cases he
      exact .inr ⟨rfl, rfl, ps, rfl, hps⟩
    · have : st' = .pragma ∧ bound' = [] := by
        cases tok <;> first | exact absurd rfl hd | (cases he; exact ⟨rfl, rfl⟩)
      obtain ⟨rfl, rfl⟩ := this
      exact .inl ⟨⟨ps ++ [tok], rfl, by simp [hps, Ne.symm hd]⟩, rfl⟩
  case init =>
    cases tok <;> first
      | exact hsymb _ _ h (fun e => nomatch e) he
      | (cases he; obtain ⟨rfl, rfl⟩ := h; exact .inl ⟨rfl, rfl⟩)
      | (cases he; obtain ⟨rfl, rfl⟩ := h; exact .inl ⟨[], [], rfl, .nil, rfl, .nil⟩)
      | (cases he; obtain ⟨rfl, rfl⟩ := h; exact .inl ⟨⟨[], rfl, by simp⟩, rfl⟩)
      | cases he
  case args.none =>
    rcases p with _ | _ | _ | _ <;> cases tok <;> first
      | exact hsymb _ _ h (fun e => nomatch e) he
      | (cases he; exact .inl ⟨ts, rfl, h⟩)
      | (cases he; exact .inl ⟨ts, rfl, rfl, h⟩)
      | cases he
  case argsIn.some.false =>
    cases tok <;> first
      | exact hsymb _ _ h (fun e => nomatch e) he
      | (cases he; obtain ⟨as, rfl, ha⟩ := h; exact .inl ⟨as, by simp [varToks], ha⟩)
      | cases he
  case ruleCtx.none =>
    cases tok <;> first
      | exact hsymb _ _ h (fun e => nomatch e) he
      | (cases he
         obtain ⟨as, bs, rfl, hr, hl, hv⟩ := h
         exact .inl ⟨as, bs, bound, rfl, by simp [varToks], hr, hl, by simpa using hv.append .nil⟩)
      | cases he
  case ruleCtx.some.false =>
    have hz : bound.length = c.vars.length → (bound ++ [x]).zip (c.vars ++ [none]) = bound.zip c.vars ++ [(x, none)] := by
      intro hl
      rw [List.zip_append hl]; rfl
    cases tok <;> first
      | exact hsymb _ _ h (fun e => nomatch e) he
      | (cases he; obtain ⟨as, bs, rfl, ha⟩ := h; exact .inl ⟨as, bs, by simp [varToks], ha⟩)
      | (cases he
         obtain ⟨as, bs, rfl, hr, hl, hv⟩ := h
         refine .inl ⟨as, bs ++ [nameTok x] ++ [.comma], by simp [varToks], hr, by simp [RuleCtx.pushVar, hl], ?_⟩
         rw [RuleCtx.pushVar, hz hl]
         exact .snoc hv .name)
      | (cases he
         obtain ⟨as, bs, rfl, hr, hl, hv⟩ := h
         refine .inl ⟨as, bs ++ [nameTok x], bound ++ [x], rfl, by simp [varToks], hr, by simp [RuleCtx.pushVar, hl], ?_⟩
         rw [RuleCtx.pushVar, hz hl]
         exact hv.append (.one .name))
      | cases he
  case args.some.of | args.some.eq | ofEq =>
    rcases p with _ | _ | _ | _ <;> cases tok <;> first
      | exact hsymb _ _ h (fun e => nomatch e) he
      | cases he
  all_goals
    cases tok <;> first
      | exact hsymb _ _ h (fun e => nomatch e) he
      | cases he

theorem close_sound {as bs : List Token} {bound bound' : List Str} {st : CState (PTerm PSymb)} {t : PTerm PSymb} {c : PCmd (PTerm PSymb)}
    (h : st.Of as bound) (ht : GTerm bs t) (he : st.close bound t = (.ok c, bound')) : GCmd (as ++ bs) c ∧ bound' = [] := by
  rcases st with _ | _ | ⟨_ | _ | _ | _, s, cs, _ | _ | _⟩ | ⟨_, _, _, _ | ⟨_, _ | _⟩⟩ | ⟨_ | _ | _ | _, s, cs, ty⟩ | ⟨_, _ | ⟨_, _ | _⟩⟩ | _ | _ | _ | _ <;>
    cases he
  · obtain ⟨ds, rfl, es, rfl, hl, ha⟩ := h
    exact ⟨by simpa [prefixToks] using GCmd.decl (x := s) ha ht, rfl⟩
  · obtain ⟨ds, rfl, es, rfl, hl, ha⟩ := h
    exact ⟨by simpa [prefixToks] using GCmd.defTy (x := s) ha ht, rfl⟩
  · obtain ⟨ds, rfl, _, es, rfl, hl, ha⟩ := h
    exact ⟨by simpa [prefixToks] using GCmd.defTm (x := s) ha ht, rfl⟩
  · obtain ⟨ds, rfl, es, rfl, hl, ha⟩ := h
    exact ⟨by simpa [prefixToks] using GCmd.inj (x := s) ha ht, rfl⟩
  · obtain ⟨ds, fs, rfl, ⟨es, rfl, hl, ha⟩, hty⟩ := h
    exact ⟨by simpa [prefixToks] using GCmd.defBoth (x := s) ha hty ht, rfl⟩
  · obtain ⟨ds, fs, rfl, ⟨es, rfl, hl, ha⟩, hty⟩ := h
    exact ⟨by simpa [prefixToks] using GCmd.thm (x := s) ha hty ht, rfl⟩
  · obtain ⟨ds, es, fs, rfl, hr, hl, hv, hlhs⟩ := h
    refine ⟨?_, rfl⟩
    have := GCmd.rules (by simp) (GRules.snoc hr hv hlhs ht)
    simpa [RuleCtx.add] using this

theorem apply_sound {as bs : List Token} {bound bound' : List Str} {st st' : CState (PTerm PSymb)} {t : PTerm PSymb} {tok : Token}
    (h : st.Of as bound) (ht : GTerm bs t) (he : st.apply bound t tok = (.ok st', bound')) : st'.Of (as ++ bs ++ [tok]) bound' := by
  have hdot : ∀ st : CState (PTerm PSymb), st.Of as bound → (match st.close bound t with
      | (.ok c, bound) => ((.ok (.command c), bound) : POut CmdError (CState (PTerm PSymb)) × List Str)
      | (.err e, bound) => (.err e, bound)
      | (.panic, bound) => (.panic, bound)) = (.ok st', bound') → st'.Of (as ++ bs ++ [.dot]) bound' := by
    intro st h
    cases hc : st.close bound t with
    | mk r b =>
      cases r with
      | ok c =>
        intro he; cases he
        have := close_sound h ht hc
        exact ⟨⟨as ++ bs, rfl, this.1⟩, this.2⟩
      | err e => intro he; cases he
      | panic => intro he; cases he
  rcases st with _ | _ | ⟨p, s, c, _ | _ | _⟩ | ⟨p, s, c, _ | ⟨x, _ | _⟩⟩ | ⟨p, _, _, _⟩ | ⟨c, _ | ⟨x, _ | _⟩⟩ | c | ⟨c, l⟩ | _ | _
  case argsIn.some.true =>
    cases tok <;> first
      | (cases he
         obtain ⟨ds, rfl, es, rfl, hl, ha⟩ := h
         refine ⟨es ++ .lpar :: nameTok x :: .colon :: bs ++ [.rpar], by simp [varToks], by simp [hl], ?_⟩
         rw [List.zip_append hl]
         exact ha.snoc ht)
      | cases he
  case ruleL =>
    obtain ⟨ds, es, b, rfl, rfl, hr, hl, hv⟩ := h
    cases tok <;> cases he
    exact ⟨ds, es, bs, by simp, hr, hl, hv, ht⟩
  case ruleR =>
    cases tok <;> first
      | exact hdot _ h he
      | (cases he
         obtain ⟨ds, es, fs, rfl, hr, hl, hv, hlhs⟩ := h
         refine ⟨ds ++ .lbrk :: es ++ .rbrk :: fs ++ .longArrow :: bs, [], by simp [varToks], ?_, rfl, .nil⟩
         exact GRules.snoc hr hv hlhs ht)
      | cases he
  case ruleCtx.some.true =>
    have hz : bound.length = c.vars.length → (bound ++ [x]).zip (c.vars ++ [some t]) = bound.zip c.vars ++ [(x, some t)] := by
      intro hl
      rw [List.zip_append hl]; rfl
    cases tok <;> first
      | exact hdot _ h he
      | (cases he
         obtain ⟨ds, es, rfl, hr, hl, hv⟩ := h
         refine ⟨ds, es ++ (nameTok x :: .colon :: bs) ++ [.comma], by simp [varToks], hr, by simp [RuleCtx.pushVar, hl], ?_⟩
         rw [RuleCtx.pushVar, hz hl]
         exact .snoc hv (.typed ht))
      | (cases he
         obtain ⟨ds, es, rfl, hr, hl, hv⟩ := h
         refine ⟨ds, es ++ (nameTok x :: .colon :: bs), bound ++ [x], rfl, by simp [varToks], hr, by simp [RuleCtx.pushVar, hl], ?_⟩
         rw [RuleCtx.pushVar, hz hl]
         exact hv.append (.one (.typed ht)))
      | cases he
  case args.some.of =>
    rcases p with _ | _ | _ | _ <;> cases tok <;> first
      | exact hdot _ h he
      | (cases he
         obtain ⟨ds, rfl, ha⟩ := h
         exact ⟨ds, bs, by simp, ha, ht⟩)
      | cases he
  case args.some.eq =>
    rcases p with _ | _ | _ | _ <;> cases tok <;> first
      | exact hdot _ h he
      | cases he
  case args.none | ofEq =>
    rcases p with _ | _ | _ | _ <;> cases tok <;> first
      | exact hdot _ h he
      | cases he
  all_goals
    cases tok <;> first
      | exact hdot _ h he
      | cases he

/-- the tokens of the whole state -/
def PState.Of (ts : List Token) (st : PState PSymb) (ctx : PCtx PSymb) : Prop :=
  ∃ as bs, ts = as ++ bs ∧ st.cmd.Of as ctx.bound ∧
    if st.cmd.expectsTerm then TermInv bs st.trm ctx.stack else bs = [] ∧ st.trm = .init ∧ ctx.stack = []

theorem PState.Of.start : PState.new.Of [] PCtx.new := ⟨[], [], rfl, ⟨rfl, rfl⟩, rfl, rfl, rfl⟩

theorem CState.Of.fresh {ts : List Token} {ctx : PCtx PSymb} {st : CState (PTerm PSymb)} (h : st.Of ts ctx.bound) (hs : ctx.stack = []) :
    PState.Of ts ⟨st, .init⟩ ctx := by
  refine ⟨ts, [], by simp, h, ?_⟩
  split
  · rw [hs]; exact .start
  · exact ⟨rfl, rfl, hs⟩

theorem cmdRes_sound {ts : List Token} {ctx : PCtx PSymb} {r : POut CmdError (CState (PTerm PSymb)) × List Str} (hs : ctx.stack = [])
    (h : ∀ st bound, r = (.ok st, bound) → st.After ts bound) : match cmdRes ctx r with
    | .more st' ctx' => st'.Of ts ctx' ∨ (st' = PState.new ∧ ctx' = PCtx.new ∧ ∃ ps, ts = .hash :: ps ++ [.dot] ∧ .dot ∉ ps)
    | .cmd c ctx' => (∃ as, ts = as ++ [.dot] ∧ GCmd as c) ∧ ctx' = PCtx.new
    | _ => True := by
  obtain ⟨r, b⟩ := r
  cases r with
  | err e => trivial
  | panic => trivial
  | ok st =>
    have := h st b rfl
    cases st with
    | command c =>
      rcases this with ⟨h1, rfl⟩ | ⟨h1, _⟩
      · exact ⟨h1, by simp [PCtx.new, hs]⟩
      · cases h1
    | init =>
      rcases this with h1 | ⟨_, rfl, h1⟩
      · exact .inl (CState.Of.fresh (ctx := { ctx with bound := b }) h1 hs)
      · exact .inr ⟨rfl, by simp [PCtx.new, hs], h1⟩
    | _ =>
      rcases this with h1 | ⟨h1, _⟩
      · exact .inl (CState.Of.fresh (ctx := { ctx with bound := b }) h1 hs)
      · cases h1

theorem pstep_sound {ts : List Token} {ctx : PCtx PSymb} {st : PState PSymb} {tok : Token} (h : st.Of ts ctx) :
    match pstep scopeSymb ctx st tok with
    | .more st' ctx' => st'.Of (ts ++ [tok]) ctx' ∨ (st' = PState.new ∧ ctx' = PCtx.new ∧ ∃ ps, ts ++ [tok] = .hash :: ps ++ [.dot] ∧ .dot ∉ ps)
    | .cmd c ctx' => (∃ as, ts ++ [tok] = as ++ [.dot] ∧ GCmd as c) ∧ ctx' = PCtx.new
    | _ => True := by
  obtain ⟨as, bs, rfl, hc, ht⟩ := h
  unfold pstep
  cases he : st.cmd.expectsTerm with
  | true =>
    rw [he] at ht
    simp only [if_true] at ht ⊢
    have hs := tstep_sound (tok := tok) ht
    have hb := tstep_bound scopeSymb ctx tok st.trm
    revert hs hb
    cases tstep scopeSymb ctx tok st.trm with
    | more trm ctx1 =>
      intro hs hb
      refine .inl ⟨as, bs ++ [tok], by simp, ?_, ?_⟩
      · have hb : ctx1.bound = ctx.bound := hb
        rw [hb]; exact hc
      · simp only [he, if_true]; exact hs
    | done t ctx1 =>
      rintro ⟨hs, hst⟩ hb
      have hb : ctx1.bound = ctx.bound := hb
      exact cmdRes_sound hst fun st' b' e => .inl (apply_sound (hb ▸ hc) hs e)
    | err e ctx1 => exact fun _ _ => trivial
  | false =>
    rw [he] at ht
    simp only [Bool.false_eq_true, if_false] at ht ⊢
    obtain ⟨rfl, h1, h2⟩ := ht
    rw [h1, List.append_nil]
    exact cmdRes_sound h2 fun st' b' e => parse_sound hc e

/-! ## Texts -/

theorem GText.append {ts us : List Token} {cs ds : List (PCmd (PTerm PSymb))} (h : GText ts cs) (h' : GText us ds) : GText (ts ++ us) (cs ++ ds) := by
  induction h with
  | nil => exact h'
  | cmd hc _ ih => simpa using GText.cmd hc ih
  | pragma hp _ ih => simpa using GText.pragma hp ih

/-- what was read is a text and the beginning of a command -/
theorem pRun_sound (ts us : List Token) {st st' : PState PSymb} {ctx ctx' : PCtx PSymb} {cs : List (PCmd (PTerm PSymb))} (h : st.Of us ctx)
    (hr : pRun scopeSymb st ctx ts = (cs, .more st' ctx')) :
    ∃ as bs, us ++ ts.filter Token.plain = as ++ bs ∧ GText as cs ∧ st'.Of bs ctx' := by
  induction ts generalizing us st ctx cs with
  | nil => cases hr; exact ⟨[], us, by simp, .nil, h⟩
  | cons tok ts ih =>
    rcases hp : tok.plain with _ | _
    · obtain ⟨o, rfl⟩ := Token.not_plain hp
      rw [pRun_comment] at hr
      rw [List.filter_cons_of_neg (by simp [Token.plain])]
      exact ih us h hr
    · rw [pRun_cons _ _ _ _ _ hp] at hr
      rw [List.filter_cons_of_pos hp]
      have hs := pstep_sound (tok := tok) h
      revert hs hr
      cases pstep scopeSymb ctx st tok with
      | more st1 ctx1 =>
        intro hr hs
        rcases hs with hs | ⟨rfl, rfl, ps, hps, hd⟩
        · obtain ⟨as, bs, h1, h2, h3⟩ := ih _ hs hr
          exact ⟨as, bs, by simpa using h1, h2, h3⟩
        · obtain ⟨as, bs, h1, h2, h3⟩ := ih [] .start hr
          refine ⟨us ++ [tok] ++ as, bs, by simpa using h1, ?_, h3⟩
          rw [hps]
          simpa using GText.pragma hd h2
      | cmd c ctx1 =>
        rintro hr ⟨⟨as, ha, hc⟩, rfl⟩
        simp only [Prod.mk.injEq] at hr
        obtain ⟨rfl, hr⟩ := hr
        obtain ⟨ds, bs, h1, h2, h3⟩ := ih [] .start (Prod.ext rfl hr)
        refine ⟨us ++ [tok] ++ ds, bs, by simpa using h1, ?_, h3⟩
        rw [ha]
        simpa using GText.cmd hc h2
      | err e ctx1 => intro hr; cases hr
      | panic ctx1 => intro hr; cases hr

end Kontroli
