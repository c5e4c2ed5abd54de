import Verif.Proofs.LexSymb
import Verif.Proofs.ParseClean
import Verif.Spec.Print

/-! # Printed terms and commands: their tokens, and what the parser makes of them -/

namespace Kontroli

mutual
  /-- the tokens of a printed term -/
  def PTerm.toks : PTerm PSymb → List Token
    | .app h [] => h.toks
    | .app h (a :: as) => .lpar :: (h.toks ++ (a.toks ++ (argsToks as ++ [.rpar])))

  /-- the tokens of a printed head -/
  def PHead.toks : PHead PSymb → List Token
    | .atom s => [.symb s]
    | .abst x none tm => .lpar :: .symb (PSymb.new x) :: .fatArrow :: (tm.toks ++ [.rpar])
    | .abst x (some ty) tm => .lpar :: .symb (PSymb.new x) :: .colon :: (ty.toks ++ .fatArrow :: (tm.toks ++ [.rpar]))
    | .prod none ty tm => .lpar :: (ty.toks ++ .arrow :: (tm.toks ++ [.rpar]))
    | .prod (some x) ty tm => .lpar :: .symb (PSymb.new x) :: .colon :: (ty.toks ++ .arrow :: (tm.toks ++ [.rpar]))

  /-- the tokens of printed arguments -/
  def argsToks : List (PTerm PSymb) → List Token
    | [] => []
    | a :: as => a.toks ++ argsToks as
end

/-! ## Lexing -/

theorem comp_head {c : Str} (h : IsComp c) : ∃ a r, c = a :: r ∧ a ≠ ';' := by
  rcases h with ⟨a, r, rfl, ha, _⟩ | ⟨b, rfl, _⟩
  · refine ⟨a, _, rfl, ?_⟩
    rintro rfl
    rw [← identHead_iff] at ha
    revert ha
    decide
  · exact ⟨'{', _, rfl, by decide⟩

theorem symb_head {s : PSymb} (h : ValidSymb s) : ∃ a r, s.display = a :: r ∧ a ≠ ';' := by
  obtain ⟨c, cs, h1, h2, _⟩ := display_dots s
  have hc : IsComp c := by
    have : c ∈ s.path ++ [s.name] := h2 ▸ .head _
    rcases List.mem_append.1 this with h' | h'
    · exact h.1 c h'
    · simp at h'; exact h' ▸ h.2.1
  obtain ⟨a, r, rfl, ha⟩ := comp_head hc
  exact ⟨a, _, h1, ha⟩

theorem ValidName.symb {x : Str} (h : ValidName x) : ValidSymb (PSymb.new x) :=
  ⟨fun _ hc => (by cases hc), h.1, fun c hc => (by cases hc; exact h.2)⟩

theorem lex_name {x : Str} (h : ValidName x) {u : Str} (hu : EndsSymb u) : lex (x ++ u) = .symb (PSymb.new x) :: lex u :=
  lex_symb h.symb hu

theorem PTerm.show_head {t : PTerm PSymb} (h : t.Valid) : ∃ a r, t.show = a :: r ∧ a ≠ ';' := by
  obtain ⟨hd, args⟩ := t
  cases args with
  | cons a as => exact ⟨'(', _, rfl, by decide⟩
  | nil =>
    cases hd with
    | atom s =>
      obtain ⟨a, r, h1, h2⟩ := symb_head h.1
      refine ⟨a, r, ?_, h2⟩
      simp [PTerm.display, PHead.display, displayArgs, h1]
    | abst x ty tm => cases ty <;> exact ⟨'(', _, rfl, by decide⟩
    | prod x ty tm => cases x <;> exact ⟨'(', _, rfl, by decide⟩

theorem lex_lpar {u : Str} (h : ∃ a r, u = a :: r ∧ a ≠ ';') : lex ('(' :: u) = .lpar :: lex u := by
  obtain ⟨a, r, rfl, ha⟩ := h
  exact lex_step (lexStep.eq_6 _ fun s hs => ha (by cases hs; rfl))

theorem endsSymb_space (u : Str) : EndsSymb (' ' :: u) := ⟨by decide, by decide⟩
theorem endsSymb_rpar (u : Str) : EndsSymb (')' :: u) := ⟨by decide, by decide⟩

theorem lex_sp (u : Str) : lex (' ' :: u) = lex u := lex_space' (by decide)
theorem lex_rpar (u : Str) : lex (')' :: u) = .rpar :: lex u := lex_step rfl
theorem lex_colon (u : Str) : lex (':' :: ' ' :: u) = .colon :: lex u := (lex_step rfl).trans (congrArg _ (lex_sp u))
theorem lex_fatArrow (u : Str) : lex ('=' :: '>' :: u) = .fatArrow :: lex u := lex_step rfl
theorem lex_arrow (u : Str) : lex ('-' :: '>' :: u) = .arrow :: lex u := lex_step rfl

theorem head_append {s u : Str} (h : ∃ a r, s = a :: r ∧ a ≠ ';') : ∃ a r, s ++ u = a :: r ∧ a ≠ ';' := by
  obtain ⟨a, r, rfl, ha⟩ := h
  exact ⟨a, r ++ u, rfl, ha⟩

mutual
  theorem PTerm.lex_show (t : PTerm PSymb) (h : t.Valid) (u : Str) (hu : EndsSymb u) : lex (t.show ++ u) = t.toks ++ lex u := by
    match t, h with
    | .app hd [], h =>
      simp only [PTerm.show, PTerm.display, displayArgs, List.isEmpty_nil, if_true, List.nil_append, List.append_nil, PTerm.toks]
      exact PHead.lex_show hd h.1 u hu
    | .app hd (a :: as), h =>
      have e : (PTerm.app hd (a :: as)).show ++ u = '(' :: (hd.display PSymb.display ++ ' ' :: (a.show ++ (displayArgs PSymb.display as ++ ')' :: u))) := by
        simp [PTerm.show, PTerm.display, displayArgs, str]
      have hh : ∃ c r, hd.display PSymb.display = c :: r ∧ c ≠ ';' := by
        have := PTerm.show_head (t := .app hd []) ⟨h.1, trivial⟩
        simpa [PTerm.show, PTerm.display, displayArgs] using this
      have h1 := PHead.lex_show hd h.1 (' ' :: (a.show ++ (displayArgs PSymb.display as ++ ')' :: u))) (endsSymb_space _)
      have he : EndsSymb (displayArgs PSymb.display as ++ ')' :: u) := by
        cases as with
        | nil => exact endsSymb_rpar _
        | cons b bs => exact endsSymb_space _
      have h2 := PTerm.lex_show a h.2.1 _ he
      have h3 := args_lex_show as h.2.2 (')' :: u) (endsSymb_rpar _)
      rw [e, lex_lpar (head_append hh), h1, lex_sp, h2, h3, lex_rpar]
      simp [PTerm.toks]

  theorem PHead.lex_show (t : PHead PSymb) (h : t.Valid) (u : Str) (hu : EndsSymb u) :
      lex (t.display PSymb.display ++ u) = t.toks ++ lex u := by
    match t, h with
    | .atom s, h => exact lex_symb h hu
    | .abst x none tm, h =>
      have e : (PHead.abst x none tm).display PSymb.display ++ u = '(' :: (x ++ ' ' :: '=' :: '>' :: ' ' :: (tm.show ++ ')' :: u)) := by
        simp [PHead.display, str]
      have h1 := PTerm.lex_show tm h.2 (')' :: u) (endsSymb_rpar _)
      rw [e, lex_lpar (head_append (comp_head h.1.1)), lex_name h.1 (endsSymb_space _), lex_sp, lex_fatArrow, lex_sp, h1, lex_rpar]
      simp [PHead.toks]
    | .abst x (some ty) tm, h =>
      have e : (PHead.abst x (some ty) tm).display PSymb.display ++ u =
          '(' :: (x ++ ' ' :: ':' :: ' ' :: (ty.show ++ ' ' :: '=' :: '>' :: ' ' :: (tm.show ++ ')' :: u))) := by
        simp [PHead.display, str]
      have h1 := PTerm.lex_show tm h.2.2 (')' :: u) (endsSymb_rpar _)
      have h2 := PTerm.lex_show ty h.2.1 (' ' :: '=' :: '>' :: ' ' :: (tm.show ++ ')' :: u)) (endsSymb_space _)
      rw [e, lex_lpar (head_append (comp_head h.1.1)), lex_name h.1 (endsSymb_space _), lex_sp, lex_colon, h2, lex_sp, lex_fatArrow, lex_sp,
        h1, lex_rpar]
      simp [PHead.toks]
    | .prod none ty tm, h =>
      have e : (PHead.prod none ty tm).display PSymb.display ++ u = '(' :: (ty.show ++ ' ' :: '-' :: '>' :: ' ' :: (tm.show ++ ')' :: u)) := by
        simp [PHead.display, str]
      have h1 := PTerm.lex_show tm h.2 (')' :: u) (endsSymb_rpar _)
      have h2 := PTerm.lex_show ty h.1 (' ' :: '-' :: '>' :: ' ' :: (tm.show ++ ')' :: u)) (endsSymb_space _)
      rw [e, lex_lpar (head_append (PTerm.show_head h.1)), h2, lex_sp, lex_arrow, lex_sp, h1, lex_rpar]
      simp [PHead.toks]
    | .prod (some x) ty tm, h =>
      have e : (PHead.prod (some x) ty tm).display PSymb.display ++ u =
          '(' :: (x ++ ' ' :: ':' :: ' ' :: (ty.show ++ ' ' :: '-' :: '>' :: ' ' :: (tm.show ++ ')' :: u))) := by
        simp [PHead.display, str]
      have h1 := PTerm.lex_show tm h.2.2 (')' :: u) (endsSymb_rpar _)
      have h2 := PTerm.lex_show ty h.2.1 (' ' :: '-' :: '>' :: ' ' :: (tm.show ++ ')' :: u)) (endsSymb_space _)
      rw [e, lex_lpar (head_append (comp_head h.1.1)), lex_name h.1 (endsSymb_space _), lex_sp, lex_colon, h2, lex_sp, lex_arrow, lex_sp,
        h1, lex_rpar]
      simp [PHead.toks]

  theorem args_lex_show (as : List (PTerm PSymb)) (h : ValidArgs as) (u : Str) (hu : EndsSymb u) :
      lex (displayArgs PSymb.display as ++ u) = argsToks as ++ lex u := by
    match as, h with
    | [], _ => rfl
    | a :: as, h =>
      have e : displayArgs PSymb.display (a :: as) ++ u = ' ' :: (a.show ++ (displayArgs PSymb.display as ++ u)) := by
        simp [displayArgs, str]
      have he : EndsSymb (displayArgs PSymb.display as ++ u) := by
        cases as with
        | nil => exact hu
        | cons b bs => exact endsSymb_space _
      have h1 := PTerm.lex_show a h.1 _ he
      have h2 := args_lex_show as h.2 u hu
      rw [e, lex_sp, h1, h2]
      simp [argsToks]
end

/-! ## Parsing terms -/

/-- what is made of a term in parentheses -/
def LPar.close (l : LPar PSymb) (t : PTerm PSymb) : PTerm PSymb :=
  match l.app with
  | none => t
  | some app => app.pushArg t

/-- A token after which a name is a term. -/
def Token.after (tok : Token) : Prop := tok.plain = true ∧ tok ≠ .fatArrow ∧ tok ≠ .colon

theorem tRun_symb {s : PSymb} {ctx : PCtx PSymb} {tok : Token} (h : tok.after) (ts : List Token) :
    tRun scopeSymb .init ctx (.symb s :: tok :: ts) = tRun scopeSymb (.aterm none (.new (.atom s))) ctx (tok :: ts) := by
  obtain ⟨p, n⟩ := s
  cases p with
  | cons a p => rfl
  | nil =>
    obtain ⟨h1, h2, h3⟩ := h
    cases tok <;> first | rfl | (exact absurd rfl h2) | (exact absurd rfl h3) | (cases h1)

/-- what the parser does on the tokens of a term: either it is a name, or it is in parentheses, and the parser closes them -/
def PTerm.Core (t : PTerm PSymb) : Prop := (∃ s, t = .new (.atom s)) ∨ ∃ inner, t.toks = .lpar :: inner ∧
  ∀ (l : LPar PSymb) (bound : List Str) (S : List (Cont PSymb)) (ts : List Token),
    tRun scopeSymb .init ⟨bound, .lpar l :: S⟩ (inner ++ ts) = tRun scopeSymb (.aterm l.x (l.close t)) ⟨bound, S⟩ ts

theorem PTerm.Core.init {t : PTerm PSymb} (h : t.Core) (ctx : PCtx PSymb) {tok : Token} (ht : tok.after) (ts : List Token) :
    tRun scopeSymb .init ctx (t.toks ++ tok :: ts) = tRun scopeSymb (.aterm none t) ctx (tok :: ts) := by
  rcases h with ⟨s, rfl⟩ | ⟨inner, hi, h⟩
  · exact tRun_symb ht ts
  · rw [hi]
    exact h ⟨none, none⟩ ctx.bound ctx.stack (tok :: ts)

theorem PTerm.Core.arg {t : PTerm PSymb} (h : t.Core) (x : Option Str) (app : PTerm PSymb) (ctx : PCtx PSymb) (ts : List Token) :
    tRun scopeSymb (.aterm x app) ctx (t.toks ++ ts) = tRun scopeSymb (.aterm x (app.pushArg t)) ctx ts := by
  rcases h with ⟨s, rfl⟩ | ⟨inner, hi, h⟩
  · rfl
  · rw [hi]
    exact h ⟨x, some app⟩ ctx.bound ctx.stack ts

theorem PTerm.Core.varof {t : PTerm PSymb} (h : t.Core) (v : Str) (ctx : PCtx PSymb) (ts : List Token) :
    tRun scopeSymb (.varof v) ctx (t.toks ++ ts) = tRun scopeSymb (.aterm (some v) t) ctx ts := by
  rcases h with ⟨s, rfl⟩ | ⟨inner, hi, h⟩
  · rfl
  · rw [hi]
    exact h ⟨some v, none⟩ ctx.bound ctx.stack ts

theorem args_run {as : List (PTerm PSymb)} (h : ∀ a ∈ as, a.Core) (x : Option Str) (hd : PHead PSymb) (bs : List (PTerm PSymb))
    (ctx : PCtx PSymb) (ts : List Token) :
    tRun scopeSymb (.aterm x (.app hd bs)) ctx (argsToks as ++ ts) = tRun scopeSymb (.aterm x (.app hd (bs ++ as))) ctx ts := by
  induction as generalizing bs with
  | nil => rw [List.append_nil]; rfl
  | cons a as ih =>
    rw [argsToks, List.append_assoc, (h a (.head _)).arg]
    have := ih (fun a ha => h a (.tail _ ha)) (bs ++ [a])
    rw [List.append_assoc] at this
    exact this

theorem tRun_rpar {t t' : PTerm PSymb} {bound : List Str} {st S : List (Cont PSymb)} {l : LPar PSymb} (ts : List Token)
    (h : reduceStack st t = (some l, t', S)) :
    tRun scopeSymb (.aterm none t) ⟨bound, st⟩ (.rpar :: ts) = tRun scopeSymb (.aterm l.x (l.close t')) ⟨bound, S⟩ ts := by
  rw [tRun_cons _ _ _ _ _ (by simp)]
  simp only [tstep, atermStep, closeStep, h, if_true]
  obtain ⟨x, _ | app⟩ := l <;> rfl

theorem after_rpar : Token.after .rpar := ⟨rfl, by simp, by simp⟩
theorem after_arrow : Token.after .arrow := ⟨rfl, by simp, by simp⟩

theorem toks_head (t : PTerm PSymb) : ∃ tok r, t.toks = tok :: r ∧ tok.after := by
  obtain ⟨hd, _ | ⟨a, as⟩⟩ := t
  · cases hd with
    | atom s => exact ⟨_, _, rfl, rfl, by simp, by simp⟩
    | abst x ty tm => cases ty <;> exact ⟨_, _, rfl, rfl, by simp, by simp⟩
    | prod x ty tm => cases x <;> exact ⟨_, _, rfl, rfl, by simp, by simp⟩
  · exact ⟨_, _, rfl, rfl, by simp, by simp⟩

theorem core_args {hd : PHead PSymb} {a : PTerm PSymb} {as : List (PTerm PSymb)} (h : (PTerm.app hd []).Core) (ha : a.Core)
    (has : ∀ a ∈ as, a.Core) : (PTerm.app hd (a :: as)).Core := by
  refine .inr ⟨_, rfl, fun l bound S ts => ?_⟩
  obtain ⟨tok, r, htk, haf⟩ := toks_head a
  have h1 := h.init ⟨bound, .lpar l :: S⟩ haf (r ++ (argsToks as ++ .rpar :: ts))
  have h2 := ha.arg none (.app hd []) ⟨bound, .lpar l :: S⟩ (argsToks as ++ .rpar :: ts)
  have h3 := args_run has none hd [a] ⟨bound, .lpar l :: S⟩ (.rpar :: ts)
  have e : hd.toks = (PTerm.app hd []).toks := rfl
  simp only [List.append_assoc, List.cons_append, List.nil_append]
  rw [e, htk, List.cons_append, h1, ← List.cons_append, ← htk, h2]
  exact h3.trans (tRun_rpar ts rfl)

mutual
  theorem PTerm.core (t : PTerm PSymb) : t.Core := by
    match t with
    | .app hd [] => exact PHead.core hd
    | .app hd (a :: as) => exact core_args (PHead.core hd) (PTerm.core a) (args_core as)

  theorem PHead.core (hd : PHead PSymb) : (PTerm.app hd []).Core := by
    match hd with
    | .atom s => exact .inl ⟨s, rfl⟩
    | .abst x none tm =>
      refine .inr ⟨_, rfl, fun l bound S ts => ?_⟩
      simp only [List.append_assoc, List.cons_append, List.nil_append]
      exact ((PTerm.core tm).init ⟨bound, .abst x none :: .lpar l :: S⟩ after_rpar ts).trans (tRun_rpar ts rfl)
    | .abst x (some ty) tm =>
      refine .inr ⟨_, rfl, fun l bound S ts => ?_⟩
      simp only [List.append_assoc, List.cons_append, List.nil_append]
      refine ((PTerm.core ty).varof x ⟨bound, .lpar l :: S⟩ _).trans ?_
      exact ((PTerm.core tm).init ⟨bound, .abst x (some ty) :: .lpar l :: S⟩ after_rpar ts).trans (tRun_rpar ts rfl)
    | .prod none ty tm =>
      refine .inr ⟨_, rfl, fun l bound S ts => ?_⟩
      simp only [List.append_assoc, List.cons_append, List.nil_append]
      refine ((PTerm.core ty).init ⟨bound, .lpar l :: S⟩ after_arrow _).trans ?_
      exact ((PTerm.core tm).init ⟨bound, .prod none ty :: .lpar l :: S⟩ after_rpar ts).trans (tRun_rpar ts rfl)
    | .prod (some x) ty tm =>
      refine .inr ⟨_, rfl, fun l bound S ts => ?_⟩
      simp only [List.append_assoc, List.cons_append, List.nil_append]
      refine ((PTerm.core ty).varof x ⟨bound, .lpar l :: S⟩ _).trans ?_
      exact ((PTerm.core tm).init ⟨bound, .prod (some x) ty :: .lpar l :: S⟩ after_rpar ts).trans (tRun_rpar ts rfl)

  theorem args_core (as : List (PTerm PSymb)) : ∀ a ∈ as, a.Core := by
    match as with
    | [] => intro a h; cases h
    | b :: bs =>
      intro a h
      rcases List.mem_cons.1 h with h | h
      · exact h ▸ PTerm.core b
      · exact args_core bs a h
end

/-! ## Parsing commands -/

/-- A token at which a term ends. -/
def Token.ends : Token → Bool
  | .symb _ | .arrow | .fatArrow | .lpar | .colon | .comment _ => false
  | _ => true

theorem Token.ends_after {tok : Token} (h : tok.ends = true) : tok.after := by
  cases tok <;> first | (cases h; done) | exact ⟨rfl, by simp, by simp⟩

/-- what the items are after a step -/
def itemsRes (ts : List Token) : PRes PSymb → List (POut ParseError (PCmd (PTerm PSymb)))
  | .more st ctx => pItems scopeSymb true st ctx ts
  | .cmd c ctx => .ok c :: pItems scopeSymb false PState.new ctx ts
  | .err e ctx => .err e :: pItems scopeSymb false PState.new ctx ts
  | .panic ctx => .panic :: pItems scopeSymb false PState.new ctx ts

theorem pItems_res (seen : Bool) (st : PState PSymb) (ctx : PCtx PSymb) (tok : Token) (ts : List Token) (h : tok.plain = true) :
    pItems scopeSymb seen st ctx (tok :: ts) = itemsRes ts (pstep scopeSymb ctx st tok) := by
  rw [pItems_cons _ _ _ _ _ _ h]
  cases pstep scopeSymb ctx st tok <;> rfl

theorem pItems_tRun {cmd : CState (PTerm PSymb)} (hc : cmd.expectsTerm = true) {trm : TState PSymb} {ctx ctx' : PCtx PSymb}
    {ts ts' : List Token} {t : PTerm PSymb} {tok : Token} (seen : Bool) (ht : tok.plain = true)
    (h : tRun scopeSymb trm ctx ts = (.ok (.aterm none t, some tok), ctx', ts')) :
    pItems scopeSymb seen ⟨cmd, trm⟩ ctx ts = itemsRes ts' (cmdRes ctx' (cmd.apply ctx'.bound t tok)) := by
  induction ts generalizing trm ctx seen with
  | nil => cases h
  | cons tk ts ih =>
    rcases hp : tk.plain with _ | _
    · obtain ⟨o, rfl⟩ := Token.not_plain hp
      cases h
      cases ht
    · rw [tRun_cons _ _ _ _ _ (Token.plain_ne hp)] at h
      rw [pItems_res _ _ _ _ _ hp, pstep]
      simp only [hc, if_true]
      cases hs : tstep scopeSymb ctx tk trm with
      | more st ctx1 =>
        rw [hs] at h
        exact ih true h
      | done t1 ctx1 =>
        rw [hs] at h
        cases h
        rfl
      | err e ctx1 => rw [hs] at h; cases h

theorem pItems_term {cmd : CState (PTerm PSymb)} (hc : cmd.expectsTerm = true) (b : List Str) (t : PTerm PSymb) {tok : Token}
    (ht : tok.ends = true) (seen : Bool) (ts : List Token) :
    pItems scopeSymb seen ⟨cmd, .init⟩ ⟨b, []⟩ (t.toks ++ tok :: ts) = itemsRes ts (cmdRes ⟨b, []⟩ (cmd.apply b t tok)) := by
  refine pItems_tRun hc seen (Token.ends_after ht).1 (ctx' := ⟨b, []⟩) ?_
  rw [(PTerm.core t).init _ (Token.ends_after ht)]
  cases tok <;> first | (cases ht; done) | rfl

/-- the tokens of printed arguments of an introduction -/
def introArgToks (l : List (Str × PTerm PSymb)) : List Token :=
  l.flatMap fun a => .lpar :: .symb (PSymb.new a.1) :: .colon :: (a.2.toks ++ [.rpar])

/-- the tokens of a printed introduction, without its final dot -/
def introToks (x : Str) (args : List (Str × PTerm PSymb)) : Intro (PTerm PSymb) → List Token
  | .declaration false ty => .symb (PSymb.new x) :: (introArgToks args ++ .colon :: ty.toks)
  | .declaration true ty => .inj :: .symb (PSymb.new x) :: (introArgToks args ++ .colon :: ty.toks)
  | .theorem_ ty tm => .thm :: .symb (PSymb.new x) :: (introArgToks args ++ .colon :: (ty.toks ++ .colonEq :: tm.toks))
  | .definition (some ty) none => .def_ :: .symb (PSymb.new x) :: (introArgToks args ++ .colon :: ty.toks)
  | .definition none (some tm) => .def_ :: .symb (PSymb.new x) :: (introArgToks args ++ .colonEq :: tm.toks)
  | .definition (some ty) (some tm) => .def_ :: .symb (PSymb.new x) :: (introArgToks args ++ .colon :: (ty.toks ++ .colonEq :: tm.toks))
  | .definition none none => .def_ :: .symb (PSymb.new x) :: introArgToks args

/-- the tokens of a printed context of a rule -/
def ctxToks : List (Str × Option (PTerm PSymb)) → List Token
  | [] => []
  | (x, ty) :: l => .symb (PSymb.new x) :: ((match ty with
      | some ty => .colon :: ty.toks
      | none => []) ++ ((if l.isEmpty then [] else [.comma]) ++ ctxToks l))

/-- the tokens of a printed rule -/
def PRule.toks (r : PRule (PTerm PSymb)) : List Token := .lbrk :: (ctxToks r.ctx ++ .rbrk :: (r.lhs.toks ++ .longArrow :: r.rhs.toks))

/-- the tokens of a printed command, without its final dot -/
def PCmd.toks : PCmd (PTerm PSymb) → List Token
  | .intro x args it => introToks x args it
  | .rules rs => rs.flatMap PRule.toks

theorem zip_fst_snd {α β : Type} (l : List (α × β)) : (l.map Prod.fst).zip (l.map Prod.snd) = l := by
  induction l with
  | nil => rfl
  | cons a l ih => rw [List.map_cons, List.map_cons, List.zip_cons_cons, ih]

theorem run_args (p : Option Prefix) (x : Str) (tys : List (PTerm PSymb)) (b : List Str) (l : List (Str × PTerm PSymb)) (ts : List Token) :
    pItems scopeSymb true ⟨.args p x tys none, .init⟩ ⟨b, []⟩ (introArgToks l ++ ts) =
      pItems scopeSymb true ⟨.args p x (tys ++ l.map Prod.snd) none, .init⟩ ⟨b ++ l.map Prod.fst, []⟩ ts := by
  induction l generalizing tys b with
  | nil => simp only [List.map_nil, List.append_nil]; rfl
  | cons a l ih =>
    have h1 := pItems_term (cmd := .argsIn p x tys (some (a.1, true))) rfl b a.2 (tok := .rpar) rfl true (introArgToks l ++ ts)
    have h2 := ih (tys ++ [a.2]) (b ++ [a.1])
    have e : introArgToks (a :: l) ++ ts = .lpar :: .symb (PSymb.new a.1) :: .colon :: (a.2.toks ++ .rpar :: (introArgToks l ++ ts)) := by
      simp [introArgToks]
    rw [e]
    simp only [List.map_cons, List.append_assoc, List.cons_append, List.nil_append] at h2 ⊢
    rw [← h2]
    exact h1

theorem run_intro (x : Str) (args : List (Str × PTerm PSymb)) (it : Intro (PTerm PSymb)) (h : ValidIntro it) (ts : List Token) :
    pItems scopeSymb false PState.new PCtx.new (introToks x args it ++ .dot :: ts) =
      .ok (.intro x args it) :: pItems scopeSymb false PState.new PCtx.new ts := by
  have ha := fun p => run_args p x [] [] args
  simp only [List.nil_append] at ha
  have hz := zip_fst_snd args
  have hf : ∀ it', .ok (.intro x ((args.map Prod.fst).zip (args.map Prod.snd)) it') :: pItems scopeSymb false PState.new PCtx.new ts =
      POut.ok (.intro x args it') :: pItems scopeSymb false PState.new PCtx.new ts := fun it' => by rw [hz]
  cases it with
  | declaration inj ty =>
    cases inj
    · simp only [introToks, List.cons_append, List.append_assoc]
      refine (ha none _).trans ?_
      exact (pItems_term (cmd := .args none x _ (some .of)) rfl _ ty (tok := .dot) rfl true ts).trans (hf _)
    · simp only [introToks, List.cons_append, List.append_assoc]
      refine (ha (some .inj) _).trans ?_
      exact (pItems_term (cmd := .args (some .inj) x _ (some .of)) rfl _ ty (tok := .dot) rfl true ts).trans (hf _)
  | theorem_ ty tm =>
    simp only [introToks, List.cons_append, List.append_assoc]
    refine (ha (some .thm) _).trans ?_
    refine (pItems_term (cmd := .args (some .thm) x _ (some .of)) rfl _ ty (tok := .colonEq) rfl true _).trans ?_
    exact (pItems_term (cmd := .ofEq (some .thm) x _ ty) rfl _ tm (tok := .dot) rfl true _).trans (hf _)
  | definition ty tm =>
    rcases ty with _ | ty <;> rcases tm with _ | tm
    · exact h.elim
    · simp only [introToks, List.cons_append, List.append_assoc]
      refine (ha (some .def_) _).trans ?_
      exact (pItems_term (cmd := .args (some .def_) x _ (some .eq)) rfl _ tm (tok := .dot) rfl true ts).trans (hf _)
    · simp only [introToks, List.cons_append, List.append_assoc]
      refine (ha (some .def_) _).trans ?_
      exact (pItems_term (cmd := .args (some .def_) x _ (some .of)) rfl _ ty (tok := .dot) rfl true ts).trans (hf _)
    · simp only [introToks, List.cons_append, List.append_assoc]
      refine (ha (some .def_) _).trans ?_
      refine (pItems_term (cmd := .args (some .def_) x _ (some .of)) rfl _ ty (tok := .colonEq) rfl true _).trans ?_
      exact (pItems_term (cmd := .ofEq (some .def_) x _ ty) rfl _ tm (tok := .dot) rfl true _).trans (hf _)

theorem run_ctx (rs : List (PRule (PTerm PSymb))) (vars : List (Option (PTerm PSymb))) (b : List Str)
    (l : List (Str × Option (PTerm PSymb))) (ts : List Token) :
    pItems scopeSymb true ⟨.ruleCtx ⟨rs, vars⟩ none, .init⟩ ⟨b, []⟩ (ctxToks l ++ .rbrk :: ts) =
      pItems scopeSymb true ⟨.ruleL ⟨rs, vars ++ l.map Prod.snd⟩, .init⟩ ⟨joker :: (b ++ l.map Prod.fst), []⟩ ts := by
  induction l generalizing vars b with
  | nil => simp only [List.map_nil, List.append_nil]; rfl
  | cons a l ih =>
    obtain ⟨x, ty⟩ := a
    have ih := ih (vars ++ [ty]) (b ++ [x])
    simp only [List.append_assoc, List.cons_append, List.nil_append] at ih
    simp only [List.map_cons, ctxToks, List.append_assoc, List.cons_append]
    cases l with
    | nil =>
      cases ty with
      | none => rfl
      | some ty =>
        exact pItems_term (cmd := .ruleCtx ⟨rs, vars⟩ (some (x, true))) rfl b ty (tok := .rbrk) rfl true ts
    | cons a' l' =>
      cases ty with
      | none => exact ih
      | some ty =>
        exact (pItems_term (cmd := .ruleCtx ⟨rs, vars⟩ (some (x, true))) rfl b ty (tok := .comma) rfl true _).trans ih

theorem run_rule (rs : List (PRule (PTerm PSymb))) (r : PRule (PTerm PSymb)) {tok : Token} (h : tok.ends = true) (ts : List Token) :
    pItems scopeSymb true ⟨.ruleCtx ⟨rs, []⟩ none, .init⟩ ⟨[], []⟩
      (ctxToks r.ctx ++ .rbrk :: (r.lhs.toks ++ .longArrow :: (r.rhs.toks ++ tok :: ts))) =
      itemsRes ts (cmdRes ⟨r.ctx.map Prod.fst, []⟩
        (CState.apply (.ruleR ⟨rs, r.ctx.map Prod.snd⟩ r.lhs) (r.ctx.map Prod.fst) r.rhs tok)) := by
  refine (run_ctx rs [] [] r.ctx _).trans ?_
  refine (pItems_term (cmd := .ruleL ⟨rs, [] ++ r.ctx.map Prod.snd⟩) rfl _ r.lhs (tok := .longArrow) rfl true _).trans ?_
  exact pItems_term (cmd := .ruleR ⟨rs, [] ++ r.ctx.map Prod.snd⟩ r.lhs) rfl _ r.rhs h true _

theorem add_rule (rs : List (PRule (PTerm PSymb))) (r : PRule (PTerm PSymb)) :
    RuleCtx.add ⟨rs, r.ctx.map Prod.snd⟩ (r.ctx.map Prod.fst) r.lhs r.rhs = ⟨rs ++ [r], []⟩ := by
  simp only [RuleCtx.add, zip_fst_snd]

theorem run_rules (rs rs' : List (PRule (PTerm PSymb))) (r : PRule (PTerm PSymb)) (ts : List Token) :
    pItems scopeSymb true ⟨.ruleCtx ⟨rs, []⟩ none, .init⟩ ⟨[], []⟩ (r.toks.tail ++ (rs'.flatMap PRule.toks ++ .dot :: ts)) =
      .ok (.rules (rs ++ r :: rs')) :: pItems scopeSymb false PState.new PCtx.new ts := by
  induction rs' generalizing rs r with
  | nil =>
    simp only [PRule.toks, List.tail_cons, List.append_assoc, List.cons_append, List.flatMap_nil, List.nil_append]
    refine (run_rule rs r (tok := .dot) rfl ts).trans ?_
    show POut.ok (PCmd.rules (RuleCtx.add _ _ _ _).rules) :: _ = _
    rw [add_rule]
    rfl
  | cons r' rs' ih =>
    have ih := ih (rs ++ [r]) r'
    simp only [List.append_assoc, List.cons_append, List.nil_append] at ih
    have e : r.toks.tail ++ ((r' :: rs').flatMap PRule.toks ++ .dot :: ts) = ctxToks r.ctx ++ .rbrk :: (r.lhs.toks ++ .longArrow ::
        (r.rhs.toks ++ .lbrk :: (r'.toks.tail ++ (rs'.flatMap PRule.toks ++ .dot :: ts)))) := by
      simp [PRule.toks]
    rw [e, run_rule rs r (tok := .lbrk) rfl, ← ih]
    show pItems scopeSymb true ⟨.ruleCtx (RuleCtx.add _ _ _ _) none, .init⟩ _ _ = _
    rw [add_rule]

theorem run_command (c : PCmd (PTerm PSymb)) (h : c.Valid) (ts : List Token) :
    pItems scopeSymb false PState.new PCtx.new (c.toks ++ .dot :: ts) = .ok c :: pItems scopeSymb false PState.new PCtx.new ts := by
  cases c with
  | intro x args it => exact run_intro x args it h.2.2 ts
  | rules rs =>
    cases rs with
    | nil => exact absurd rfl h.1
    | cons r rs =>
      have := run_rules [] rs r ts
      rw [List.nil_append] at this
      rw [← this]
      simp only [PCmd.toks, PRule.toks, List.flatMap_cons, List.append_assoc, List.cons_append, List.tail_cons]
      rfl

/-! ## Lexing commands -/

/-- printed arguments of an introduction -/
def argsText (args : List (Str × PTerm PSymb)) : Str :=
  args.flatMap fun (x, ty) => str " (" ++ x ++ str " : " ++ ty.show ++ str ")"

theorem args_lex (args : List (Str × PTerm PSymb)) (h : ∀ a ∈ args, ValidName a.1 ∧ a.2.Valid) (u : Str) :
    lex (argsText args ++ u) = introArgToks args ++ lex u := by
  induction args with
  | nil => rfl
  | cons a args ih =>
    obtain ⟨hn, ht⟩ := h a (.head _)
    have ih := ih fun a ha => h a (.tail _ ha)
    have h1 := PTerm.lex_show a.2 ht (')' :: (argsText args ++ u)) (endsSymb_rpar _)
    have e : argsText (a :: args) ++ u = ' ' :: '(' :: (a.1 ++
        ' ' :: ':' :: ' ' :: (a.2.show ++ ')' :: (argsText args ++ u))) := by
      simp [str, argsText]
    rw [e, lex_sp, lex_lpar (head_append (comp_head hn.1)), lex_name hn (endsSymb_space _), lex_sp, lex_colon, h1, lex_rpar, ih]
    simp [introArgToks]

theorem endsSymb_colon (u : Str) : EndsSymb (':' :: u) := ⟨by decide, by decide⟩
theorem endsSymb_lbrk (u : Str) : EndsSymb ('[' :: u) := ⟨by decide, by decide⟩
theorem endsSymb_rbrk (u : Str) : EndsSymb (']' :: u) := ⟨by decide, by decide⟩
theorem endsSymb_comma (u : Str) : EndsSymb (',' :: u) := ⟨by decide, by decide⟩
theorem endsSymb_dot (u : Str) : EndsSymb ('.' :: '\n' :: u) := ⟨by decide, by decide⟩
theorem lex_colonEq (u : Str) : lex (':' :: '=' :: u) = .colonEq :: lex u := lex_step rfl
theorem lex_lbrk (u : Str) : lex ('[' :: u) = .lbrk :: lex u := lex_step rfl
theorem lex_rbrk (u : Str) : lex (']' :: u) = .rbrk :: lex u := lex_step rfl
theorem lex_comma (u : Str) : lex (',' :: u) = .comma :: lex u := lex_step rfl
theorem lex_longArrow (u : Str) : lex ('-' :: '-' :: '>' :: u) = .longArrow :: lex u := lex_step rfl
theorem lex_dot (u : Str) : lex ('.' :: '\n' :: u) = .dot :: lex u := (lex_step rfl).trans (congrArg _ (lex_space' (by decide)))

theorem args_ends (args : List (Str × PTerm PSymb)) {u : Str} (hu : EndsSymb u) :
    EndsSymb (argsText args ++ u) := by
  cases args with
  | nil => exact hu
  | cons a args => exact endsSymb_space _

theorem show_intro (x : Str) (args : List (Str × PTerm PSymb)) : (∀ ty, (PCmd.intro x args (.declaration false ty)).show = [] ++ x ++ argsText args ++ (str " : " ++ ty.show)) ∧
    (∀ ty, (PCmd.intro x args (.declaration true ty)).show = str "injective " ++ x ++ argsText args ++ (str " : " ++ ty.show)) ∧
    (∀ ty tm, (PCmd.intro x args (.theorem_ ty tm)).show = str "thm " ++ x ++ argsText args ++ (str " : " ++ ty.show ++ str " := " ++ tm.show)) ∧
    (∀ tm, (PCmd.intro x args (.definition none (some tm))).show = str "def " ++ x ++ argsText args ++ ([] ++ (str " := " ++ tm.show))) ∧
    (∀ ty, (PCmd.intro x args (.definition (some ty) none)).show = str "def " ++ x ++ argsText args ++ (str " : " ++ ty.show ++ [])) ∧
    ∀ ty tm, (PCmd.intro x args (.definition (some ty) (some tm))).show =
      str "def " ++ x ++ argsText args ++ (str " : " ++ ty.show ++ (str " := " ++ tm.show)) :=
  ⟨fun _ => rfl, fun _ => rfl, fun _ _ => rfl, fun _ => rfl, fun _ => rfl, fun _ _ => rfl⟩

theorem intro_lex (x : Str) (args : List (Str × PTerm PSymb)) (it : Intro (PTerm PSymb)) (h : (PCmd.intro x args it).Valid) (u : Str)
    (hu : EndsSymb u) : lex ((PCmd.intro x args it).show ++ u) = introToks x args it ++ lex u := by
  obtain ⟨hx, ha, hi⟩ := h
  obtain ⟨s1, s2, s3, s4, s5, s6⟩ := show_intro x args
  have hx' := fun (v : Str) (hv : EndsSymb v) => lex_name hx (args_ends args hv)
  have ha' := args_lex args ha
  have kw : ∀ {k : Str} {t : Token} (hk : (k, t) ∈ [(str "def", Token.def_), (str "thm", .thm), (str "injective", .inj)]) (v : Str),
      lex (k ++ ' ' :: v) = t :: lex v := by
    intro k t hk v
    rw [lex_keyword hk (by show identTail ' ' = false; decide), lex_sp]
  have hof := fun (ty : PTerm PSymb) (ht : ty.Valid) (v : Str) (hv : EndsSymb v) => PTerm.lex_show ty ht v hv
  cases it with
  | declaration inj ty =>
    cases inj
    · have e : (PCmd.intro x args (.declaration false ty)).show ++ u = x ++
          (argsText args ++ ' ' :: ':' :: ' ' :: (ty.show ++ u)) := by
        rw [s1]; simp [str]
      rw [e, hx' _ (endsSymb_space _), ha', lex_sp, lex_colon, hof ty hi u hu]
      simp [introToks]
    · have e : (PCmd.intro x args (.declaration true ty)).show ++ u = str "injective" ++ ' ' :: (x ++
          (argsText args ++ ' ' :: ':' :: ' ' :: (ty.show ++ u))) := by
        rw [s2]; simp [str]
      rw [e, kw (t := .inj) (by simp), hx' _ (endsSymb_space _), ha', lex_sp, lex_colon, hof ty hi u hu]
      simp [introToks]
  | theorem_ ty tm =>
    have e : (PCmd.intro x args (.theorem_ ty tm)).show ++ u = str "thm" ++ ' ' :: (x ++
        (argsText args ++ ' ' :: ':' :: ' ' :: (ty.show ++
          ' ' :: ':' :: '=' :: ' ' :: (tm.show ++ u)))) := by
      rw [s3]; simp [str]
    rw [e, kw (t := .thm) (by simp), hx' _ (endsSymb_space _), ha', lex_sp, lex_colon, hof ty hi.1 _ (endsSymb_space _), lex_sp, lex_colonEq,
      lex_sp, hof tm hi.2 u hu]
    simp [introToks]
  | definition ty tm =>
    rcases ty with _ | ty <;> rcases tm with _ | tm
    · exact hi.elim
    · have e : (PCmd.intro x args (.definition none (some tm))).show ++ u = str "def" ++ ' ' :: (x ++
          (argsText args ++ ' ' :: ':' :: '=' :: ' ' :: (tm.show ++ u))) := by
        rw [s4]; simp [str]
      rw [e, kw (t := .def_) (by simp), hx' _ (endsSymb_space _), ha', lex_sp, lex_colonEq, lex_sp, hof tm hi u hu]
      simp [introToks]
    · have e : (PCmd.intro x args (.definition (some ty) none)).show ++ u = str "def" ++ ' ' :: (x ++
          (argsText args ++ ' ' :: ':' :: ' ' :: (ty.show ++ u))) := by
        rw [s5]; simp [str]
      rw [e, kw (t := .def_) (by simp), hx' _ (endsSymb_space _), ha', lex_sp, lex_colon, hof ty hi u hu]
      simp [introToks]
    · have e : (PCmd.intro x args (.definition (some ty) (some tm))).show ++ u = str "def" ++ ' ' :: (x ++
          (argsText args ++ ' ' :: ':' :: ' ' :: (ty.show ++
            ' ' :: ':' :: '=' :: ' ' :: (tm.show ++ u)))) := by
        rw [s6]; simp [str]
      rw [e, kw (t := .def_) (by simp), hx' _ (endsSymb_space _), ha', lex_sp, lex_colon, hof ty hi.1 _ (endsSymb_space _), lex_sp,
        lex_colonEq, lex_sp, hof tm hi.2 u hu]
      simp [introToks]

theorem ctx_lex (l : List (Str × Option (PTerm PSymb))) (h : ∀ v ∈ l, ValidName v.1 ∧ ∀ ty, v.2 = some ty → ty.Valid) (u : Str)
    (hu : EndsSymb u) : lex (displayCtx PTerm.show l ++ u) = ctxToks l ++ lex u := by
  induction l with
  | nil => rfl
  | cons a l ih =>
    obtain ⟨x, ty⟩ := a
    obtain ⟨hn, ht⟩ := h (x, ty) (.head _)
    have ih := ih fun a ha => h a (.tail _ ha)
    have hr : lex ((if l.isEmpty then [] else str ", ") ++ (displayCtx PTerm.show l ++ u)) =
        (if l.isEmpty then [] else [.comma]) ++ (ctxToks l ++ lex u) ∧ EndsSymb ((if l.isEmpty then [] else str ", ") ++ (displayCtx PTerm.show l ++ u)) := by
      cases l with
      | nil => exact ⟨ih, hu⟩
      | cons b l => exact ⟨(lex_comma _).trans (congrArg _ ((lex_sp _).trans ih)), endsSymb_comma _⟩
    obtain ⟨hr1, hr2⟩ := hr
    simp only [displayCtx, ctxToks, List.append_assoc, List.cons_append]
    cases ty with
    | none =>
      simp only [List.nil_append]
      rw [lex_name hn hr2, hr1]
    | some ty =>
      refine (lex_name hn (endsSymb_colon _)).trans (congrArg _ ?_)
      refine (lex_colon _).trans (congrArg _ ?_)
      exact (PTerm.lex_show ty (ht ty rfl) _ hr2).trans (congrArg _ hr1)

theorem rule_lex (r : PRule (PTerm PSymb)) (h : r.Valid) (u : Str) (hu : EndsSymb u) :
    lex (r.display PTerm.show ++ u) = r.toks ++ lex u := by
  have e : r.display PTerm.show ++ u = '[' :: (displayCtx PTerm.show r.ctx ++ ']' :: ' ' :: (r.lhs.show ++
      ' ' :: '-' :: '-' :: '>' :: ' ' :: (r.rhs.show ++ u))) := by
    simp [PRule.display, str]
  rw [e, lex_lbrk, ctx_lex _ h.1 _ (endsSymb_rbrk _), lex_rbrk, lex_sp, PTerm.lex_show _ h.2.1 _ (endsSymb_space _), lex_sp, lex_longArrow,
    lex_sp, PTerm.lex_show _ h.2.2 _ hu]
  simp [PRule.toks]

theorem rules_lex (rs : List (PRule (PTerm PSymb))) (h : ∀ r ∈ rs, r.Valid) (u : Str) (hu : EndsSymb u) :
    lex (rs.flatMap (PRule.display PTerm.show) ++ u) = rs.flatMap PRule.toks ++ lex u := by
  induction rs with
  | nil => rfl
  | cons r rs ih =>
    have ih := ih fun r hr => h r (.tail _ hr)
    simp only [List.flatMap_cons, List.append_assoc]
    rw [rule_lex r (h r (.head _)), ih]
    cases rs with
    | nil => exact hu
    | cons r' rs => exact endsSymb_lbrk _

theorem cmd_lex (c : PCmd (PTerm PSymb)) (h : c.Valid) (u : Str) (hu : EndsSymb u) : lex (c.show ++ u) = c.toks ++ lex u := by
  cases c with
  | intro x args it => exact intro_lex x args it h u hu
  | rules rs => exact rules_lex rs h.2 u hu

/-- commands, each followed by a dot and the end of the line -/
def printCmds (cs : List (PCmd (PTerm PSymb))) : Str := cs.flatMap fun c => c.show ++ str ".\n"

theorem printCmds_parse (cs : List (PCmd (PTerm PSymb))) (h : ∀ c ∈ cs, c.Valid) :
    pItems scopeSymb false PState.new PCtx.new (lex (printCmds cs)) = cs.map .ok := by
  induction cs with
  | nil => rfl
  | cons c cs ih =>
    have ih := ih fun c hc => h c (.tail _ hc)
    have e : printCmds (c :: cs) = c.show ++ '.' :: '\n' :: printCmds cs := by simp [printCmds, str]
    rw [e, cmd_lex c (h c (.head _)) _ (endsSymb_dot _), lex_dot, run_command c (h c (.head _)), ih]
    rfl

end Kontroli
