import Verif.Proofs.Viable

/-! # The kind of an error is given by what could have followed -/

namespace Kontroli

/-- a step that is not an error -/
def PRes.okay : PRes PSymb → Bool
  | .more _ _ => true
  | .cmd _ _ => true
  | _ => false

theorem goes_one (st : PState PSymb) (ctx : PCtx PSymb) {t : Token} (ht : t.plain = true) :
    goes st ctx [t] = (pstep scopeSymb ctx st t).okay := by
  unfold goes
  rw [pRun_cons _ _ _ _ _ ht]
  cases pstep scopeSymb ctx st t <;> rfl

theorem goes_two (st : PState PSymb) (ctx : PCtx PSymb) {t u : Token} (ht : t.plain = true) (hu : u.plain = true) :
    goes st ctx [t, u] = match pstep scopeSymb ctx st t with
      | .more st ctx => (pstep scopeSymb ctx st u).okay
      | .cmd _ ctx => (pstep scopeSymb ctx PState.new u).okay
      | _ => false := by
  cases hs : pstep scopeSymb ctx st t with
  | more st' ctx' =>
    simp only [← goes_one _ _ hu]
    rw [goes, pRun_cons _ _ _ _ _ ht, hs]; rfl
  | cmd c ctx' =>
    simp only [← goes_one _ _ hu]
    rw [goes, pRun_cons _ _ _ _ _ ht, hs]; rfl
  | err e ctx' => rw [goes, pRun_cons _ _ _ _ _ ht, hs]
  | panic ctx' => rw [goes, pRun_cons _ _ _ _ _ ht, hs]

/-- what may follow in a state -/
structure Follows (V : List Token → Prop) (st : PState PSymb) (ctx : PCtx PSymb) : Prop where
  one : ∀ t, t.plain = true → (V [t] ↔ (pstep scopeSymb ctx st t).okay = true)
  two : ∀ t u, t.plain = true → u.plain = true → (V [t, u] ↔ (match pstep scopeSymb ctx st t with
      | .more st ctx => (pstep scopeSymb ctx st u).okay
      | .cmd _ ctx => (pstep scopeSymb ctx PState.new u).okay
      | _ => false) = true)

/-- the answer is the error -/
def PRes.isErr (e : ParseError) : PRes PSymb → Prop
  | .err e' _ => e' = e
  | _ => False

/-! ## Where no term is expected -/

section Logic
variable {V : List Token → Prop} {tok : Token}

theorem explains_path {s : PSymb} (hs : s.path ≠ []) (hT : ¬ TermHere V) (ha : ¬ V [.arrow]) (e : ParseError) :
    .command .unexpectedPath = e ↔ Explains V (.symb s) e := by
  rcases e with (_ | _ | _ | _ | _ | _ | _ | _ | _ | _) | (_ | _ | _ | _) | _ <;> simp [Explains, hT, ha, hs, nameTok]
  rintro _ rfl
  exact hs rfl

theorem explains_name {x : Str} (hT : ¬ TermHere V) (ha : ¬ V [.arrow]) (e : ParseError) :
    .command .unexpectedToken = e ↔ Explains V (nameTok x) e := by
  rcases e with (_ | _ | _ | _ | _ | _ | _ | _ | _ | _) | (_ | _ | _ | _) | _ <;> simp [Explains, hT, ha, nameTok]

theorem explains_cmd (hs : ∀ s, tok ≠ .symb s) (hT : ¬ TermHere V) (ha : ¬ V [.arrow]) (h1 : V [.hash]) (h2 : ¬ V [.colon]) (h3 : ¬ V [.rbrk])
    (e : ParseError) : .command .expectedCmd = e ↔ Explains V tok e := by
  rcases e with (_ | _ | _ | _ | _ | _ | _ | _ | _ | _) | (_ | _ | _ | _) | _ <;> simp [Explains, hT, ha, hs, h1, h2, h3, nameTok]
  exact fun _ => ⟨.hash, by simp, h1, by simp⟩

theorem explains_ident (hs : ∀ s, tok ≠ .symb s) (hT : ¬ TermHere V) (ha : ¬ V [.arrow]) (h1 : ¬ V [.hash]) (h2 : ¬ V [.colon]) (h3 : ¬ V [.rbrk])
    (h4 : ∀ x, V [nameTok x]) (h5 : ∀ t, (∀ n, t ≠ .comment n) → V [t] → ∃ x, t = nameTok x) (e : ParseError) :
    .command .expectedIdent = e ↔ Explains V tok e := by
  rcases e with (_ | _ | _ | _ | _ | _ | _ | _ | _ | _) | (_ | _ | _ | _) | _ <;>
    first
    | (simp [Explains, hT, ha, hs, h1, h2, h3, nameTok]; done)
    | exact ⟨fun _ => ⟨hs, h4, h5⟩, fun _ => rfl⟩

theorem explains_colon (hs : ∀ s, tok ≠ .symb s) (hT : ¬ TermHere V) (ha : ¬ V [.arrow]) (h1 : ¬ V [.hash]) (h2 : V [.colon]) (h3 : ¬ V [.rbrk])
    (h4 : ¬ V [.colonEq]) (e : ParseError) : .command .expectedColon = e ↔ Explains V tok e := by
  rcases e with (_ | _ | _ | _ | _ | _ | _ | _ | _ | _) | (_ | _ | _ | _) | _ <;> simp [Explains, hT, ha, hs, h1, h2, h3, h4, nameTok]
  exact fun _ => ⟨.colon, by simp, h2, by simp⟩

theorem explains_colonEq (hs : ∀ s, tok ≠ .symb s) (hT : ¬ TermHere V) (ha : ¬ V [.arrow]) (h1 : ¬ V [.hash]) (h2 : V [.colon]) (h3 : ¬ V [.rbrk])
    (h4 : V [.colonEq]) (e : ParseError) : .command .expectedColonOrColonEq = e ↔ Explains V tok e := by
  rcases e with (_ | _ | _ | _ | _ | _ | _ | _ | _ | _) | (_ | _ | _ | _) | _ <;> simp [Explains, hT, ha, hs, h1, h2, h3, h4, nameTok]
  exact fun _ => ⟨.colon, by simp, h2, by simp⟩

theorem explains_rbrk (hs : ∀ s, tok ≠ .symb s) (hT : ¬ TermHere V) (ha : ¬ V [.arrow]) (h1 : ¬ V [.hash]) (h3 : V [.rbrk])
    (h4 : ¬ V [.colonEq]) (e : ParseError) : .command .expectedCommaOrRBrk = e ↔ Explains V tok e := by
  rcases e with (_ | _ | _ | _ | _ | _ | _ | _ | _ | _) | (_ | _ | _ | _) | _ <;> simp [Explains, hT, ha, hs, h1, h3, h4, nameTok]
  exact fun _ => ⟨.rbrk, by simp, h3, by simp⟩

end Logic

/-- what is said of a token that is not a symbol -/
def CState.complaint : CState (PTerm PSymb) → CmdError
  | .init => .expectedCmd
  | .prefix_ _ => .expectedIdent
  | .args (some .def_) _ _ none => .expectedColonOrColonEq
  | .args _ _ _ none => .expectedColon
  | .argsIn _ _ _ none => .expectedIdent
  | .argsIn _ _ _ (some _) => .expectedColon
  | _ => .expectedCommaOrRBrk

theorem parse_complaint {cmd : CState (PTerm PSymb)} (hc : cmd.expectsTerm = false) (hcmd : ∀ c, cmd ≠ .command c) (ctx : PCtx PSymb)
    {tok : Token} (hs : ∀ s, tok ≠ .symb s) (hn : (cmdRes ctx (cmd.parse ctx.bound tok)).okay = false) :
    cmdRes ctx (cmd.parse ctx.bound tok) = .err (.command cmd.complaint) ctx := by
  rcases cmd with _ | p | ⟨_ | _ | _ | _, s, c, _ | _ | _⟩ | ⟨p, s, c, _ | ⟨x, _ | _⟩⟩ | ⟨p, s, c, ty⟩ | ⟨c, _ | ⟨x, _ | _⟩⟩ | c | ⟨c, l⟩ | _ | c
  all_goals try (cases hc; done)
  all_goals try exact absurd rfl (hcmd _)
  all_goals cases tok <;> first
    | rfl
    | (cases hn; done)
    | exact absurd rfl (hs _)

theorem parse_path {cmd : CState (PTerm PSymb)} (hcmd : cmd ≠ .pragma) (ctx : PCtx PSymb) {s : PSymb} (hs : s.path ≠ []) :
    cmdRes ctx (cmd.parse ctx.bound (.symb s)) = .err (.command .unexpectedPath) ctx := by
  obtain ⟨_ | ⟨a, p⟩, n⟩ := s
  · exact absurd rfl hs
  · rcases cmd with _ | p | ⟨_ | _ | _ | _, s, c, _ | _ | _⟩ | ⟨p, s, c, _ | ⟨x, _ | _⟩⟩ | ⟨p, s, c, ty⟩ | ⟨c, _ | ⟨x, _ | _⟩⟩ | c | ⟨c, l⟩ | _ | c <;>
      first
      | rfl
      | exact absurd rfl hcmd

theorem parse_name {cmd : CState (PTerm PSymb)} (ctx : PCtx PSymb) {x : Str} (hn : (cmdRes ctx (cmd.parse ctx.bound (nameTok x))).okay = false) :
    cmdRes ctx (cmd.parse ctx.bound (nameTok x)) = .err (.command .unexpectedToken) ctx := by
  rcases cmd with _ | p | ⟨_ | _ | _ | _, s, c, _ | _ | _⟩ | ⟨p, s, c, _ | ⟨x, _ | _⟩⟩ | ⟨p, s, c, ty⟩ | ⟨c, _ | ⟨x, _ | _⟩⟩ | c | ⟨c, l⟩ | _ | c <;>
    first
    | rfl
    | (cases hn; done)

theorem parse_kind {V : List Token → Prop} {cmd : CState (PTerm PSymb)} {ctx : PCtx PSymb} (hc : cmd.expectsTerm = false)
    (hcmd : ∀ c, cmd ≠ .command c) (hV : Follows V ⟨cmd, .init⟩ ctx) {tok : Token} (hp : tok.plain = true)
    (hn : (pstep scopeSymb ctx ⟨cmd, .init⟩ tok).okay = false) (e : ParseError) :
    (pstep scopeSymb ctx ⟨cmd, .init⟩ tok).isErr e ↔ Explains V tok e := by
  have h1 := hV.one
  simp only [pstep, hc, Bool.false_eq_true, if_false] at h1 hn ⊢
  have hpr : cmd ≠ .pragma := by
    rintro rfl
    cases tok <;> cases hn
  have hT : ¬ TermHere V := by
    intro h
    have := (h1 (.symb ⟨[[]], []⟩) rfl).1 (h _)
    rw [parse_path hpr _ (by simp)] at this
    cases this
  have no (t : Token) (ht : t.plain = true) (h : (cmdRes ctx (cmd.parse ctx.bound t)).okay = false) : ¬ V [t] := by
    rw [h1 t ht, h]; simp
  have yes (t : Token) (ht : t.plain = true) (h : (cmdRes ctx (cmd.parse ctx.bound t)).okay = true) : V [t] := (h1 t ht).2 h
  have ha : ¬ V [.arrow] := by
    refine no _ rfl ?_
    rcases cmd with _ | p | ⟨_ | _ | _ | _, s, c, _ | _ | _⟩ | ⟨p, s, c, _ | ⟨x, _ | _⟩⟩ | ⟨p, s, c, ty⟩ | ⟨c, _ | ⟨x, _ | _⟩⟩ | c | ⟨c, l⟩ | _ | c <;>
      first
      | rfl
      | exact absurd rfl hpr
  by_cases hs : ∀ s, tok ≠ .symb s
  · rw [parse_complaint hc hcmd ctx hs hn]
    show ParseError.command cmd.complaint = e ↔ _
    have ident (h : ∀ s : PSymb, (cmdRes ctx (cmd.parse ctx.bound (.symb s))).okay = s.path.isEmpty)
        (h' : ∀ t, (∀ s, t ≠ .symb s) → t.plain = true → (cmdRes ctx (cmd.parse ctx.bound t)).okay = false) :
        .command .expectedIdent = e ↔ Explains V tok e := by
      refine explains_ident hs hT ha (no _ rfl (h' _ (by simp) rfl)) (no _ rfl (h' _ (by simp) rfl)) (no _ rfl (h' _ (by simp) rfl))
        (fun x => yes _ rfl (h _)) (fun t ht hv => ?_) e
      cases t with
      | symb s =>
        have := (h1 _ rfl).1 hv
        rw [h] at this
        obtain ⟨_ | _, n⟩ := s
        · exact ⟨n, rfl⟩
        · cases this
      | comment n => exact absurd rfl (ht n)
      | _ => exact absurd hv (no _ rfl (h' _ (by simp) rfl))
    have hpath : ∀ s : PSymb, s.path.isEmpty = true → s = ⟨[], s.name⟩ := by
      rintro ⟨_ | _, n⟩ h
      · rfl
      · cases h
    rcases cmd with _ | p | ⟨_ | _ | _ | _, s, c, _ | _ | _⟩ | ⟨p, s, c, _ | ⟨x, _ | _⟩⟩ | ⟨p, s, c, ty⟩ | ⟨c, _ | ⟨x, _ | _⟩⟩ | c | ⟨c, l⟩ | _ | c
    all_goals try (cases hc; done)
    all_goals try exact absurd rfl (hcmd _)
    all_goals try exact absurd rfl hpr
    · exact explains_cmd hs hT ha (yes _ rfl rfl) (no _ rfl rfl) (no _ rfl rfl) e
    · refine ident ?_ ?_
      · rintro ⟨_ | _, n⟩ <;> rfl
      · intro t ht ht'
        cases t <;> first | rfl | exact absurd rfl (ht _)
    · exact explains_colon hs hT ha (no _ rfl rfl) (yes _ rfl rfl) (no _ rfl rfl) (no _ rfl rfl) e
    · exact explains_colonEq hs hT ha (no _ rfl rfl) (yes _ rfl rfl) (no _ rfl rfl) (yes _ rfl rfl) e
    · exact explains_colon hs hT ha (no _ rfl rfl) (yes _ rfl rfl) (no _ rfl rfl) (no _ rfl rfl) e
    · exact explains_colon hs hT ha (no _ rfl rfl) (yes _ rfl rfl) (no _ rfl rfl) (no _ rfl rfl) e
    · refine ident ?_ ?_
      · rintro ⟨_ | _, n⟩ <;> rfl
      · intro t ht ht'
        cases t <;> first | rfl | exact absurd rfl (ht _)
    · exact explains_colon hs hT ha (no _ rfl rfl) (yes _ rfl rfl) (no _ rfl rfl) (no _ rfl rfl) e
    · exact explains_rbrk hs hT ha (no _ rfl rfl) (yes _ rfl rfl) (no _ rfl rfl) e
    · exact explains_rbrk hs hT ha (no _ rfl rfl) (yes _ rfl rfl) (no _ rfl rfl) e
  · obtain ⟨s, rfl⟩ : ∃ s, tok = .symb s := by
      exact Classical.byContradiction fun h => hs fun s hs => h ⟨s, hs⟩
    obtain ⟨_ | ⟨a, p⟩, n⟩ := s
    · have hn' : (cmdRes ctx (cmd.parse ctx.bound (nameTok n))).okay = false := hn
      have := parse_name ctx hn'
      rw [nameTok] at this
      rw [this]
      exact explains_name hT ha e
    · rw [parse_path hpr ctx (by simp)]
      exact explains_path (by simp) hT ha e

/-! ## Where a term is expected -/

section Logic
variable {V : List Token → Prop} {tok : Token}

theorem not_ident (ha : V [.arrow]) : ¬ ∀ t, (∀ n, t ≠ .comment n) → V [t] → ∃ x, t = nameTok x := by
  intro h
  obtain ⟨x, hx⟩ := h .arrow (by simp) ha
  cases hx

theorem explains_begin (hs : ∀ s, tok ≠ .symb s) (hT : TermHere V) (hl : V [.lpar]) (ha : ¬ V [.arrow]) (e : ParseError) :
    .term .expectedIdentOrLPar = e ↔ Explains V tok e := by
  rcases e with (_ | _ | _ | _ | _ | _ | _ | _ | _ | _) | (_ | _ | _ | _) | _ <;> simp [Explains, hT, ha, hs, hl, nameTok]
  exact fun _ => ⟨.lpar, by simp, hl, by simp⟩

theorem explains_lambda (hT : TermHere V) (ha : V [.arrow]) (hf : ¬ V [.fatArrow]) (e : ParseError) :
    .term .anonymousLambda = e ↔ Explains V .fatArrow e := by
  rcases e with (_ | _ | _ | _ | _ | _ | _ | _ | _ | _) | (_ | _ | _ | _) | _ <;> simp [Explains, hT, ha, hf, nameTok]
  exact fun _ => ⟨.arrow, by simp, ha, by simp⟩

/-- the place in a term, and the error -/
inductive Place (V : List Token → Prop) (tok : Token) : ParseError → Prop
  | abst : V [.fatArrow] → ¬ V [.colon] → ¬ V [.rpar, .arrow] → ¬ V [.rpar, .colon] → ¬ V [.longArrow] → ¬ V [.colonEq] → ¬ V [.dot] →
      ¬ V [.comma] → Place V tok (.term .abstWithoutRhs)
  | par : (V [.fatArrow] → V [.colon]) → V [.rpar, .arrow] → ¬ V [.rpar, .colon] → ¬ V [.longArrow] → ¬ V [.colonEq] → ¬ V [.dot] →
      ¬ V [.comma] → Place V tok (.term .unclosedLPar)
  | arg : (V [.fatArrow] → V [.colon]) → ¬ V [.rpar, .arrow] → V [.rpar, .colon] → ¬ V [.longArrow] → ¬ V [.colonEq] → ¬ V [.dot] →
      ¬ V [.comma] → Place V tok (.command .expectedRPar)
  | long : (V [.fatArrow] → V [.colon]) → ¬ V [.rpar, .arrow] → ¬ V [.rpar, .colon] → V [.longArrow] → ¬ V [.colonEq] → ¬ V [.dot] →
      ¬ V [.comma] → Place V tok (.command .expectedLongArrow)
  | colonEq : (V [.fatArrow] → V [.colon]) → ¬ V [.rpar, .arrow] → ¬ V [.rpar, .colon] → ¬ V [.longArrow] → V [.colonEq] → ¬ V [.dot] →
      ¬ V [.comma] → Place V tok (.command .expectedColonEq)
  | dot : (V [.fatArrow] → V [.colon]) → ¬ V [.rpar, .arrow] → ¬ V [.rpar, .colon] → ¬ V [.longArrow] → V [.dot] →
      ¬ V [.comma] → Place V tok (.command .unexpectedToken)
  | comma : (V [.fatArrow] → V [.colon]) → ¬ V [.rpar, .arrow] → ¬ V [.rpar, .colon] → ¬ V [.longArrow] → ¬ V [.colonEq] → ¬ V [.dot] →
      V [.comma] → tok ≠ .dot → Place V tok (.command .unexpectedToken)
  | commaDot : (V [.fatArrow] → V [.colon]) → ¬ V [.rpar, .arrow] → ¬ V [.rpar, .colon] → ¬ V [.longArrow] → ¬ V [.colonEq] → ¬ V [.dot] →
      V [.comma] → tok = .dot → Place V tok (.command .expectedCmd)

theorem Place.explains (hs : ∀ s, tok ≠ .symb s) (hT : TermHere V) (ha : V [.arrow]) (hf : tok ≠ .fatArrow) {e' : ParseError}
    (h : Place V tok e') (e : ParseError) : e' = e ↔ Explains V tok e := by
  have hi := not_ident ha
  have he : Explains V tok (.command .expectedIdent) ↔ False := ⟨fun h => hi h.2.2, False.elim⟩
  cases h with
  | abst h1 h2 h3 h4 h5 h6 h7 h8 =>
    rcases e with (_ | _ | _ | _ | _ | _ | _ | _ | _ | _) | (_ | _ | _ | _) | _ <;>
      first | (rw [he]; simp; done) | (simp [Explains, hT, ha, hf, hs, nameTok, *]; done) | (simp [Explains, hT, ha, hf, hs, nameTok, *]; exact h1)
  | par h1 h3 h4 h5 h6 h7 h8 =>
    rcases e with (_ | _ | _ | _ | _ | _ | _ | _ | _ | _) | (_ | _ | _ | _) | _ <;>
      first | (rw [he]; simp; done) | (simp [Explains, hT, ha, hf, hs, nameTok, *]; done) | (simp [Explains, hT, ha, hf, hs, nameTok, *]; exact h1)
  | arg h1 h3 h4 h5 h6 h7 h8 =>
    rcases e with (_ | _ | _ | _ | _ | _ | _ | _ | _ | _) | (_ | _ | _ | _) | _ <;>
      first | (rw [he]; simp; done) | (simp [Explains, hT, ha, hf, hs, nameTok, *]; done) | (simp [Explains, hT, ha, hf, hs, nameTok, *]; exact h1)
  | long h1 h3 h4 h5 h6 h7 h8 =>
    rcases e with (_ | _ | _ | _ | _ | _ | _ | _ | _ | _) | (_ | _ | _ | _) | _ <;>
      first | (rw [he]; simp; done) | (simp [Explains, hT, ha, hf, hs, nameTok, *]; done) | (simp [Explains, hT, ha, hf, hs, nameTok, *]; exact h1)
  | colonEq h1 h3 h4 h5 h6 h7 h8 =>
    rcases e with (_ | _ | _ | _ | _ | _ | _ | _ | _ | _) | (_ | _ | _ | _) | _ <;>
      first | (rw [he]; simp; done) | (simp [Explains, hT, ha, hf, hs, nameTok, *]; done) | (simp [Explains, hT, ha, hf, hs, nameTok, *]; exact h1)
  | dot h1 h3 h4 h5 h7 h8 =>
    rcases e with (_ | _ | _ | _ | _ | _ | _ | _ | _ | _) | (_ | _ | _ | _) | _ <;>
      first | (rw [he]; simp; done) | (simp [Explains, hT, ha, hf, hs, nameTok, *]; done) | (simp [Explains, hT, ha, hf, hs, nameTok, *]; exact h1)
  | comma h1 h3 h4 h5 h6 h7 h8 h9 =>
    rcases e with (_ | _ | _ | _ | _ | _ | _ | _ | _ | _) | (_ | _ | _ | _) | _ <;>
      first | (rw [he]; simp; done) | (simp [Explains, hT, ha, hf, hs, nameTok, *]; done) | (simp [Explains, hT, ha, hf, hs, nameTok, *]; exact h1)
  | commaDot h1 h3 h4 h5 h6 h7 h8 h9 =>
    rcases e with (_ | _ | _ | _ | _ | _ | _ | _ | _ | _) | (_ | _ | _ | _) | _ <;>
      first | (rw [he]; simp; done) | (simp [Explains, hT, ha, hf, hs, nameTok, *]; done) | (simp [Explains, hT, ha, hf, hs, nameTok, *]; exact h1)

end Logic

/-- a colon does not end a term -/
theorem apply_colon (cmd : CState (PTerm PSymb)) (hc : cmd.expectsTerm = true) (ctx : PCtx PSymb) (bound : List Str) (t : PTerm PSymb) :
    (cmdRes ctx (cmd.apply bound t .colon)).okay = false := by
  rcases cmd with _ | p | ⟨_ | _ | _ | _, s, c, _ | _ | _⟩ | ⟨p, s, c, _ | ⟨x, _ | _⟩⟩ | ⟨p, s, c, ty⟩ | ⟨c, _ | ⟨x, _ | _⟩⟩ | c | ⟨c, l⟩ | _ | c
  all_goals try (cases hc; done)
  all_goals rfl

theorem aterm_colon (cmd : CState (PTerm PSymb)) (hc : cmd.expectsTerm = true) (ctx : PCtx PSymb) (x : Option Str) (t : PTerm PSymb) :
    (pstep scopeSymb ctx ⟨cmd, .aterm x t⟩ .colon).okay = false := by
  simp only [pstep, hc, if_true, tstep, atermStep]
  cases x with
  | some x => rfl
  | none =>
    simp only [closeStep]
    cases reduceStack ctx.stack t with
    | mk l r =>
      obtain ⟨t', st'⟩ := r
      cases l with
      | some l => rfl
      | none => exact apply_colon _ hc _ _ _

/-- after a term, in a command -/
theorem apply_place {V : List Token → Prop} {cmd : CState (PTerm PSymb)} (hc : cmd.expectsTerm = true) {ctx : PCtx PSymb} {bound : List Str}
    {t : PTerm PSymb} (hb : cmd.Safe bound) (hf : V [.fatArrow] → V [.colon])
    (h1 : ∀ tok : Token, tok.follow = true → (V [tok] ↔ (cmdRes ctx (cmd.apply bound t tok)).okay = true))
    (h2 : ∀ tok : Token, tok.plain = true → (V [.rpar, tok] ↔ (match cmdRes ctx (cmd.apply bound t .rpar) with
      | .more st ctx => (pstep scopeSymb ctx st tok).okay
      | .cmd _ ctx => (pstep scopeSymb ctx PState.new tok).okay
      | _ => false) = true))
    {tok : Token} (hs : ∀ s, tok ≠ .symb s) (hp : tok.plain = true) (hn : (cmdRes ctx (cmd.apply bound t tok)).okay = false) :
    ∃ e ctx', cmdRes ctx (cmd.apply bound t tok) = .err e ctx' ∧ Place V tok e := by
  have no (t' : Token) (ht : t'.follow = true) (h : (cmdRes ctx (cmd.apply bound t t')).okay = false) : ¬ V [t'] := by
    rw [h1 t' ht, h]; simp
  have yes (t' : Token) (ht : t'.follow = true) (h : (cmdRes ctx (cmd.apply bound t t')).okay = true) : V [t'] := (h1 t' ht).2 h
  rcases cmd with _ | p | ⟨_ | _ | _ | _, s, c, _ | _ | _⟩ | ⟨p, s, c, _ | ⟨x, _ | _⟩⟩ | ⟨_ | _ | _ | _, s, c, ty⟩ | ⟨c, _ | ⟨x, _ | _⟩⟩ | c | ⟨c, l⟩ | _ | c
  all_goals try (cases hc; done)
  all_goals try (cases hb; done)
  all_goals try (rcases hb with hb | hb <;> cases hb; done)
  case args.none.some.of | args.some.def_.some.of | args.some.inj.some.of | args.some.def_.some.eq | ofEq.some.def_ | ofEq.some.thm =>
    have hP : Place V tok (.command .unexpectedToken) := .dot hf (by rw [h2 _ rfl]; simp [cmdRes, CState.apply]) (by rw [h2 _ rfl]; simp [cmdRes, CState.apply])
      (no _ rfl rfl) (yes _ rfl rfl) (no _ rfl rfl)
    cases tok <;> first
      | (cases hn; done)
      | exact ⟨_, _, rfl, hP⟩
  case ruleR =>
    have hP : Place V tok (.command .unexpectedToken) := .dot hf (by rw [h2 _ rfl]; simp [cmdRes, CState.apply]) (by rw [h2 _ rfl]; simp [cmdRes, CState.apply])
      (no _ rfl rfl) (yes _ rfl rfl) (no _ rfl rfl)
    cases tok <;> first
      | (cases hn; done)
      | exact ⟨_, _, rfl, hP⟩
  case args.some.thm.some.of =>
    have hP : Place V tok (.command .expectedColonEq) := .colonEq hf (by rw [h2 _ rfl]; simp [cmdRes, CState.apply])
      (by rw [h2 _ rfl]; simp [cmdRes, CState.apply]) (no _ rfl rfl) (yes _ rfl rfl) (no _ rfl rfl) (no _ rfl rfl)
    cases tok <;> first
      | (cases hn; done)
      | exact ⟨_, _, rfl, hP⟩
  case argsIn.some.true =>
    have hP : Place V tok (.command .expectedRPar) := .arg hf
      (by rw [h2 _ rfl]; rcases p with _ | _ | _ | _ <;> simp [cmdRes, CState.apply, pstep, CState.expectsTerm, CState.parse, PRes.okay])
      (by rw [h2 _ rfl]; rcases p with _ | _ | _ | _ <;> simp [cmdRes, CState.apply, pstep, CState.expectsTerm, CState.parse, PRes.okay])
      (no _ rfl rfl) (no _ rfl rfl) (no _ rfl rfl) (no _ rfl rfl)
    cases tok <;> first
      | (cases hn; done)
      | exact ⟨_, _, rfl, hP⟩
  case ruleCtx.some.true =>
    by_cases hd : tok = .dot
    · subst hd
      exact ⟨_, _, rfl, .commaDot hf (by rw [h2 _ rfl]; simp [cmdRes, CState.apply]) (by rw [h2 _ rfl]; simp [cmdRes, CState.apply])
        (no _ rfl rfl) (no _ rfl rfl) (no _ rfl rfl) (yes _ rfl rfl) rfl⟩
    · have hP : Place V tok (.command .unexpectedToken) := .comma hf (by rw [h2 _ rfl]; simp [cmdRes, CState.apply])
        (by rw [h2 _ rfl]; simp [cmdRes, CState.apply]) (no _ rfl rfl) (no _ rfl rfl) (no _ rfl rfl) (yes _ rfl rfl) hd
      cases tok <;> first
        | (cases hn; done)
        | exact ⟨_, _, rfl, hP⟩
        | exact absurd rfl hd
  case ruleL =>
    cases bound with
    | nil => exact absurd rfl hb
    | cons b bs =>
      have hP : Place V tok (.command .expectedLongArrow) := .long hf (by rw [h2 _ rfl]; simp [cmdRes, CState.apply])
        (by rw [h2 _ rfl]; simp [cmdRes, CState.apply]) (yes _ rfl rfl) (no _ rfl rfl) (no _ rfl rfl) (no _ rfl rfl)
      cases tok <;> first
        | (cases hn; done)
        | exact ⟨_, _, rfl, hP⟩

theorem close_place {V : List Token → Prop} {cmd : CState (PTerm PSymb)} (hc : cmd.expectsTerm = true) {ctx : PCtx PSymb} {t : PTerm PSymb}
    (hb : cmd.Safe ctx.bound) (hf : V [.fatArrow] → V [.colon]) (trm : TState PSymb) (hV : Follows V ⟨cmd, trm⟩ ctx)
    (hcl : ∀ tok : Token, tok.follow = true → tstep scopeSymb ctx tok trm = closeStep t ctx tok)
    {tok : Token} (hs : ∀ s, tok ≠ .symb s) (hp : tok.plain = true) (ht : tstep scopeSymb ctx tok trm = closeStep t ctx tok)
    (hn : (pstep scopeSymb ctx ⟨cmd, trm⟩ tok).okay = false) :
    ∃ e ctx', pstep scopeSymb ctx ⟨cmd, trm⟩ tok = .err e ctx' ∧ Place V tok e := by
  cases hr : reduceStack ctx.stack t with
  | mk l r =>
  obtain ⟨t', st'⟩ := r
  have plain (tok : Token) (h : tok.follow = true) : tok.plain = true := by cases tok <;> first | rfl | cases h
  cases l with
  | none =>
    have step (tok : Token) (h : tstep scopeSymb ctx tok trm = closeStep t ctx tok) :
        pstep scopeSymb ctx ⟨cmd, trm⟩ tok = cmdRes { ctx with stack := st' } (cmd.apply ctx.bound t' tok) := by
      simp only [pstep, hc, if_true, h, closeStep, hr]
    rw [step tok ht] at hn ⊢
    refine apply_place hc hb hf (fun tok' h' => ?_) (fun tok' h' => ?_) hs hp hn
    · rw [hV.one tok' (plain _ h'), step tok' (hcl _ h')]
    · rw [hV.two .rpar tok' rfl h', step .rpar (hcl _ rfl)]
  | some l =>
    have step (tok : Token) (h : tstep scopeSymb ctx tok trm = closeStep t ctx tok) (h' : tok ≠ .rpar) :
        pstep scopeSymb ctx ⟨cmd, trm⟩ tok = .err (.term .unclosedLPar) { ctx with stack := st' } := by
      simp only [pstep, hc, if_true, h, closeStep, hr, h', if_false]
    have rpar : ∃ x u, pstep scopeSymb ctx ⟨cmd, trm⟩ .rpar = .more ⟨cmd, .aterm x u⟩ { ctx with stack := st' } := by
      simp only [pstep, hc, if_true, hcl .rpar rfl, closeStep, hr]
      exact ⟨_, _, rfl⟩
    have no (tok : Token) (h : tok.follow = true) (h' : tok ≠ .rpar) : ¬ V [tok] := by
      rw [hV.one tok (plain _ h), step tok (hcl _ h) h']; simp [PRes.okay]
    obtain ⟨x, u, hx⟩ := rpar
    have hr : tok ≠ .rpar := by
      rintro rfl
      rw [hx] at hn
      cases hn
    refine ⟨_, _, step tok ht hr, .par hf ?_ ?_ (no _ rfl (by simp)) (no _ rfl (by simp)) (no _ rfl (by simp)) (no _ rfl (by simp))⟩
    · rw [hV.two _ _ rfl rfl, hx]
      simp only [pstep, hc, if_true, tstep, atermStep, PRes.okay]
    · rw [hV.two _ _ rfl rfl, hx]
      simp only [aterm_colon cmd hc]
      simp

theorem term_kind {V : List Token → Prop} {cmd : CState (PTerm PSymb)} {trm : TState PSymb} {ctx : PCtx PSymb} (hc : cmd.expectsTerm = true)
    (hb : cmd.Safe ctx.bound) (hV : Follows V ⟨cmd, trm⟩ ctx) {tok : Token} (hp : tok.plain = true)
    (hn : (pstep scopeSymb ctx ⟨cmd, trm⟩ tok).okay = false) (e : ParseError) :
    (pstep scopeSymb ctx ⟨cmd, trm⟩ tok).isErr e ↔ Explains V tok e := by
  have step (t : Token) : pstep scopeSymb ctx ⟨cmd, trm⟩ t = match tstep scopeSymb ctx t trm with
      | .more trm ctx => .more ⟨cmd, trm⟩ ctx
      | .done t' ctx => cmdRes ctx (cmd.apply ctx.bound t' t)
      | .err e ctx => .err (.term e) ctx := by
    simp only [pstep, hc, if_true]
    cases tstep scopeSymb ctx t trm <;> rfl
  have hT : TermHere V := by
    intro s
    rw [hV.one _ rfl, step]
    cases trm <;> rfl
  have hs : ∀ s, tok ≠ .symb s := by
    rintro s rfl
    rw [(hV.one _ rfl).1 (hT s)] at hn
    cases hn
  have hl : V [.lpar] := by
    rw [hV.one _ rfl, step]
    cases trm <;> rfl
  have hlp : tok ≠ .lpar := by
    rintro rfl
    rw [(hV.one _ rfl).1 hl] at hn
    cases hn
  have place (hf : tok ≠ .fatArrow) (ha : V [.arrow]) (h : ∃ e ctx', pstep scopeSymb ctx ⟨cmd, trm⟩ tok = .err e ctx' ∧ Place V tok e) :
      (pstep scopeSymb ctx ⟨cmd, trm⟩ tok).isErr e ↔ Explains V tok e := by
    obtain ⟨e', ctx', h, hpl⟩ := h
    rw [h]
    exact hpl.explains hs hT ha hf e
  have begins (ha : ¬ V [.arrow]) (h : tstep scopeSymb ctx tok trm = .err .expectedIdentOrLPar ctx) :
      (pstep scopeSymb ctx ⟨cmd, trm⟩ tok).isErr e ↔ Explains V tok e := by
    rw [step, h]
    exact explains_begin hs hT hl ha e
  cases trm with
  | init =>
    refine begins ?_ ?_
    · rw [hV.one _ rfl, step]; simp [tstep, PRes.okay]
    · cases tok <;> first | rfl | exact absurd rfl (hs _) | exact absurd rfl hlp
  | varof v =>
    refine begins ?_ ?_
    · rw [hV.one _ rfl, step]; simp [tstep, PRes.okay]
    · cases tok <;> first | rfl | exact absurd rfl (hs _) | exact absurd rfl hlp
  | symb s =>
    have ha : V [.arrow] := by rw [hV.one _ rfl, step]; rfl
    have hco : V [.colon] := by rw [hV.one _ rfl, step]; rfl
    have hfa : V [.fatArrow] := by rw [hV.one _ rfl, step]; rfl
    have other (t : Token) (h : V [t]) : tok ≠ t := by
      rintro rfl
      rw [(hV.one _ hp).1 h] at hn
      cases hn
    refine place (other _ hfa) ha (close_place hc hb (fun _ => hco) _ hV (t := scopeGo scopeSymb (PSymb.new s) ctx) ?_ hs hp ?_ hn)
    · intro t ht
      cases t <;> first | rfl | cases ht
    · cases tok <;> first | rfl | exact absurd rfl (other _ hfa) | exact absurd rfl (other _ hco) | exact absurd rfl (other _ ha) |
        exact absurd rfl hlp | exact absurd rfl (hs _)
  | aterm x t =>
    have ha : V [.arrow] := by rw [hV.one _ rfl, step]; rfl
    have hco : ¬ V [.colon] := by rw [hV.one _ rfl, aterm_colon cmd hc]; simp
    have other (t : Token) (h : V [t]) : tok ≠ t := by
      rintro rfl
      rw [(hV.one _ hp).1 h] at hn
      cases hn
    cases x with
    | none =>
      have hfa : ¬ V [.fatArrow] := by rw [hV.one _ rfl, step]; simp [tstep, atermStep, PRes.okay]
      by_cases hf : tok = .fatArrow
      · subst hf
        rw [step]
        exact explains_lambda hT ha hfa e
      · refine place hf ha (close_place hc hb (fun h => absurd h hfa) _ hV (t := t) ?_ hs hp ?_ hn)
        · intro t ht
          cases t <;> first | rfl | cases ht
        · cases tok <;> first | rfl | exact absurd rfl hf | exact absurd rfl (other _ ha) | exact absurd rfl hlp | exact absurd rfl (hs _)
    | some x =>
      have hfa : V [.fatArrow] := by rw [hV.one _ rfl, step]; rfl
      have hf := other _ hfa
      refine place hf ha ⟨.term .abstWithoutRhs, ctx, ?_, ?_⟩
      · rw [step]
        cases tok <;> first | rfl | exact absurd rfl hf | exact absurd rfl (other _ ha) | exact absurd rfl hlp | exact absurd rfl (hs _)
      · have no (t' : Token) (h : t'.follow = true) : ¬ V [t'] := by
          rw [hV.one _ (by cases t' <;> first | rfl | cases h), step]
          cases t' <;> first | (cases h; done) | simp [tstep, atermStep, PRes.okay]
        refine .abst hfa hco ?_ ?_ (no _ rfl) (no _ rfl) (no _ rfl) (no _ rfl)
        · rw [hV.two _ _ rfl rfl, step]; simp [tstep, atermStep]
        · rw [hV.two _ _ rfl rfl, step]; simp [tstep, atermStep]

/-- The error is the one given by what could have followed. -/
theorem pstep_kind {V : List Token → Prop} {st : PState PSymb} {ctx : PCtx PSymb} (hs : st.Safe ctx) (hV : Follows V st ctx) {tok : Token}
    (hp : tok.plain = true) (hn : (pstep scopeSymb ctx st tok).okay = false) (e : ParseError) :
    (pstep scopeSymb ctx st tok).isErr e ↔ Explains V tok e := by
  obtain ⟨cmd, trm⟩ := st
  obtain ⟨⟨h1, h2⟩, h3⟩ := hs
  cases hc : cmd.expectsTerm with
  | true => exact term_kind hc h3 hV hp hn e
  | false =>
    obtain rfl : trm = .init := h2 hc
    exact parse_kind hc h1 hV hp hn e

end Kontroli
