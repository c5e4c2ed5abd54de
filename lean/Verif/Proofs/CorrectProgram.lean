import Verif.Proofs.Correct
import Verif.Proofs.SimDriver
import Verif.Props.Program

/-!
# Programs: from texts to commands and back
-/

namespace Kontroli

/-! ## Sharing succeeds -/

mutual
  theorem resolve_congr {f g : PSymb → Sym} : (t : PTerm Atom) → (∀ c ∈ t.consts, f c = g c) → t.resolve f = t.resolve g
    | .app h [], hc => by
      rw [PTerm.consts] at hc
      rw [PTerm.resolve, PTerm.resolve, headResolve_congr h fun c hh => hc c (List.mem_append_left _ hh)]
    | .app h (a :: as), hc => by
      rw [PTerm.consts, PTerm.constsList] at hc
      rw [PTerm.resolve, PTerm.resolve, headResolve_congr h fun c hh => hc c (List.mem_append_left _ hh),
        resolve_congr a fun c hh => hc c (List.mem_append_right _ (List.mem_append_left _ hh)),
        resolveList_congr as fun c hh => hc c (List.mem_append_right _ (List.mem_append_right _ hh))]
  theorem headResolve_congr {f g : PSymb → Sym} : (h : PHead Atom) → (∀ c ∈ h.consts, f c = g c) → h.resolve f = h.resolve g
    | .atom (.const c), hc => by rw [PHead.resolve, PHead.resolve, hc c (by simp [PHead.consts])]
    | .atom (.var n), _ => by rw [PHead.resolve, PHead.resolve]
    | .atom .type, _ => by rw [PHead.resolve, PHead.resolve]
    | .abst x none tm, hc => by
      rw [PHead.consts] at hc
      rw [PHead.resolve, PHead.resolve, resolve_congr tm fun c hh => hc c (List.mem_append_right _ hh)]
      rfl
    | .abst x (some ty) tm, hc => by
      rw [PHead.consts, PTerm.constsOpt] at hc
      rw [PHead.resolve, PHead.resolve, PTerm.resolveOpt, PTerm.resolveOpt, resolve_congr tm fun c hh => hc c (List.mem_append_right _ hh),
        resolve_congr ty fun c hh => hc c (List.mem_append_left _ hh)]
    | .prod x ty tm, hc => by
      rw [PHead.consts] at hc
      rw [PHead.resolve, PHead.resolve, resolve_congr tm fun c hh => hc c (List.mem_append_right _ hh),
        resolve_congr ty fun c hh => hc c (List.mem_append_left _ hh)]
  theorem resolveList_congr {f g : PSymb → Sym} : (ts : List (PTerm Atom)) → (∀ c ∈ PTerm.constsList ts, f c = g c) →
      PTerm.resolveList f ts = PTerm.resolveList g ts
    | [], _ => by rw [PTerm.resolveList, PTerm.resolveList]
    | t :: ts, hc => by
      rw [PTerm.constsList] at hc
      rw [PTerm.resolveList, PTerm.resolveList, resolve_congr t fun c hh => hc c (List.mem_append_left _ hh),
        resolveList_congr ts fun c hh => hc c (List.mem_append_right _ hh)]
end

theorem resolveOpt_congr {f g : PSymb → Sym} (o : Option (PTerm Atom)) (h : ∀ c ∈ PTerm.constsOpt o, f c = g c) :
    PTerm.resolveOpt f o = PTerm.resolveOpt g o := by
  cases o with
  | none => rfl
  | some t => rw [PTerm.resolveOpt, PTerm.resolveOpt, resolve_congr t h]

theorem introResolve_congr {f g : PSymb → Sym} (it : Intro (PTerm Atom)) (h : ∀ c ∈ it.consts, f c = g c) : it.resolve f = it.resolve g := by
  cases it with
  | definition ty tm =>
    rw [Intro.consts] at h
    rw [Intro.resolve, Intro.resolve, resolveOpt_congr ty fun c hc => h c (List.mem_append_left _ hc),
      resolveOpt_congr tm fun c hc => h c (List.mem_append_right _ hc)]
  | theorem_ ty tm =>
    rw [Intro.consts] at h
    rw [Intro.resolve, Intro.resolve, resolve_congr ty fun c hc => h c (List.mem_append_left _ hc),
      resolve_congr tm fun c hc => h c (List.mem_append_right _ hc)]
  | declaration inj ty => rw [Intro.resolve, Intro.resolve, resolve_congr ty h]

theorem wrapArgs_congr {f g : PSymb → Sym} (args : List (Str × PTerm Atom)) (it : Intro LTerm) (h : ∀ c ∈ argConsts args, f c = g c) :
    wrapArgs f args it = wrapArgs g args it := by
  induction args generalizing it with
  | nil => rfl
  | cons a args ih =>
    obtain ⟨x, A⟩ := a
    simp only [argConsts, List.flatMap_cons, List.mem_append] at h
    rw [wrapArgs, wrapArgs, resolve_congr A fun c hc => h c (.inl hc), ih _ fun c hc => h c (.inr hc)]

theorem SymInv.sym_eq {st : ShState} {ns : List (List Str × Str)} (h : SymInv st ns) {c : PSymb} {s : Sym}
    (hc : Refers ns st.syms.path c s) : st.syms.Known c ∧ st.syms.sym c = s := by
  have h1 := (h.refers c s).2 hc
  refine ⟨⟨s, h1⟩, ?_⟩
  rw [Symbols.sym, (C15_get_some _ _ _ _).2 h1]
  rfl

theorem PatOf.congr {f g : PSymb → Sym} {n : Nat} {t : PTerm Atom} {p : Pattern} (h : PatOf f n t p) :
    (∀ c ∈ t.consts, f c = g c) → PatOf g n t p := by
  induction h with
  | var hi => intro _; exact .var hi
  | wild => intro _; exact .wild
  | @symb c args ps hl _ ih =>
    intro hc
    rw [PTerm.consts, PHead.consts] at hc
    rw [hc c (by simp)]
    refine .symb hl fun i hi hi' => ih i hi hi' fun c' hc' => hc c' ?_
    refine List.mem_append_right _ ?_
    have : ∀ (l : List (PTerm Atom)) (i : Nat) (hi : i < l.length), c' ∈ l[i].consts → c' ∈ PTerm.constsList l := by
      intro l
      induction l with
      | nil => intro i hi; simp at hi
      | cons a l ih =>
        intro i hi hc
        rw [PTerm.constsList]
        cases i with
        | zero => exact List.mem_append_left _ hc
        | succ i => exact List.mem_append_right _ (ih i (by simpa using hi) (by simpa using hc))
    exact this args i hi hc'

theorem PatOf.foPat {f : PSymb → Sym} {n : Nat} {t : PTerm Atom} {p : Pattern} (h : PatOf f n t p) : FOPat t := by
  induction h with
  | var => exact .var
  | wild => exact .var
  | @symb c args ps hl _ ih =>
    refine .symb fun a ha => ?_
    obtain ⟨i, hi, rfl⟩ := List.getElem_of_mem ha
    exact ih i hi (hl ▸ hi)

theorem rulesShare_complete {st : ShState} {ns : List (List Str × Str)} (h : SymInv st ns) {rs : List (PRule (PTerm PSymb))} {rs' : List Rule}
    (hr : List.Forall₂ (RuleShared (Refers ns st.syms.path)) rs rs') : shareRules st.syms (rs.map PRule.scope) = .ok rs' := by
  induction hr with
  | nil => rfl
  | @cons r r' rs rs' h1 _ ih =>
    obtain ⟨f, hm, hctx, hrhs⟩ := h1
    have hf : ∀ c ∈ r.scope.consts, st.syms.Known c ∧ st.syms.sym c = f c := fun c hc => h.sym_eq (hm.consts c hc)
    have hl : r.scope.ctx.length = r.ctx.length := scopeTele_length _ _ _
    have hpat : PatOf st.syms.sym r.scope.ctx.length r.scope.lhs (.symb r'.lhs.symbol r'.lhs.args) := by
      rw [hl]
      exact hm.lhs.congr fun c hc => (hf c (by simp [PRule.consts, hc])).2.symm
    have hfo : FOTop r.scope.lhs := by
      have := hpat
      generalize hq : Pattern.symb r'.lhs.symbol r'.lhs.args = q at this
      generalize r.scope.lhs = t at this ⊢
      cases this with
      | var => cases hq
      | wild => cases hq
      | @symb c args ps hl' hps =>
        refine ⟨c, args, rfl, fun a ha => ?_⟩
        obtain ⟨i, hi, rfl⟩ := List.getElem_of_mem ha
        exact (hps i hi (hl' ▸ hi)).foPat
    obtain ⟨r1, h2⟩ := (C20_accepted_iff st.syms r.scope).2 ⟨fun c hc => (hf c hc).1, hfo⟩
    obtain ⟨e1, e2, e3⟩ := C20_result _ _ _ h2
    have hr1 : r1 = r' := by
      have e4 := C20_pattern_unique _ _ _ _ e2 _ hpat
      obtain ⟨c1, ⟨s1, a1⟩, b1⟩ := r1
      obtain ⟨c2, ⟨s2, a2⟩, b2⟩ := r'
      simp only at e1 e3 e4 hctx hrhs
      simp only [Pattern.symb.injEq] at e4
      rw [e1, e3, hctx, hrhs, e4.1, e4.2]
      congr 1
      · refine List.map_congr_left fun a ha => ?_
        rw [resolveOpt_congr a.2 fun c hc => (hf c ?_).2]
        simp only [PRule.consts, List.mem_append, List.mem_flatMap]
        exact .inl (.inl ⟨a, ha, hc⟩)
      · exact resolve_congr _ fun c hc => (hf c (by simp [PRule.consts, hc])).2
    rw [List.map_cons, shareRules, h2, ih, hr1]

theorem shareCmd_complete_intro {st : ShState} {ns : List (List Str × Str)} (h : SymInv st ns) {x : Str} {args : List (Str × PTerm PSymb)}
    {it : Intro (PTerm PSymb)} {it' : Intro LTerm} (hx : (st.syms.path, x) ∉ ns) (hi : IntroMeans (Refers ns st.syms.path) args it it') :
    (shareCmd st (PCmd.scope (.intro x args it))).2 = .ok (.intro ns.length it') := by
  obtain ⟨f, hf, rfl⟩ := hi
  have hf' := fun c hc => h.sym_eq (hf c hc)
  have h1 : Scoped.share st.syms (PCmd.scope (.intro x args it)) = .ok (.intro x
      (((it.scope (teleEnv (args.map Prod.fst))).telescope (scopeTele PTerm.scope [] args)).resolve f)) := by
    refine (introShare_ok ..).2 ⟨fun c hc => (hf' c hc).1, ?_⟩
    rw [telescope_resolve, introResolve_congr (g := f) (it.scope _) fun c hc => (hf' c (.inl hc)).2]
    rw [wrapArgs_congr (f := st.syms.sym) (g := f)]
    intro c hc
    exact (hf' c (.inr (by simpa [argConsts] using hc))).2
  unfold shareCmd
  rw [h1]
  simp only
  have h2 : st.syms.insert x st.next = ((st.syms.insert x st.next).1, .ok st.next) := by
    have : st.syms.cur x = none := by
      cases hc : st.syms.cur x with
      | none => rfl
      | some i =>
        refine absurd (List.mem_iff_getElem?.2 ⟨i, (h.prov _ _ _).1 ?_⟩) hx
        rw [← Symbols.at'_some, Symbols.at']
        rw [Symbols.cur] at hc
        cases hm : st.syms.mods st.syms.path with
        | none => simp [hm] at hc
        | some t => simpa [hm] using hc
    simp [Symbols.insert, this]
  rw [h2]
  simp only
  rw [h.next]

theorem shareAll_complete {st : ShState} {ns : List (List Str × Str)} (h : SymInv st ns) {cs : List (PCmd (PTerm PSymb))} {es : List Entry}
    {cmds : List Cmd} (hs : Shared ns (cs.map (Entry.mk st.syms.path) ++ es) cmds) :
    ∃ cmds1 cmds2, cmds = cmds1 ++ cmds2 ∧ (shareAll st (cs.map fun c => .ok c.scope)).2 = cmds1.map .ok ∧
      SymInv (shareAll st (cs.map fun c => .ok c.scope)).1 (ns ++ declared (cs.map (Entry.mk st.syms.path))) ∧
      Shared (ns ++ declared (cs.map (Entry.mk st.syms.path))) es cmds2 := by
  induction cs generalizing st ns cmds with
  | nil => exact ⟨[], cmds, rfl, rfl, by simpa [shareAll, declared] using h, by simpa [declared] using hs⟩
  | cons c cs ih =>
    have step : ∀ cmd cmds', cmds = cmd :: cmds' → (shareCmd st c.scope).2 = .ok cmd →
        Shared (ns ++ declared [⟨st.syms.path, c⟩]) (cs.map (Entry.mk st.syms.path) ++ es) cmds' →
        ∃ cmds1 cmds2, cmds = cmds1 ++ cmds2 ∧ (shareAll st ((c :: cs).map fun c => .ok c.scope)).2 = cmds1.map .ok ∧
          SymInv (shareAll st ((c :: cs).map fun c => .ok c.scope)).1 (ns ++ declared ((c :: cs).map (Entry.mk st.syms.path))) ∧
          Shared (ns ++ declared ((c :: cs).map (Entry.mk st.syms.path))) es cmds2 := by
      rintro cmd cmds' rfl hc hs'
      obtain ⟨h1, h2, -⟩ := shareCmd_spec h c hc
      rw [← h1] at hs'
      obtain ⟨cmds1, cmds2, rfl, h3, h4, h5⟩ := ih (st := (shareCmd st c.scope).1) (by rw [h1]; exact h2) hs'
      rw [h1] at h4 h5
      have hd : ∀ as, ns ++ declared [⟨st.syms.path, c⟩] ++ declared as = ns ++ declared (⟨st.syms.path, c⟩ :: as) := by
        intro as
        rw [List.append_assoc, ← declared_append]
        rfl
      rw [hd] at h4 h5
      refine ⟨cmd :: cmds1, cmds2, rfl, ?_, h4, h5⟩
      simp only [List.map_cons, shareAll, shareStep, hc, h3]
    rw [List.map_cons, List.cons_append] at hs
    generalize hm : st.syms.path = m at hs
    cases hs with
    | intro hx hi hs =>
      subst hm
      exact step _ _ rfl (shareCmd_complete_intro h hx hi) (by simpa [declared] using hs)
    | rules hr hs =>
      subst hm
      refine step _ _ rfl ?_ (by simpa [declared] using hs)
      unfold shareCmd
      rw [PCmd.scope, Scoped.share, rulesShare_complete h hr]

/-! ## Parsing succeeds -/

theorem parseText_of {text : Str} {cs : List (PCmd (PTerm PSymb))} (h : TextOf text cs) : parseText text = cs.map fun c => .ok c.scope := by
  have hr := (textOf_iff _ _).1 h
  have hlen := lazyRun_length scopeSymb (splitLines [] text) 0 PState.new PCtx.new
  have hlen' := splitLines_length [] text
  have h3 := lazyRun_scope (splitLines [] text) 0 PState.new PCtx.new PState.new_clean
  rw [show (PState.new : PState PSymb).scope PCtx.new = PState.new from rfl, show (PCtx.new : PCtx PSymb).scope = PCtx.new from rfl] at h3
  have h1 := items_run scopeAtom (splitLines [] text) (text.length + 3) 0 PState.new PCtx.new PState.new_open
  rw [hr] at h3 hlen
  rw [h3] at h1
  simp only [List.length_nil, Nat.zero_add] at hlen hlen'
  simp only at h1
  have h1 : (LazyP.new (splitLines [] text)).items scopeAtom (text.length + 3) = _ := h1
  unfold parseText
  rw [h1, List.take_of_length_le (by simp; omega)]
  simp

theorem openFiles_complete {fs : FileSystem} {stdin : Str} {paths : List Str} {srcs : List (List Str × Str)}
    (h : Sources fs stdin paths srcs) : openFiles fs stdin paths = (srcs.map fun a => ⟨a.1, parseText a.2⟩).map .ok := by
  induction h with
  | nil => rfl
  | stdin hp hm hd _ ih =>
    obtain ⟨h1, h2, rfl⟩ := hp
    rw [openFiles, (C36_module_path _ h2 h1 _).2 hm]
    simp only
    rw [if_pos ((C36_dash _ h2 h1).2 hd), ih]
    rfl
  | file hp hm hd ht _ ih =>
    obtain ⟨h1, h2, rfl⟩ := hp
    rw [openFiles, (C36_module_path _ h2 h1 _).2 hm]
    simp only
    rw [if_neg fun h => hd ((C36_dash _ h2 h1).1 h), ht, ih]
    rfl

theorem allCmds_complete {opt : Opt} (ho : opt.omitted = none) {srcs : List (List Str × Str)} {es : List Entry} (hp : ProgramOf srcs es)
    {st : ShState} {ns : List (List Str × Str)} (h : SymInv st ns) {cmds : List Cmd} (hs : Shared ns es cmds) :
    allCmds opt st (srcs.map fun a => ⟨a.1, parseText a.2⟩) = cmds.map .ok := by
  have hkeep : ∀ cs : List (Out Scoped), cs.filter (keepShare opt) = cs := by
    intro cs
    rw [List.filter_eq_self]
    intro c _
    simp [keepShare, Opt.omits, ho]
  induction hp generalizing st ns cmds with
  | nil => cases hs; rfl
  | @cons m text cs srcs es ht _ ih =>
    have hinv := h.setPath m
    have hpath : (st.syms.setPath m).path = m := Symbols.setPath_path
    obtain ⟨cmds1, cmds2, rfl, h1, h2, h3⟩ := shareAll_complete hinv (cs := cs) (es := es) (cmds := cmds) (by rw [hpath]; exact hs)
    simp only [List.map_cons, allCmds, fileCmds, hkeep, parseText_of ht]
    rw [h1, ih h2 h3, List.map_append]

/-! ## Written commands and shared commands -/

theorem scopeArgs_isEmpty (env : List (Option Str)) (ts : List (PTerm PSymb)) : (scopeArgs env ts).isEmpty = ts.isEmpty := by
  cases ts <;> simp [scopeArgs]

theorem denList_isEmpty (f : PSymb → Sym) (ts : List (PTerm Atom)) : (PTerm.denList f ts).isEmpty = ts.isEmpty := by
  cases ts <;> simp [PTerm.denList]

mutual
  theorem PTerm.known_scope (t : PTerm PSymb) (env : List (Option Str)) (g : Bool) : (t.scope env).Known g ↔ t.Known g := by
    cases t with
    | app hd args =>
      rw [PTerm.scope, PTerm.Known, PTerm.Known, PHead.known_scope hd env, PTerm.knownList_scope args env, scopeArgs_isEmpty]
  theorem PHead.known_scope (t : PHead PSymb) (env : List (Option Str)) (g : Bool) : (t.scope env).Known g ↔ t.Known g := by
    cases t with
    | atom a => rw [PHead.scope, PHead.Known, PHead.Known]
    | abst x ty tm =>
      cases ty with
      | none => rw [PHead.scope, PHead.Known, PHead.Known, PTerm.known_scope tm]
      | some ty => rw [PHead.scope, PHead.Known, PHead.Known, PTerm.known_scope ty, PTerm.known_scope tm]
    | prod x ty tm => rw [PHead.scope, PHead.Known, PHead.Known, PTerm.known_scope ty, PTerm.known_scope tm]
  theorem PTerm.knownList_scope (ts : List (PTerm PSymb)) (env : List (Option Str)) :
      PTerm.KnownList (scopeArgs env ts) ↔ PTerm.KnownList ts := by
    cases ts with
    | nil => rw [scopeArgs, PTerm.KnownList, PTerm.KnownList]
    | cons t ts => rw [scopeArgs, PTerm.KnownList, PTerm.KnownList, PTerm.known_scope t, PTerm.knownList_scope ts]
end

mutual
  theorem PTerm.known_den (t : PTerm Atom) (f : PSymb → Sym) (g : Bool) : (t.den f).Known g ↔ t.Known g := by
    cases t with
    | app hd args =>
      rw [PTerm.den, Tm.known_apps, PTerm.Known, PHead.known_den hd f, PTerm.knownList_den args f, denList_isEmpty]
  theorem PHead.known_den (t : PHead Atom) (f : PSymb → Sym) (g : Bool) : (t.den f).Known g ↔ t.Known g := by
    cases t with
    | atom a => cases a <;> simp [PHead.den, Tm.Known, PHead.Known]
    | abst x ty tm =>
      cases ty with
      | none => rw [PHead.den, Tm.Known, PHead.Known, PTerm.known_den tm f]
      | some ty => rw [PHead.den, Tm.Known, PHead.Known, PTerm.known_den ty f, PTerm.known_den tm f]
    | prod x ty tm => rw [PHead.den, Tm.Known, PHead.Known, PTerm.known_den ty f, PTerm.known_den tm f]
  theorem PTerm.knownList_den (ts : List (PTerm Atom)) (f : PSymb → Sym) : (∀ a ∈ PTerm.denList f ts, a.Known true) ↔ PTerm.KnownList ts := by
    cases ts with
    | nil => simp [PTerm.denList, PTerm.KnownList]
    | cons t ts => rw [PTerm.denList, List.forall_mem_cons, PTerm.KnownList, PTerm.known_den t f, PTerm.knownList_den ts f]
end

theorem scopeTele_known {args : List (Str × PTerm PSymb)} (env : List (Option Str)) :
    (∀ a ∈ scopeTele PTerm.scope env args, a.2.Known false) ↔ ∀ a ∈ args, a.2.Known false := by
  induction args generalizing env with
  | nil => simp [scopeTele]
  | cons a args ih =>
    obtain ⟨x, A⟩ := a
    rw [List.forall_mem_cons, scopeTele, List.forall_mem_cons, ih]
    simp only [PTerm.known_scope]

theorem telescopeType_known {args : List (Str × PTerm Atom)} {t : PTerm Atom} :
    (telescopeType args t).Known false ↔ (∀ a ∈ args, a.2.Known false) ∧ t.Known false := by
  induction args with
  | nil => simp [telescopeType]
  | cons a args ih =>
    obtain ⟨x, A⟩ := a
    rw [List.forall_mem_cons, and_assoc, ← ih]
    simp only [telescopeType, PTerm.new, PTerm.Known, PHead.Known, PTerm.KnownList, and_true]

theorem telescopeTerm_known {args : List (Str × PTerm Atom)} {t : PTerm Atom} {g : Bool} :
    (telescopeTerm args t).Known g ↔ (∀ a ∈ args, a.2.Known false) ∧ t.Known g := by
  induction args with
  | nil => simp [telescopeTerm]
  | cons a args ih =>
    obtain ⟨x, A⟩ := a
    rw [List.forall_mem_cons, and_assoc, ← ih]
    simp only [telescopeTerm, PTerm.new, PTerm.Known, PHead.Known, PTerm.KnownList, and_true, List.isEmpty_nil, Bool.and_true]

theorem IntroMeans.known {R : PSymb → Sym → Prop} {x : Str} {args : List (Str × PTerm PSymb)} {it : Intro (PTerm PSymb)} {it' : Intro LTerm}
    (h : IntroMeans R args it it') (s : Sym) :
    (PCmd.Known (.intro x args it) → Cmd.Known (.intro s it')) ∧
    (it' ≠ .definition none none → Cmd.Known (.intro s it') → PCmd.Known (.intro x args it)) := by
  obtain ⟨f, -, rfl⟩ := h
  have kty : ∀ ty : PTerm PSymb,
      ((telescopeType (scopeTele PTerm.scope [] args) (ty.scope (teleEnv (args.map Prod.fst)))).resolve f).den.Known false ↔
        (∀ a ∈ args, a.2.Known false) ∧ ty.Known false := by
    intro ty
    rw [resolve_den, PTerm.known_den, telescopeType_known, scopeTele_known, PTerm.known_scope]
  have ktm : ∀ (tm : PTerm PSymb) (g : Bool),
      ((telescopeTerm (scopeTele PTerm.scope [] args) (tm.scope (teleEnv (args.map Prod.fst)))).resolve f).den.Known g ↔
        (∀ a ∈ args, a.2.Known false) ∧ tm.Known g := by
    intro tm g
    rw [resolve_den, PTerm.known_den, telescopeTerm_known, scopeTele_known, PTerm.known_scope]
  cases it with
  | definition oty otm =>
    cases oty with
    | none =>
      cases otm with
      | none => exact ⟨fun _ => ⟨fun A hA => (by cases hA), fun t ht => (by cases ht)⟩, fun hn => absurd rfl hn⟩
      | some tm =>
        refine ⟨fun h => ⟨fun A hA => (by cases hA), fun t ht => ?_⟩, fun _ h => ?_⟩
        · cases ht
          exact (ktm tm false).2 ⟨h.1, h.2.2 tm rfl⟩
        · have := (ktm tm false).1 (h.2 _ rfl)
          exact ⟨this.1, fun ty hty => (by cases hty), fun t ht => (by cases ht; exact this.2)⟩
    | some ty =>
      cases otm with
      | none =>
        refine ⟨fun h => ⟨fun A hA => ?_, fun t ht => (by cases ht)⟩, fun _ h => ?_⟩
        · cases hA
          exact (kty ty).2 ⟨h.1, h.2.1 ty rfl⟩
        · have := (kty ty).1 (h.1 _ rfl)
          exact ⟨this.1, fun t ht => (by cases ht; exact this.2), fun t ht => (by cases ht)⟩
      | some tm =>
        refine ⟨fun h => ⟨fun A hA => ?_, fun t ht => ?_⟩, fun _ h => ?_⟩
        · cases hA
          exact (kty ty).2 ⟨h.1, h.2.1 ty rfl⟩
        · cases ht
          exact (ktm tm true).2 ⟨h.1, h.2.2 tm rfl⟩
        · have h1 := (kty ty).1 (h.1 _ rfl)
          have h2 := (ktm tm true).1 (h.2 _ rfl)
          exact ⟨h1.1, fun t ht => (by cases ht; exact h1.2), fun t ht => (by cases ht; exact h2.2)⟩
  | theorem_ ty tm =>
    refine ⟨fun h => ⟨fun A hA => ?_, fun t ht => ?_⟩, fun _ h => ?_⟩
    · cases hA
      exact (kty ty).2 ⟨h.1, h.2.1 ty rfl⟩
    · cases ht
      exact (ktm tm true).2 ⟨h.1, h.2.2 tm rfl⟩
    · have h1 := (kty ty).1 (h.1 _ rfl)
      have h2 := (ktm tm true).1 (h.2 _ rfl)
      exact ⟨h1.1, fun t ht => (by cases ht; exact h1.2), fun t ht => (by cases ht; exact h2.2)⟩
  | declaration inj ty =>
    refine ⟨fun h => ⟨fun A hA => ?_, fun t ht => (by cases ht)⟩, fun _ h => ?_⟩
    · cases hA
      exact (kty ty).2 ⟨h.1, h.2.1 ty rfl⟩
    · have := (kty ty).1 (h.1 _ rfl)
      exact ⟨this.1, fun t ht => (by cases ht; exact this.2), fun t ht => (by cases ht)⟩

theorem Shared.known {ns : List (List Str × Str)} {es : List Entry} {cmds : List Cmd} (h : Shared ns es cmds)
    (ha : Directed es) : ∀ cmd ∈ cmds, cmd.Known := by
  unfold Directed at ha
  induction h with
  | nil => simp
  | intro _ hi _ ih =>
    rw [List.forall_mem_cons] at ha ⊢
    exact ⟨(hi.known _).1 ha.1, ih ha.2⟩
  | rules hr _ ih =>
    rw [List.forall_mem_cons] at ha ⊢
    refine ⟨?_, ih ha.2⟩
    intro r' hr'
    obtain ⟨r, h1, f, -, -, h2⟩ := forall₂_right hr hr'
    rw [h2, resolve_den, PTerm.known_den]
    exact (PTerm.known_scope _ _ _).2 (ha.1 r h1)

theorem Shared.directed {ns : List (List Str × Str)} {es : List Entry} {cmds : List Cmd} (h : Shared ns es cmds)
    (hn : ∀ s, Cmd.intro s (.definition none none) ∉ cmds) (ha : ∀ cmd ∈ cmds, cmd.Known) : Directed es := by
  unfold Directed
  induction h with
  | nil => simp
  | intro _ hi _ ih =>
    rw [List.forall_mem_cons] at ha ⊢
    refine ⟨(hi.known _).2 ?_ ha.1, ih (fun s hs => hn s (List.mem_cons_of_mem _ hs)) ha.2⟩
    rintro rfl
    exact hn _ List.mem_cons_self
  | rules hr _ ih =>
    rw [List.forall_mem_cons] at ha ⊢
    refine ⟨?_, ih (fun s hs => hn s (List.mem_cons_of_mem _ hs)) ha.2⟩
    intro r hr0
    obtain ⟨r', h1, f, -, -, h2⟩ := forall₂_left hr hr0
    have := ha.1 r' h1
    rw [h2, resolve_den, PTerm.known_den] at this
    exact (PTerm.known_scope _ _ _).1 this

theorem SessionIn.noEmpty {eta : Bool} {cmds : List Cmd} {T : Theory} (h : SessionIn eta cmds T) (s : Sym) : Cmd.intro s (.definition none none) ∉ cmds := by
  induction h with
  | nil => simp
  | intro _ _ hI ih =>
    intro hm
    rcases List.mem_append.1 hm with hm | hm
    · exact ih hm
    · cases List.mem_singleton.1 hm
      cases hI
  | rules _ _ ih =>
    intro hm
    rcases List.mem_append.1 hm with hm | hm
    · exact ih hm
    · cases List.mem_singleton.1 hm

theorem PatOf.patTm {f : PSymb → Sym} {n : Nat} {t : PTerm Atom} {p : Pattern} (h : PatOf f n t p) (hn : ¬ OccursIn n t) :
    PatTm p (t.den f) := by
  induction h with
  | var => exact .var
  | wild => exact absurd .here hn
  | @symb c args ps hl _ ih =>
    have hlen : ∀ l : List (PTerm Atom), (PTerm.denList f l).length = l.length := by
      intro l
      induction l with
      | nil => rfl
      | cons a l ih => simp [PTerm.denList, ih]
    have hget : ∀ (l : List (PTerm Atom)) (i : Nat), (PTerm.denList f l)[i]? = l[i]?.map (PTerm.den f) := by
      intro l
      induction l with
      | nil => simp [PTerm.denList]
      | cons a l ih => intro i; cases i <;> simp [PTerm.denList, ih]
    rw [PTerm.den, PHead.den]
    refine .symb (by rw [hlen, hl]) fun i p t hp ht => ?_
    rw [hget] at ht
    obtain ⟨h1, h1'⟩ := List.getElem?_eq_some_iff.1 hp
    have h2 : i < args.length := hl ▸ h1
    rw [List.getElem?_eq_getElem h2] at ht
    cases ht
    subst h1'
    exact ih i h2 h1 fun ho => hn (.arg (List.getElem_mem h2) ho)

theorem RuleShared.full {R : PSymb → Sym → Prop} {r : PRule (PTerm PSymb)} {r' : Rule} (h : RuleShared R r r') (hf : r.Full) : r'.Full := by
  obtain ⟨f, hm, hctx, hrhs⟩ := h
  have hsome : ∀ (l : List (Str × Option (PTerm PSymb))) (env : List (Option Str)), (∀ a ∈ l, a.2.isSome) →
      ∃ tys : List LTerm, ((scopeTele (fun env ty => ty.map (PTerm.scope env)) env l).map fun a => (a.1, PTerm.resolveOpt f a.2)).map Prod.snd =
        tys.map some := by
    intro l
    induction l with
    | nil => exact fun _ _ => ⟨[], rfl⟩
    | cons a l ih =>
      intro env h
      obtain ⟨x, o⟩ := a
      rw [List.forall_mem_cons] at h
      obtain ⟨tys, ht⟩ := ih (some x :: env) h.2
      obtain ⟨A, hA⟩ := Option.isSome_iff_exists.1 h.1
      simp only at hA
      subst hA
      refine ⟨(A.scope env).resolve f :: tys, ?_⟩
      rw [scopeTele, List.map_cons, List.map_cons, ht]
      rfl
  obtain ⟨tys, ht⟩ := hsome r.ctx [] hf.1
  refine ⟨_, _, _, tys, ?_, rfl, hm.lhs.patTm hf.2, rfl⟩
  rw [hctx]
  exact ht

theorem Shared.full {ns : List (List Str × Str)} {es : List Entry} {cmds : List Cmd} (h : Shared ns es cmds)
    (hf : ∀ m rs, ⟨m, .rules rs⟩ ∈ es → ∀ r ∈ rs, r.Full) : ∀ rs, Cmd.rules rs ∈ cmds → ∀ r ∈ rs, r.Full := by
  induction h with
  | nil => simp
  | intro _ _ _ ih =>
    intro rs hrs
    rcases List.mem_cons.1 hrs with h | h
    · cases h
    · exact ih (fun m rs h => hf m rs (List.mem_cons_of_mem _ h)) rs h
  | rules hr _ ih =>
    intro rs hrs
    rcases List.mem_cons.1 hrs with h | h
    · cases h
      intro r' hr'
      obtain ⟨r, h1, h2⟩ := forall₂_right hr hr'
      exact h2.full (hf _ _ (List.mem_cons_self ..) r h1)
    · exact ih (fun m rs h => hf m rs (List.mem_cons_of_mem _ h)) rs h

theorem allCmds_proper {opt : Opt} {st : ShState} {files : List ParsedFile} : ∀ cmd, .ok cmd ∈ allCmds opt st files → cmd.Proper := by
  induction files generalizing st with
  | nil => simp [allCmds]
  | cons f fs ih =>
    intro cmd h
    rw [allCmds] at h
    rcases List.mem_append.1 h with h | h
    · exact shareAll_proper cmd h
    · exact ih cmd h

end Kontroli
