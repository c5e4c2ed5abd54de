import Verif.Spec.Correct
import Verif.Spec.Program
import Verif.Props.Path
import Verif.Props.Scope
import Verif.Props.Share
import Verif.Props.Session
import Verif.Props.Process
import Verif.Proofs.TextGrammar

/-!
# Lemmas on the meaning of programs
-/

namespace Kontroli

/-! ## Parsing of a text -/

theorem lexN_length (n : Nat) (s : Str) : (lexN n s).length ≤ n := by
  induction n generalizing s with
  | zero => simp [lexN]
  | succ n ih =>
    unfold lexN
    split
    · simp
    · exact Nat.le_succ_of_le (ih _)
    · simpa using ih _

theorem lexFrom_length (n : Nat) (s : Str) : (lexFrom n s).length ≤ s.length + 1 := by
  have h := comment_length n s
  unfold lexFrom
  split
  · next r hc =>
    rw [hc] at h
    exact Nat.le_succ_of_le (Nat.le_trans (lexN_length _ r) h)
  · simp

theorem pRun_length {A : Type} (sc : ScopeFn A) (st : PState A) (ctx : PCtx A) (ts : List Token) :
    (pRun sc st ctx ts).1.length ≤ ts.length := by
  induction ts generalizing st ctx with
  | nil => simp [pRun]
  | cons t ts ih =>
    cases ht : t.plain with
    | false =>
      cases t <;> first | (simp [Token.plain] at ht; done) | exact Nat.le_succ_of_le (ih _ _)
    | true =>
      rw [pRun_cons _ _ _ _ _ ht]
      cases pstep sc ctx st t with
      | more st ctx => exact Nat.le_succ_of_le (ih _ _)
      | cmd c ctx => simpa using ih _ _
      | err e ctx => simp
      | panic ctx => simp

theorem lazyRun_length {A : Type} (sc : ScopeFn A) (lines : List Str) (n : Nat) (st : PState A) (ctx : PCtx A) :
    (lazyRun sc lines n st ctx).1.length ≤ (lines.map fun l => l.length + 1).sum := by
  induction lines generalizing n st ctx with
  | nil => simp [lazyRun]
  | cons l lines ih =>
    have h1 := pRun_length sc st ctx (lexFrom n l)
    have h2 := lexFrom_length n l
    unfold lazyRun
    split
    · simp
    · simp
    · next cs st' ctx' he =>
      rw [he] at h1
      have := ih (openOf (lexFrom n l)) st' ctx'
      simp only [List.length_append, List.map_cons, List.sum_cons]
      simp only at h1
      omega

theorem splitLines_length (acc s : Str) : ((splitLines acc s).map fun l => l.length + 1).sum ≤ acc.length + s.length + 1 := by
  fun_induction splitLines acc s with
  | case1 => simp
  | case2 acc h => simp
  | case3 acc s ih =>
    simp only [List.map_cons, List.sum_cons, List.length_cons, List.length_nil] at ih ⊢
    split
    · simp only [List.length_dropLast]; omega
    · omega
  | case4 acc c s h ih =>
    simp only [List.length_append, List.length_cons, List.length_nil] at ih ⊢
    omega

theorem textOf_iff (text : Str) (cs : List (PCmd (PTerm PSymb))) :
    TextOf text cs ↔ lazyRun scopeSymb (splitLines [] text) 0 PState.new PCtx.new = (cs, none) := by
  rw [lazyRun_iff]
  constructor
  · rintro ⟨lines, ts, h, h1⟩
    exact ⟨ts, (linesOf_iff _ _).1 h ▸ h1⟩
  · rintro ⟨ts, h⟩
    exact ⟨_, ts, (linesOf_iff _ _).2 rfl, h⟩

/-- the commands of a parsed text that has no errors -/
theorem parseText_ok {text : Str} (h : ∀ c ∈ parseText text, c.isOk = true) :
    ∃ cs, TextOf text cs ∧ parseText text = cs.map fun c => .ok c.scope := by
  have hlen := lazyRun_length scopeSymb (splitLines [] text) 0 PState.new PCtx.new
  have hlen' := splitLines_length [] text
  have h3 := lazyRun_scope (splitLines [] text) 0 PState.new PCtx.new PState.new_clean
  rw [show (PState.new : PState PSymb).scope PCtx.new = PState.new from rfl, show (PCtx.new : PCtx PSymb).scope = PCtx.new from rfl] at h3
  have h1 := items_run scopeAtom (splitLines [] text) (text.length + 3) 0 PState.new PCtx.new PState.new_open
  cases hr : lazyRun scopeSymb (splitLines [] text) 0 PState.new PCtx.new with
  | mk cs e =>
    rw [hr] at h3 hlen
    rw [h3] at h1
    simp only [List.length_nil, Nat.zero_add] at hlen hlen'
    cases e with
    | none =>
      refine ⟨cs, (textOf_iff _ _).2 hr, ?_⟩
      · simp only at h1
        have h1 : (LazyP.new (splitLines [] text)).items scopeAtom (text.length + 3) = _ := h1
        unfold parseText
        rw [h1, List.take_of_length_le (by simp; omega)]
        simp
    | some e =>
      exfalso
      simp only at h1
      have h1 : ((LazyP.new (splitLines [] text)).items scopeAtom (text.length + 3)).take _ = _ := h1
      rw [List.take_of_length_le (l := _ ++ _) (by simp; omega)] at h1
      have hm : failOut e ∈ (LazyP.new (splitLines [] text)).items scopeAtom (text.length + 3) := by
        apply List.mem_of_mem_take (i := (cs.map PCmd.scope).length + 1)
        rw [h1]; simp
      have := h _ (List.mem_map_of_mem hm)
      cases e <;> simp [failOut, Out.isOk] at this

/-! ## Scoping of telescopes -/

theorem telescopeType_scope (args : List (Str × PTerm PSymb)) (t : PTerm PSymb) (env : List (Option Str)) :
    (telescopeType args t).scope env =
      telescopeType (scopeTele PTerm.scope env args) (t.scope (teleEnv (args.map Prod.fst) ++ env)) := by
  induction args generalizing env with
  | nil => rfl
  | cons a args ih =>
    obtain ⟨x, A⟩ := a
    simp [telescopeType, scopeTele, PTerm.new, PTerm.scope, PHead.scope, scopeArgs, ih, teleEnv]

theorem telescopeTerm_scope (args : List (Str × PTerm PSymb)) (t : PTerm PSymb) (env : List (Option Str)) :
    (telescopeTerm args t).scope env =
      telescopeTerm (scopeTele PTerm.scope env args) (t.scope (teleEnv (args.map Prod.fst) ++ env)) := by
  induction args generalizing env with
  | nil => rfl
  | cons a args ih =>
    obtain ⟨x, A⟩ := a
    simp [telescopeTerm, scopeTele, PTerm.new, PTerm.scope, PHead.scope, scopeArgs, ih, teleEnv]

theorem scopeTele_length {T T' : Type} (f : List (Option Str) → T → T') (env : List (Option Str)) (l : List (Str × T)) :
    (scopeTele f env l).length = l.length := by
  induction l generalizing env with
  | nil => rfl
  | cons a l ih => obtain ⟨x, t⟩ := a; simp [scopeTele, ih]

/-! ## Sharing -/

/-- the state of sharing after the introduction of some names -/
structure SymInv (st : ShState) (ns : List (List Str × Str)) : Prop where
  next : st.next = ns.length
  prov : ∀ m n s, st.syms.Provides m n s ↔ ns[s]? = some (m, n)

theorem SymInv.new : SymInv ShState.new [] := by
  refine ⟨rfl, fun m n s => ?_⟩
  constructor
  · intro h
    exact absurd (ShState.Inv.new.old m n s h) (Nat.not_lt_zero _)
  · simp

theorem SymInv.refers {st : ShState} {ns : List (List Str × Str)} (h : SymInv st ns) (c : PSymb) (s : Sym) :
    st.syms.Resolves c.path c.name s ↔ Refers ns st.syms.path c s := by
  unfold Symbols.Resolves Refers
  simp only [h.prov]
  refine exists_congr fun p => and_congr_right fun _ => and_congr_right fun _ => forall_congr' fun p' =>
    forall_congr' fun _ => forall_congr' fun _ => ?_
  rw [List.mem_iff_getElem?]
  simp

theorem SymInv.known {st : ShState} {ns : List (List Str × Str)} (h : SymInv st ns) {c : PSymb} (hc : st.syms.Known c) :
    Refers ns st.syms.path c (st.syms.sym c) := (h.refers c _).1 (C18_sym _ _ hc)

theorem SymInv.setPath {st : ShState} {ns : List (List Str × Str)} (h : SymInv st ns) (path : List Str) :
    SymInv { st with syms := st.syms.setPath path } ns :=
  ⟨h.next, fun m n s => ((C15_set_path st.syms path).2 m n s).trans (h.prov m n s)⟩

theorem SymInv.insert {st : ShState} {ns : List (List Str × Str)} (h : SymInv st ns) {x : Str} (hx : (st.syms.path, x) ∉ ns) :
    SymInv ⟨(st.syms.insert x st.next).1, st.next + 1⟩ (ns ++ [(st.syms.path, x)]) := by
  refine ⟨by simp [h.next], fun m n s => ?_⟩
  rw [← Symbols.at'_some, Symbols.insert_at']
  split
  · next hc =>
    obtain ⟨rfl, rfl⟩ := hc
    rw [h.next]
    constructor
    · intro e
      simp only [Option.some.injEq] at e
      subst e
      simp
    · intro e
      have hs : ¬ s < ns.length := fun hs => by
        rw [List.getElem?_append_left hs] at e
        exact hx (List.mem_of_getElem? e)
      have := (List.getElem?_eq_some_iff.1 e).1
      simp only [List.length_append, List.length_cons, List.length_nil, Nat.zero_add] at this
      exact congrArg some (Nat.le_antisymm (Nat.not_lt.1 hs) (Nat.le_of_lt_succ this))
  · next hc =>
    rw [Symbols.at'_some, h.prov]
    constructor
    · intro e
      rw [List.getElem?_append_left (List.getElem?_eq_some_iff.1 e).1]
      exact e
    · intro e
      by_cases hs : s < ns.length
      · rwa [List.getElem?_append_left hs] at e
      · rw [List.getElem?_append_right (Nat.not_lt.1 hs)] at e
        cases hk : s - ns.length with
        | zero =>
          rw [hk] at e
          simp at e
          exact absurd ⟨e.1.symm, e.2.symm⟩ hc
        | succ k => rw [hk] at e; simp at e

theorem rulesShare_spec {s : Symbols} {ns : List (List Str × Str)} {m : List Str} {rs : List (PRule (PTerm PSymb))} {rs' : List Rule}
    (hk : ∀ c, s.Known c → Refers ns m c (s.sym c)) (h : shareRules s (rs.map PRule.scope) = .ok rs') :
    List.Forall₂ (RuleShared (Refers ns m)) rs rs' := by
  induction rs generalizing rs' with
  | nil =>
    rw [List.map_nil, shareRules] at h
    cases h
    exact .nil
  | cons r rs ih =>
    rw [List.map_cons, shareRules] at h
    cases h1 : r.scope.share s with
    | error e => rw [h1] at h; simp at h
    | ok r1 =>
      rw [h1] at h
      simp only at h
      cases h2 : shareRules s (rs.map PRule.scope) with
      | error e => rw [h2] at h; simp at h
      | ok rs1 =>
        rw [h2] at h
        cases h
        refine .cons ⟨s.sym, ⟨?_, ?_, ?_⟩, ?_, ?_⟩ (ih h2)
        · exact fun c hc => hk c (((C20_accepted_iff s r.scope).1 ⟨_, h1⟩).1 c hc)
        · have := (C20_result s r.scope _ h1).2.1
          have hl : r.scope.ctx.length = r.ctx.length := scopeTele_length _ _ _
          rwa [hl] at this
        · rw [(C20_result s r.scope _ h1).2.2, resolve_den]
        · exact (C20_result s r.scope _ h1).1
        · exact (C20_result s r.scope _ h1).2.2

theorem introShare_ok (s : Symbols) (id : Str) (args : List (Str × PTerm Atom)) (it : Intro (PTerm Atom)) (c : SCmd) :
    Scoped.share s (.intro id args it) = .ok c ↔
      (∀ x, x ∈ it.consts ∨ x ∈ argConsts args → s.Known x) ∧ c = .intro id (wrapArgs s.sym args.reverse (it.resolve s.sym)) := by
  have h1 : Scoped.share s (.intro id args it) =
      spec s (it.consts ++ argConsts args.reverse) (.intro id (wrapArgs s.sym args.reverse (it.resolve s.sym))) := by
    rw [Scoped.share, introShare_spec]
    simp only [spec, firstBad_append]
    cases firstBad s it.consts with
    | some c => rfl
    | none =>
      simp only [shareArgs_spec, spec, Option.none_or]
      cases firstBad s (argConsts args.reverse) <;> rfl
  rw [h1, spec_ok_iff]
  simp [argConsts]

theorem shareCmd_spec {st : ShState} {ns : List (List Str × Str)} (h : SymInv st ns) (c : PCmd (PTerm PSymb)) {cmd : Cmd}
    (hc : (shareCmd st c.scope).2 = .ok cmd) :
    (shareCmd st c.scope).1.syms.path = st.syms.path ∧ SymInv (shareCmd st c.scope).1 (ns ++ declared [⟨st.syms.path, c⟩]) ∧
    ∀ es cmds, Shared (ns ++ declared [⟨st.syms.path, c⟩]) es cmds → Shared ns (⟨st.syms.path, c⟩ :: es) (cmd :: cmds) := by
  cases c with
  | rules rs =>
    unfold shareCmd at hc ⊢
    simp only [PCmd.scope, Scoped.share] at hc ⊢
    cases h1 : shareRules st.syms (rs.map PRule.scope) with
    | error e => simp only [h1] at hc; simp at hc
    | ok rs' =>
      simp only [h1, Out.ok.injEq] at hc ⊢
      subst hc
      refine ⟨trivial, by simpa [declared] using h, fun es cmds hs => ?_⟩
      exact .rules (rulesShare_spec (fun c hc => h.known hc) h1) (by simpa [declared] using hs)
  | intro x args it =>
    cases h1 : Scoped.share st.syms (.intro x (scopeTele PTerm.scope [] args) (it.scope (teleEnv (args.map Prod.fst)))) with
    | error e => simp [shareCmd, PCmd.scope, h1] at hc
    | ok c =>
      obtain ⟨h2, rfl⟩ := (introShare_ok ..).1 h1
      cases h3 : st.syms.insert x st.next with
      | mk syms r =>
        cases r with
        | error e => simp [shareCmd, PCmd.scope, h1, h3] at hc
        | ok sym =>
          obtain ⟨rfl, -, h4⟩ := C16_inserted _ _ _ _ _ h3
          have hx : (st.syms.path, x) ∉ ns := by
            intro hm
            obtain ⟨i, hi⟩ := List.mem_iff_getElem?.1 hm
            exact h4 i ((h.prov _ _ _).2 hi)
          have hsyms : syms = (st.syms.insert x st.next).1 := by rw [h3]
          simp only [shareCmd, PCmd.scope, h1, h3, Out.ok.injEq] at hc ⊢
          subst hc
          refine ⟨by rw [hsyms]; rfl, by rw [hsyms]; exact h.insert hx, fun es cmds hs => ?_⟩
          rw [h.next]
          refine .intro hx ⟨st.syms.sym, fun c hc => h.known (h2 c hc), ?_⟩ hs
          rw [telescope_resolve]

theorem declared_append (as bs : List Entry) : declared (as ++ bs) = declared as ++ declared bs := by
  induction as with
  | nil => rfl
  | cons a as ih =>
    obtain ⟨m, c⟩ := a
    cases c <;> simp [declared, ih]

theorem shareAll_spec {st : ShState} {ns : List (List Str × Str)} (h : SymInv st ns) (cs : List (PCmd (PTerm PSymb)))
    (hok : ∀ c ∈ (shareAll st (cs.map fun c => .ok c.scope)).2, c.isOk = true) :
    ∃ cmds, (shareAll st (cs.map fun c => .ok c.scope)).2 = cmds.map .ok ∧
      SymInv (shareAll st (cs.map fun c => .ok c.scope)).1 (ns ++ declared (cs.map (Entry.mk st.syms.path))) ∧
      ∀ es cmds', Shared (ns ++ declared (cs.map (Entry.mk st.syms.path))) es cmds' →
        Shared ns (cs.map (Entry.mk st.syms.path) ++ es) (cmds ++ cmds') := by
  induction cs generalizing st ns with
  | nil => exact ⟨[], rfl, by simpa [shareAll, declared] using h, fun es cmds' hs => by simpa [declared] using hs⟩
  | cons c cs ih =>
    simp only [List.map_cons, shareAll, shareStep, List.mem_cons, forall_eq_or_imp] at hok ⊢
    obtain ⟨cmd, hc⟩ := Out.isOk_iff.1 hok.1
    obtain ⟨h1, h2, h3⟩ := shareCmd_spec h c hc
    obtain ⟨cmds, h4, h5, h6⟩ := ih h2 hok.2
    rw [h1] at h5 h6
    have hd : ∀ as, ns ++ declared [⟨st.syms.path, c⟩] ++ declared as = ns ++ declared (⟨st.syms.path, c⟩ :: as) := by
      intro as
      rw [List.append_assoc, ← declared_append]
      rfl
    rw [hd] at h5 h6
    refine ⟨cmd :: cmds, by rw [hc, h4]; rfl, h5, fun es cmds' hs => ?_⟩
    exact h3 _ _ (h6 _ _ hs)

/-- the texts, the program and its commands -/
theorem program_spec {opt : Opt} (ho : opt.omitted = none) (fs : FileSystem) (paths : List Str) (stdin : Str) (st : ShState)
    (ns : List (List Str × Str)) (files : List ParsedFile) (h : SymInv st ns) (hf : openFiles fs stdin paths = files.map .ok)
    (hok : ∀ c ∈ allCmds opt st files, c.isOk = true) :
    ∃ srcs es cmds, Sources fs stdin paths srcs ∧ ProgramOf srcs es ∧ allCmds opt st files = cmds.map .ok ∧ Shared ns es cmds := by
  have hkeep : ∀ cs : List (Out Scoped), cs.filter (keepShare opt) = cs := by
    intro cs
    rw [List.filter_eq_self]
    intro c _
    simp [keepShare, Opt.omits, ho]
  induction paths generalizing stdin st ns files with
  | nil =>
    cases files with
    | cons f files => simp [openFiles] at hf
    | nil => exact ⟨[], [], [], .nil, .nil, rfl, .nil⟩
  | cons p ps ih =>
    obtain ⟨pieces, hn, hs, rfl⟩ := exists_pieces p
    have hparsed := allCmds_ok st files hok
    have step : ∀ (m : List Str) (text stdin' : Str) (files' : List ParsedFile), files = ⟨m, parseText text⟩ :: files' →
        openFiles fs stdin' ps = files'.map .ok → ∃ srcs es cmds, Sources fs stdin' ps srcs ∧ ProgramOf ((m, text) :: srcs) es ∧
          allCmds opt st files = cmds.map .ok ∧ Shared ns es cmds := by
      rintro m text stdin' files' rfl hf'
      obtain ⟨cs, h1, h2⟩ := parseText_ok (hparsed _ List.mem_cons_self)
      have hinv := h.setPath m
      have hpath : (st.syms.setPath m).path = m := Symbols.setPath_path
      simp only [allCmds, fileCmds, hkeep, h2, List.mem_append] at hok ⊢
      obtain ⟨cmds, h3, h4, h5⟩ := shareAll_spec hinv cs fun c hc => hok c (.inl hc)
      simp only [hpath] at h4 h5
      obtain ⟨srcs, es, cmds', h6, h7, h8, h9⟩ := ih stdin' _ _ files' h4 hf' fun c hc => hok c (.inr hc)
      refine ⟨srcs, _, cmds ++ cmds', h6, .cons h1 h7, by rw [h3, h8, List.map_append], h5 _ _ h9⟩
    rw [openFiles] at hf
    cases hm : modulePath (pathText pieces) with
    | none => rw [hm] at hf; cases files <;> simp at hf
    | some m =>
      rw [hm] at hf
      simp only at hf
      have hmod := (C36_module_path pieces hs hn m).1 hm
      by_cases hd : isDash (pathText pieces) = true
      · rw [if_pos hd] at hf
        cases files with
        | nil => simp at hf
        | cons f files =>
          simp only [List.map_cons, List.cons.injEq, Out.ok.injEq] at hf
          obtain ⟨srcs, es, cmds, h1, h2, h3, h4⟩ := step m stdin [] files (by rw [← hf.1]) hf.2
          exact ⟨_, es, cmds, .stdin ⟨hn, hs, rfl⟩ hmod ((C36_dash pieces hs hn).1 hd) h1, h2, h3, h4⟩
      · rw [if_neg hd] at hf
        cases ht : fs (pathText pieces) with
        | none => rw [ht] at hf; cases files <;> simp at hf
        | some text =>
          rw [ht] at hf
          simp only at hf
          cases files with
          | nil => simp at hf
          | cons f files =>
            simp only [List.map_cons, List.cons.injEq, Out.ok.injEq] at hf
            obtain ⟨srcs, es, cmds, h1, h2, h3, h4⟩ := step m text stdin files (by rw [← hf.1]) hf.2
            exact ⟨_, es, cmds, .file ⟨hn, hs, rfl⟩ hmod (fun h => hd ((C36_dash pieces hs hn).2 h)) ht h1, h2, h3, h4⟩

/-! ## From commands back to the program -/

theorem Shared.nodup {ns : List (List Str × Str)} {es : List Entry} {cmds : List Cmd} (h : Shared ns es cmds) (hn : ns.Nodup) :
    (ns ++ declared es).Nodup := by
  induction h with
  | nil => simpa [declared] using hn
  | @intro ns m x args it it' es cmds hx _ _ ih =>
    have := ih (by rw [List.nodup_append]; exact ⟨hn, by simp, by rintro a ha b hb rfl; simp at hb; exact hx (hb ▸ ha)⟩)
    simpa [declared] using this
  | rules _ _ ih => exact ih hn

theorem Shared.at_intro {ns : List (List Str × Str)} {es : List Entry} {cmds : List Cmd} (h : Shared ns es cmds) :
    ∀ {pre m x args it post}, es = pre ++ ⟨m, .intro x args it⟩ :: post → ∃ cpre it' cpost,
      cmds = cpre ++ .intro (ns ++ declared pre).length it' :: cpost ∧ IntroMeans (Refers (ns ++ declared pre) m) args it it' := by
  induction h with
  | nil => intro pre m x args it post e; cases pre <;> simp at e
  | @intro ns m x args it it' es cmds hx hi _ ih =>
    intro pre m' x' args' itt post e
    cases pre with
    | nil =>
      cases e
      exact ⟨[], it', cmds, by simp [declared], by simpa [declared] using hi⟩
    | cons a pre =>
      cases e
      obtain ⟨cpre, it'', cpost, e1, e2⟩ := ih rfl
      exact ⟨.intro ns.length it' :: cpre, it'', cpost, by rw [e1]; simp [declared], by simpa [declared] using e2⟩
  | @rules ns m rs rs' es cmds hr _ ih =>
    intro pre m' x' args' itt post e
    cases pre with
    | nil => cases e
    | cons a pre =>
      cases e
      obtain ⟨cpre, it'', cpost, e1, e2⟩ := ih rfl
      exact ⟨.rules rs' :: cpre, it'', cpost, by rw [e1]; simp [declared], by simpa [declared] using e2⟩

theorem Shared.at_rules {ns : List (List Str × Str)} {es : List Entry} {cmds : List Cmd} (h : Shared ns es cmds) :
    ∀ {pre m rs post}, es = pre ++ ⟨m, .rules rs⟩ :: post → ∃ cpre rs' cpost,
      cmds = cpre ++ .rules rs' :: cpost ∧ List.Forall₂ (RuleShared (Refers (ns ++ declared pre) m)) rs rs' := by
  induction h with
  | nil => intro pre m rs post e; cases pre <;> simp at e
  | @intro ns m x args it it' es cmds hx hi _ ih =>
    intro pre m' rs post e
    cases pre with
    | nil => cases e
    | cons a pre =>
      cases e
      obtain ⟨cpre, it'', cpost, e1, e2⟩ := ih rfl
      exact ⟨.intro ns.length it' :: cpre, it'', cpost, by rw [e1]; simp, by simpa [declared] using e2⟩
  | @rules ns m rs rs' es cmds hr _ ih =>
    intro pre m' rs1 post e
    cases pre with
    | nil =>
      cases e
      exact ⟨[], rs', cmds, rfl, by simpa [declared] using hr⟩
    | cons a pre =>
      cases e
      obtain ⟨cpre, it'', cpost, e1, e2⟩ := ih rfl
      exact ⟨.rules rs' :: cpre, it'', cpost, by rw [e1]; simp, by simpa [declared] using e2⟩

theorem Shared.of_intro {ns : List (List Str × Str)} {es : List Entry} {cmds : List Cmd} (h : Shared ns es cmds) {s : Sym}
    {it' : Intro LTerm} (hm : Cmd.intro s it' ∈ cmds) : ∃ pre m x args it post, es = pre ++ ⟨m, .intro x args it⟩ :: post ∧
      s = (ns ++ declared pre).length ∧ IntroMeans (Refers (ns ++ declared pre) m) args it it' := by
  induction h with
  | nil => simp at hm
  | @intro ns m x args it it1 es cmds hx hi _ ih =>
    rcases List.mem_cons.1 hm with e | hm
    · cases e
      exact ⟨[], m, x, args, it, es, rfl, by simp [declared], by simpa [declared] using hi⟩
    · obtain ⟨pre, m', x', args', it2, post, e1, e2, e3⟩ := ih hm
      exact ⟨_ :: pre, m', x', args', it2, post, by rw [e1]; rfl, by simpa [declared] using e2, by simpa [declared] using e3⟩
  | @rules ns m rs rs' es cmds hr _ ih =>
    rcases List.mem_cons.1 hm with e | hm
    · cases e
    · obtain ⟨pre, m', x', args', it2, post, e1, e2, e3⟩ := ih hm
      exact ⟨_ :: pre, m', x', args', it2, post, by rw [e1]; rfl, by simpa [declared] using e2, by simpa [declared] using e3⟩

theorem Shared.of_rules {ns : List (List Str × Str)} {es : List Entry} {cmds : List Cmd} (h : Shared ns es cmds)
    {rs' : List Rule} (hm : Cmd.rules rs' ∈ cmds) : ∃ pre m rs post, es = pre ++ ⟨m, .rules rs⟩ :: post ∧
      List.Forall₂ (RuleShared (Refers (ns ++ declared pre) m)) rs rs' := by
  induction h with
  | nil => simp at hm
  | @intro ns m x args it it1 es cmds hx hi _ ih =>
    rcases List.mem_cons.1 hm with e | hm
    · cases e
    · obtain ⟨pre, m', rs, post, e1, e3⟩ := ih hm
      exact ⟨_ :: pre, m', rs, post, by rw [e1]; rfl, by simpa [declared] using e3⟩
  | @rules ns m rs rs1 es cmds hr _ ih =>
    rcases List.mem_cons.1 hm with e | hm
    · cases e
      exact ⟨[], m, rs, es, rfl, by simpa [declared] using hr⟩
    · obtain ⟨pre, m', rs, post, e1, e3⟩ := ih hm
      exact ⟨_ :: pre, m', rs, post, by rw [e1]; rfl, by simpa [declared] using e3⟩

/-- the symbols of the introductions -/
theorem Shared.symbols {ns : List (List Str × Str)} {es : List Entry} {cmds : List Cmd} (h : Shared ns es cmds) (s : Nat) :
    (∃ it, Cmd.intro s it ∈ cmds) ↔ ns.length ≤ s ∧ s < (ns ++ declared es).length := by
  induction h with
  | nil => simp [declared]
  | @intro ns m x args it it1 es cmds hx hi _ ih =>
    have : (∃ it, Cmd.intro s it ∈ Cmd.intro ns.length it1 :: cmds) ↔ s = ns.length ∨ ∃ it, Cmd.intro s it ∈ cmds := by
      simp only [List.mem_cons, Cmd.intro.injEq, exists_or]
      simp
    rw [this, ih]
    simp only [declared, List.length_append, List.length_cons, List.length_nil]
    omega
  | @rules ns m rs rs1 es cmds hr _ ih =>
    simpa [declared] using ih

end Kontroli
