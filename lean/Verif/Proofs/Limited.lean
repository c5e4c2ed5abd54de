import Verif.Proofs.Web
import Verif.Spec.Limited

/-!
# Runs limited to some stages: proofs
-/

namespace Kontroli

variable {k : Kern} {opt : Opt}

/-! ## Options -/

theorem keepShare_limited (h : opt.omitted ≠ some .share) : keepShare (α := Scoped) opt = keepShare { opt with omitted := none } := by
  funext c
  simp [keepShare, Opt.omits, h]

/-- the commands are the same as long as sharing is not omitted -/
theorem allCmds_limited (h : opt.omitted ≠ some .share) (st : ShState) (files : List ParsedFile) :
    allCmds opt st files = allCmds { opt with omitted := none } st files := by
  induction files generalizing st with
  | nil => rfl
  | cons f fs ih => rw [allCmds, allCmds, fileCmds, fileCmds, keepShare_limited h, ih]

/-- without inference, nothing is done with the commands -/
theorem inferChecksSeq_omit_infer (h : opt.omitted = some .infer) {gc gc' : GCtx} {cmds : List (Out Cmd)} :
    inferChecksSeq k opt gc cmds = (gc', .ok ()) ↔ gc' = gc ∧ ∀ c ∈ cmds, c.isOk = true := by
  constructor
  · intro hr
    have hok := inferChecksSeq_ok_mem hr
    have hf : cmds.filter (keepInfer opt) = [] := by
      rw [List.filter_eq_nil_iff]
      intro c hc
      simp [keepInfer, Opt.omits, h, hok c hc]
    rw [inferChecksSeq, hf] at hr
    cases hr
    exact ⟨rfl, hok⟩
  · rintro ⟨rfl, hok⟩
    have hf : cmds.filter (keepInfer opt) = [] := by
      rw [List.filter_eq_nil_iff]
      intro c hc
      simp [keepInfer, Opt.omits, h, hok c hc]
    rw [inferChecksSeq, hf]
    rfl

/-- without sharing, nothing is done with the texts -/
theorem inferChecksSeq_omit_share (h : opt.omitted = some .share) {gc gc' : GCtx} {st : ShState} {files : List ParsedFile} :
    inferChecksSeq k opt gc (allCmds opt st files) = (gc', .ok ()) ↔ gc' = gc ∧ ∀ f ∈ files, ∀ c ∈ f.cmds, c.isOk = true := by
  constructor
  · intro hr
    have hok := allCmds_ok _ _ (inferChecksSeq_ok_mem hr)
    rw [allCmds_omit (by simp [Opt.omits, h]) _ _ hok] at hr
    cases hr
    exact ⟨rfl, hok⟩
  · rintro ⟨rfl, hok⟩
    rw [allCmds_omit (by simp [Opt.omits, h]) _ _ hok]
    rfl

/-! ## Files -/

theorem sources_spec (fs : FileSystem) (paths : List Str) (stdin : Str) (files : List ParsedFile) (hf : openFiles fs stdin paths = files.map .ok)
    (hok : ∀ f ∈ files, ∀ c ∈ f.cmds, c.isOk = true) : ∃ srcs es, Sources fs stdin paths srcs ∧ ProgramOf srcs es := by
  induction paths generalizing stdin files with
  | nil => exact ⟨[], [], .nil, .nil⟩
  | cons p ps ih =>
    obtain ⟨pieces, hn, hs, rfl⟩ := exists_pieces p
    have step : ∀ (m : List Str) (text stdin' : Str) (files' : List ParsedFile), files = ⟨m, parseText text⟩ :: files' →
        openFiles fs stdin' ps = files'.map .ok → ∃ srcs es, Sources fs stdin' ps srcs ∧ ProgramOf ((m, text) :: srcs) es := by
      rintro m text stdin' files' rfl hf'
      simp only [List.mem_cons, forall_eq_or_imp] at hok
      obtain ⟨cs, h1, -⟩ := parseText_ok hok.1
      obtain ⟨srcs, es, h2, h3⟩ := ih stdin' files' hf' hok.2
      exact ⟨srcs, _, h2, .cons h1 h3⟩
    rw [openFiles] at hf
    cases hm : modulePath (pathText pieces) with
    | none => rw [hm] at hf; cases files <;> simp at hf
    | some m =>
      rw [hm] at hf
      simp only at hf
      have hmod := (C36_module_path pieces hs hn m).1 hm
      by_cases hd : isDash (pathText pieces) = true
      · rw [if_pos hd] at hf
        cases files with
        | nil => simp at hf
        | cons f files =>
          simp only [List.map_cons, List.cons.injEq, Out.ok.injEq] at hf
          obtain ⟨srcs, es, h1, h2⟩ := step m stdin [] files (by rw [← hf.1]) hf.2
          exact ⟨_, es, .stdin ⟨hn, hs, rfl⟩ hmod ((C36_dash pieces hs hn).1 hd) h1, h2⟩
      · rw [if_neg hd] at hf
        cases ht : fs (pathText pieces) with
        | none => rw [ht] at hf; cases files <;> simp at hf
        | some text =>
          rw [ht] at hf
          simp only at hf
          cases files with
          | nil => simp at hf
          | cons f files =>
            simp only [List.map_cons, List.cons.injEq, Out.ok.injEq] at hf
            obtain ⟨srcs, es, h1, h2⟩ := step m text stdin files (by rw [← hf.1]) hf.2
            exact ⟨_, es, .file ⟨hn, hs, rfl⟩ hmod (fun h => hd ((C36_dash pieces hs hn).2 h)) ht h1, h2⟩

theorem ProgramOf.parsed {srcs : List (List Str × Str)} {es : List Entry} (h : ProgramOf srcs es) :
    ∀ f ∈ srcs.map fun a => (⟨a.1, parseText a.2⟩ : ParsedFile), ∀ c ∈ f.cmds, c.isOk = true := by
  induction h with
  | nil => simp
  | @cons m text cs srcs es ht _ ih =>
    simp only [List.map_cons, List.mem_cons, forall_eq_or_imp]
    refine ⟨?_, ih⟩
    rw [parseText_of ht]
    simp [Out.isOk]

theorem WebProgramOf.parsed {ms : List (Str × Str)} {es : List Entry} (h : WebProgramOf ms es) : ∀ f ∈ ms.map webFile, ∀ c ∈ f.cmds, c.isOk = true := by
  induction h with
  | nil => simp
  | @cons name text cs mods es ht _ ih =>
    simp only [List.map_cons, List.mem_cons, forall_eq_or_imp]
    refine ⟨?_, ih⟩
    rw [webFile_of ht]
    simp [Out.isOk]

theorem web_parsed {ms : List (Str × Str)} (h : ∀ f ∈ ms.map webFile, ∀ c ∈ f.cmds, c.isOk = true) : ∃ es, WebProgramOf ms es := by
  induction ms with
  | nil => exact ⟨[], .nil⟩
  | cons m ms ih =>
    obtain ⟨name, text⟩ := m
    simp only [List.map_cons, List.mem_cons, forall_eq_or_imp] at h
    obtain ⟨cs, h1⟩ := webFile_ok h.1
    obtain ⟨es, h2⟩ := ih h.2
    exact ⟨_, .cons h1 h2⟩

/-! ## Without checks -/

theorem IntroMeans.parts {R : PSymb → Sym → Prop} {args : List (Str × PTerm PSymb)} {it : Intro (PTerm PSymb)} {it' : Intro LTerm}
    (h : IntroMeans R args it it') :
    (∀ ty, it.given = some ty → ∃ ty', it'.given = some ty' ∧ Means R (telescopeType args ty) ty'.den) ∧
    (∀ tm, it.body = some tm → ∃ tm', it'.body = some tm' ∧ Means R (telescopeTerm args tm) tm'.den) ∧
    (it.given = none → it'.given = none) ∧ (it.body = none → it'.body = none) := by
  obtain ⟨f, hf, rfl⟩ := h
  have hargs : ∀ c ∈ argConsts (scopeTele PTerm.scope [] args), R c (f c) := fun c hc => hf c (.inr hc)
  have hty : ∀ ty, (∀ c ∈ (ty.scope (teleEnv (args.map Prod.fst))).consts, R c (f c)) →
      Means R (telescopeType args ty)
        ((telescopeType (scopeTele PTerm.scope [] args) (ty.scope (teleEnv (args.map Prod.fst)))).resolve f).den := by
    intro ty h1
    refine ⟨f, ?_, ?_⟩
    · rw [telescopeType_scope, List.append_nil, telescopeType_consts]
      intro c hc
      rcases List.mem_append.1 hc with hc | hc
      · exact hargs c hc
      · exact h1 c hc
    · rw [telescopeType_scope, List.append_nil, resolve_den]
  have htm := fun ty => means_term (R := R) (f := f) (args := args) (ty := ty)
  cases it with
  | definition oty otm =>
    refine ⟨?_, ?_, ?_, ?_⟩
    · rintro ty h
      simp only [Intro.given] at h
      subst h
      exact ⟨_, rfl, hty ty fun c hc => hf c (.inl (by simp [Intro.scope, Intro.consts, PTerm.constsOpt, hc]))⟩
    · rintro tm h
      simp only [Intro.body] at h
      subst h
      exact ⟨_, rfl, htm tm (fun c hc => hf c (.inl (by simp [Intro.scope, Intro.consts, PTerm.constsOpt, hc]))) hargs⟩
    · rintro h
      simp only [Intro.given] at h
      subst h
      rfl
    · rintro h
      simp only [Intro.body] at h
      subst h
      rfl
  | theorem_ ty tm =>
    refine ⟨?_, ?_, fun h => (by cases h), fun h => (by cases h)⟩
    · rintro ty h
      cases h
      exact ⟨_, rfl, hty _ fun c hc => hf c (.inl (by simp [Intro.scope, Intro.consts, hc]))⟩
    · rintro tm h
      cases h
      exact ⟨_, rfl, htm _ (fun c hc => hf c (.inl (by simp [Intro.scope, Intro.consts, hc]))) hargs⟩
  | declaration inj ty =>
    refine ⟨?_, fun tm h => (by cases h), fun h => (by cases h), fun _ => rfl⟩
    rintro ty h
    cases h
    exact ⟨_, rfl, hty _ fun c hc => hf c (.inl (by simp [Intro.scope, Intro.consts, hc]))⟩

/-- one introduction, whether or not checks are omitted -/
theorem inferCheck_intro_typed (hk : k.Real) {gc gc' : GCtx} {s : Sym} {it : Intro LTerm} (h : inferCheck k opt gc (.intro s it) = (gc', .ok ())) :
    ∃ A, gc'.types s = some A ∧ (∀ ty, it.given = some ty → A = ty ∧ ∃ B, HasType gc.theory [] A.den B) ∧
      (it.given = none → ∀ tm, it.body = some tm → HasType gc.theory [] tm.den A.den) ∧
      (it.body = none → ∃ B, IsSort B ∧ HasType gc.theory [] A.den B) := by
  obtain ⟨ty, chk, h1, -, h3⟩ := inferWith_intro_ok h
  obtain ⟨n, rc, st, h4⟩ := hk.intro _ _ _ h1
  obtain ⟨-, -, rfl⟩ := GCtx.insert_ok h3
  have hp := TriG.ok (Tri.intro n it) h4
  refine ⟨ty.ty, by simp [mapInsert], ?_, ?_, ?_⟩
  · intro A hA
    refine ⟨?_, ?_⟩
    · apply hp.given
      cases it with
      | declaration inj ty => cases hA; cases inj <;> simp
      | definition oty otm => cases hA; simp
      | theorem_ ty tm => cases hA; simp
    · rcases hp.ty with ⟨B, hB⟩ | ⟨tm, rfl, -⟩
      · exact ⟨B, hB.hasType⟩
      · cases hA
  · intro hg tm hb
    cases it with
    | declaration inj ty => cases hg
    | theorem_ ty tm => cases hg
    | definition oty otm =>
      simp only [Intro.given] at hg
      simp only [Intro.body] at hb
      subst hg hb
      exact (hp.infd _ rfl).hasType
  · intro hb
    obtain ⟨s, hs, hI⟩ := hp.decl (by rintro tm oty rfl; simp [Intro.body] at hb) (by rintro ty tm rfl; simp [Intro.body] at hb)
    exact ⟨s, hs, hI.hasType⟩

theorem rewriteAll_typed {f : Unit → Check → GCtx → Out Unit} (hk : k.Real) {gc : GCtx} {rs : List Rule} {u : Unit}
    (h : rewriteAll k f gc rs () = .ok u) :
    ∀ r ∈ rs, ∀ t, r.toT = some t → ∃ A, HasType gc.theory (t.ctx.map LTerm.den).reverse t.lhs.den A := by
  induction rs with
  | nil => simp
  | cons r rs ih =>
    rw [rewriteAll] at h
    intro r' hr' t' e
    cases ht : r.toT with
    | none =>
      rw [ht] at h
      rcases List.mem_cons.1 hr' with rfl | hr'
      · rw [ht] at e; cases e
      · exact ih h r' hr' t' e
    | some t =>
      rw [ht] at h
      simp only [Out.bind_ok, Res.out_ok] at h
      obtain ⟨c, h1, _, h2, h3⟩ := h
      rcases List.mem_cons.1 hr' with rfl | hr'
      · rw [ht] at e
        cases e
        obtain ⟨n, rc, s, h4⟩ := hk.rewrite _ _ _ h1
        obtain ⟨-, -, h7⟩ := TriG.ok (Tri.rewrite n _) h4
        exact ⟨_, h7.hasType⟩
      · exact ih h3 r' hr' t' e

theorem Shared.programTyped (hk : k.Real) (ho : opt.omitted = some .check) {es : List Entry} {cmds : List Cmd} {gc : GCtx}
    (h4 : Shared [] es cmds) (hrun : inferChecksSeq k opt (GCtx.start opt.eta) (cmds.map .ok) = (gc, .ok ())) : ProgramTyped es gc.theory := by
  have hf : (cmds.map Out.ok).filter (keepInfer opt) = cmds.map Out.ok := by
    rw [List.filter_eq_self]; intro a _; simp [keepInfer, Opt.omits, ho]
  unfold inferChecksSeq at hrun
  rw [hf] at hrun
  have hsplit : ∀ pre c post, cmds = pre ++ c :: post → ∃ gci gc1,
      inferCheck k opt gci c = (gc1, .ok ()) ∧ seqLoop k opt gc1 (post.map .ok) = (gc, .ok ()) := by
    rintro pre c post rfl
    rw [List.map_append, List.map_cons] at hrun
    obtain ⟨gci, h1, h2⟩ := seqLoop_append_ok hrun
    obtain ⟨c', gc1, h3, h4, h5⟩ := seqLoop_cons_ok h2
    cases h3
    exact ⟨gci, gc1, h4, h5⟩
  refine ⟨?_, ?_, ?_, ?_⟩
  · simpa using h4.nodup List.nodup_nil
  · intro s
    have := h4.symbols s
    simp only [List.length_nil, Nat.zero_le, true_and, List.nil_append] at this
    rw [← this]
    simp only [GCtx.theory, Option.isSome_map]
    rw [seqLoop_types hrun s]
    simp [GCtx.start, GCtx.new]
  · intro pre m x args it post e
    obtain ⟨cpre, it', cpost, e1, e2⟩ := h4.at_intro e
    simp only [List.nil_append] at e1 e2
    obtain ⟨gci, gc1, h5, h6⟩ := hsplit _ _ _ e1
    obtain ⟨A, hA, h7, h8, h9⟩ := inferCheck_intro_typed hk h5
    have hle := ((inferWith_grows h5).trans (seqLoop_grows h6)).le
    obtain ⟨p1, p2, p3, p4⟩ := e2.parts
    refine ⟨A.den, ?_, ?_, ?_, ?_⟩
    · simp only [GCtx.theory, (seqLoop_grows h6).types _ _ hA, Option.map_some]
    · intro ty hg
      obtain ⟨ty', hg', hm⟩ := p1 ty hg
      obtain ⟨rfl, B, hB⟩ := h7 ty' hg'
      exact ⟨hm, B, hB.mono hle⟩
    · intro hg tm hb
      obtain ⟨tm', hb', hm⟩ := p2 tm hb
      exact ⟨_, hm, (h8 (p3 hg) tm' hb').mono hle⟩
    · intro hb
      obtain ⟨B, hB, h⟩ := h9 (p4 hb)
      exact ⟨B, hB, h.mono hle⟩
  · intro pre m rs post e r hr
    obtain ⟨cpre, rs', cpost, e1, e2⟩ := h4.at_rules e
    obtain ⟨gci, gc1, h5, h6⟩ := hsplit _ _ _ e1
    have hle := ((inferWith_grows h5).trans (seqLoop_grows h6)).le
    obtain ⟨r', hr', f, h1, h2, h3⟩ := forall₂_left e2 hr
    refine ⟨f, r', h1, fun tys htys hocc => ?_, seqLoop_rules_mem hrun (by rw [e1]; simp) hr'⟩
    obtain ⟨l, h4, h7⟩ := h1.lhs.toL hocc
    have ht : r'.toT = some ⟨tys.map (PTerm.resolve f), l, r'.rhs⟩ := by
      unfold Rule.toT
      rw [h2, annotations_map f _ tys htys, h4]
    obtain ⟨A, hA⟩ := rewriteAll_typed hk (inferWith_rules_ok h5).1 r' hr' _ ht
    have hc : (tys.map (PTerm.resolve f)).map LTerm.den = tys.map (PTerm.den f) := by
      rw [List.map_map]
      exact List.map_congr_left fun t _ => resolve_den f t
    rw [hc, h7] at hA
    exact ⟨A, hA.mono hle⟩

/-! ## The kernel is not used -/

/-- steps of a pool in which only errors are left -/
theorem poolSteps_errors {k' : Kern} {p q : Pool} (h : PoolSteps k opt p q) (ht : ∀ c ∈ p.todo, c.isOk = false)
    (hr : ∀ c ∈ p.running, c.isOk = false) : PoolSteps k' opt p q := by
  induction h with
  | refl => exact .refl
  | @step p q r h1 _ ih =>
    cases h1 with
    | @pull cmd todo gc running failed =>
      simp only [List.mem_cons, forall_eq_or_imp] at ht
      have he : pull k gc cmd = pull k' gc cmd ∧ (pull k gc cmd).2.isOk = false := by
        cases cmd with
        | ok c => cases ht.1
        | err e => exact ⟨rfl, rfl⟩
        | panic => exact ⟨rfl, rfl⟩
        | timeout => exact ⟨rfl, rfl⟩
      refine .step ?_ (ih ht.2 ?_)
      · rw [he.1]
        exact .pull
      · intro c hc
        simp only at hc
        split at hc
        · rcases List.mem_append.1 hc with hc | hc
          · exact hr c hc
          · rw [List.mem_singleton.1 hc]
            exact he.2
        · exact hr c hc
    | @done todo gc pre post ts failed =>
      have he : processChecks k ts = processChecks k' ts := by
        have := hr ts (by simp)
        cases ts with
        | ok c => cases this
        | err e => rfl
        | panic => rfl
        | timeout => rfl
      refine .step ?_ (ih ht ?_)
      · rw [he]
        exact .done
      · intro c hc
        refine hr c ?_
        simp only [List.mem_append, List.mem_cons] at hc ⊢
        rcases hc with hc | hc
        · exact .inl hc
        · exact .inr (.inr hc)

theorem seqLoop_errors {k' : Kern} {gc : GCtx} {l : List (Out Cmd)} (h : ∀ c ∈ l, c.isOk = false) : seqLoop k opt gc l = seqLoop k' opt gc l := by
  cases l with
  | nil => rfl
  | cons c l =>
    have := h c List.mem_cons_self
    cases c with
    | ok c => cases this
    | err e => rfl
    | panic => rfl
    | timeout => rfl

theorem inferChecks_errors {k' : Kern} {gc gc' : GCtx} {l : List (Out Cmd)} {res : Out Unit}
    (h : ∀ c ∈ l.filter (keepInfer opt), c.isOk = false) (hr : InferChecks k opt gc l gc' res) : InferChecks k' opt gc l gc' res := by
  unfold InferChecks at hr ⊢
  split at hr
  · next hj =>
    rw [if_pos hj]
    obtain ⟨p, h1, h2⟩ := hr
    exact ⟨p, poolSteps_errors h1 h (by simp), h2⟩
  · next hj =>
    rw [if_neg hj]
    rwa [inferChecksSeq, ← seqLoop_errors h]

/-- without sharing or without inference, only errors are left -/
theorem limited_errors (ho : opt.omitted = some .share ∨ opt.omitted = some .infer) (st : ShState) (f : ParsedFile) :
    ∀ c ∈ ((fileCmds opt st f).2).filter (keepInfer opt), c.isOk = false := by
  intro c hc
  obtain ⟨hc, hk⟩ := List.mem_filter.1 hc
  rcases ho with ho | ho
  · rw [fileCmds] at hc
    generalize hcs : f.cmds.filter (keepShare opt) = cs at hc
    have hcs : ∀ c ∈ cs, c.isOk = false := by
      rw [← hcs]
      intro c hc
      have := (List.mem_filter.1 hc).2
      simpa [keepShare, Opt.omits, ho] using this
    clear hk
    generalize ({ st with syms := st.syms.setPath f.path } : ShState) = st' at hc
    clear * - hcs hc
    induction cs generalizing st' with
    | nil => cases hc
    | cons a cs ih =>
      simp only [List.mem_cons, forall_eq_or_imp] at hcs
      simp only [shareAll, List.mem_cons] at hc
      rcases hc with rfl | hc
      · cases a with
        | ok a => cases hcs.1
        | err e => rfl
        | panic => rfl
        | timeout => rfl
      · exact ih hcs.2 _ hc
  · simpa [keepInfer, Opt.omits, ho] using hk

theorem runFiles_limited {k' : Kern} (ho : opt.omitted = some .share ∨ opt.omitted = some .infer) {st : ShState} {gc gc' : GCtx}
    {files : List (Out ParsedFile)} {res : Out Unit} (h : RunFiles k opt st gc files gc' res) : RunFiles k' opt st gc files gc' res := by
  induction h with
  | nil => exact .nil
  | next h1 _ ih => exact .next (inferChecks_errors (limited_errors ho _ _) h1) ih
  | fail h1 h2 => exact .fail (inferChecks_errors (limited_errors ho _ _) h1) h2
  | openErr => exact .openErr
  | openPanic => exact .openPanic
  | openTimeout => exact .openTimeout

end Kontroli
