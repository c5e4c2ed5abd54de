import Verif.Proofs.Program
import Mathlib.Data.List.Nodup

/-!
# C41: soundness from text to typing derivations
-/

namespace Kontroli

theorem means_term {R : PSymb → Sym → Prop} {f : PSymb → Sym} {args : List (Str × PTerm PSymb)} {ty : PTerm PSymb}
    (h1 : ∀ c ∈ (ty.scope (teleEnv (args.map Prod.fst))).consts, R c (f c))
    (h2 : ∀ c ∈ argConsts (scopeTele PTerm.scope [] args), R c (f c)) : Means R (telescopeTerm args ty)
      ((telescopeTerm (scopeTele PTerm.scope [] args) (ty.scope (teleEnv (args.map Prod.fst)))).resolve f).den := by
  refine ⟨f, ?_, ?_⟩
  · rw [telescopeTerm_scope, List.append_nil, telescopeTerm_consts]
    intro c hc
    rcases List.mem_append.1 hc with hc | hc
    · exact h2 c hc
    · exact h1 c hc
  · rw [telescopeTerm_scope, List.append_nil, resolve_den]

theorem IntroMeans.sound {T : Theory} {R : PSymb → Sym → Prop} {s : Sym} {args : List (Str × PTerm PSymb)} {it : Intro (PTerm PSymb)}
    {it' : Intro LTerm} {A : LTerm} (h : IntroMeans R args it it') (hs : T.ty s = some A.den) (hj : IntroJustified T it' A) :
    IntroSound T R s args it := by
  obtain ⟨f, hf, rfl⟩ := h
  have hty : ∀ ty, (∀ c ∈ (ty.scope (teleEnv (args.map Prod.fst))).consts, R c (f c)) →
      (∀ c ∈ argConsts (scopeTele PTerm.scope [] args), R c (f c)) →
      Means R (telescopeType args ty)
        ((telescopeType (scopeTele PTerm.scope [] args) (ty.scope (teleEnv (args.map Prod.fst)))).resolve f).den := by
    intro ty h1 h2
    refine ⟨f, ?_, ?_⟩
    · rw [telescopeType_scope, List.append_nil, telescopeType_consts]
      intro c hc
      rcases List.mem_append.1 hc with hc | hc
      · exact h2 c hc
      · exact h1 c hc
    · rw [telescopeType_scope, List.append_nil, resolve_den]
  have htm := fun ty => means_term (R := R) (f := f) (args := args) (ty := ty)
  have hargs : ∀ c ∈ argConsts (scopeTele PTerm.scope [] args), R c (f c) := fun c hc => hf c (.inr hc)
  refine ⟨A.den, hs, ?_, ?_, ?_⟩
  · intro ty hg
    have hg' : (((it.scope (teleEnv (args.map Prod.fst))).telescope (scopeTele PTerm.scope [] args)).resolve f).given =
        some ((telescopeType (scopeTele PTerm.scope [] args) (ty.scope (teleEnv (args.map Prod.fst)))).resolve f) ∧
        ∀ c ∈ (ty.scope (teleEnv (args.map Prod.fst))).consts, R c (f c) := by
      cases it with
      | definition oty otm =>
        simp only [Intro.given] at hg
        subst hg
        exact ⟨rfl, fun c hc => hf c (.inl (by simp [Intro.scope, Intro.consts, PTerm.constsOpt, hc]))⟩
      | theorem_ ty' tm =>
        simp only [Intro.given, Option.some.injEq] at hg
        subst hg
        exact ⟨rfl, fun c hc => hf c (.inl (by simp [Intro.scope, Intro.consts, hc]))⟩
      | declaration inj ty' =>
        simp only [Intro.given, Option.some.injEq] at hg
        subst hg
        exact ⟨rfl, fun c hc => hf c (.inl (by simp [Intro.scope, Intro.consts, hc]))⟩
    have hA := hj.given _ hg'.1
    refine ⟨by rw [hA]; exact hty ty hg'.2 hargs, ?_⟩
    rcases hj.type with h | ⟨tm, h⟩
    · exact h
    · have := hg'.1
      rw [h] at this
      simp [Intro.given] at this
  · intro tm hb
    have hb' : (((it.scope (teleEnv (args.map Prod.fst))).telescope (scopeTele PTerm.scope [] args)).resolve f).body =
        some ((telescopeTerm (scopeTele PTerm.scope [] args) (tm.scope (teleEnv (args.map Prod.fst)))).resolve f) ∧
        ∀ c ∈ (tm.scope (teleEnv (args.map Prod.fst))).consts, R c (f c) := by
      cases it with
      | definition oty otm =>
        simp only [Intro.body] at hb
        subst hb
        exact ⟨rfl, fun c hc => hf c (.inl (by simp [Intro.scope, Intro.consts, PTerm.constsOpt, hc]))⟩
      | theorem_ ty' tm =>
        simp only [Intro.body, Option.some.injEq] at hb
        subst hb
        exact ⟨rfl, fun c hc => hf c (.inl (by simp [Intro.scope, Intro.consts, hc]))⟩
      | declaration inj ty' => simp [Intro.body] at hb
    exact ⟨_, htm tm hb'.2 hargs, hj.body _ hb'.1⟩
  · intro hb
    apply hj.sort
    cases it with
    | definition oty otm =>
      simp only [Intro.body] at hb
      subst hb
      rfl
    | theorem_ ty' tm => simp [Intro.body] at hb
    | declaration inj ty' => rfl

/-- the term of a pattern without wildcards -/
theorem PatOf.toL {f : PSymb → Sym} {n : Nat} {t : PTerm Atom} {p : Pattern} (h : PatOf f n t p) :
    ¬ OccursIn n t → ∃ l, p.toL = some l ∧ l.den = t.den f := by
  induction h with
  | @var i hi =>
    intro _
    exact ⟨.var i, by rw [Pattern.toL], by simp [LTerm.den, PTerm.den, PHead.den, PTerm.denList, Tm.apps]⟩
  | wild => intro h; exact absurd .here h
  | @symb c args ps hl h ih =>
    intro hn
    have hn' : ∀ a ∈ args, ¬ OccursIn n a := fun a ha h => hn (.arg ha h)
    have key : ∃ ls, Pattern.toLList ps = some ls ∧ LTerm.denList ls = PTerm.denList f args := by
      clear h hn
      induction args generalizing ps with
      | nil =>
        cases ps with
        | nil => exact ⟨[], by rw [Pattern.toLList], by simp [LTerm.denList, PTerm.denList]⟩
        | cons => simp at hl
      | cons a args ih' =>
        cases ps with
        | nil => simp at hl
        | cons p ps =>
          obtain ⟨l, h1, h2⟩ := ih 0 (by simp) (by simp) (hn' a (by simp))
          obtain ⟨ls, h3, h4⟩ := ih' (ps := ps) (by simpa using hl)
            (fun i hi hi' => ih (i + 1) (by simpa using hi) (by simpa using hi')) (fun x hx => hn' x (by simp [hx]))
          simp only [List.getElem_cons_zero] at h1 h2
          exact ⟨l :: ls, by rw [Pattern.toLList, h1, h3], by rw [LTerm.denList, PTerm.denList, h2, h4]⟩
    obtain ⟨ls, h1, h2⟩ := key
    exact ⟨_, by rw [Pattern.toL, h1]; rfl, by simp [LTerm.den, LComb.den, PTerm.den, PHead.den, h2]⟩

theorem annotations_map (f : PSymb → Sym) (ctx : List (Str × Option (PTerm Atom))) (tys : List (PTerm Atom))
    (h : ctx.map Prod.snd = tys.map some) :
    annotations (ctx.map fun a => (a.1, PTerm.resolveOpt f a.2)) = some (tys.map (PTerm.resolve f)) := by
  induction ctx generalizing tys with
  | nil => cases tys <;> simp at h; rfl
  | cons a ctx ih =>
    cases tys with
    | nil => simp at h
    | cons ty tys =>
      obtain ⟨x, A⟩ := a
      simp only [List.map_cons, List.cons.injEq] at h
      obtain ⟨rfl, h⟩ := h
      simp [annotations, PTerm.resolveOpt, ih tys h]

theorem RuleShared.sound {T : Theory} {R : PSymb → Sym → Prop} {r : PRule (PTerm PSymb)} {r' : Rule} (h : RuleShared R r r')
    (hj : RuleJustified T r') : ∃ f, RuleMeans R f r r' ∧ RuleSound T f r := by
  obtain ⟨f, h1, h2, h3⟩ := h
  refine ⟨f, h1, fun tys htys hocc => ?_⟩
  obtain ⟨l, h4, h5⟩ := h1.lhs.toL hocc
  have ht : r'.toT = some ⟨tys.map (PTerm.resolve f), l, r'.rhs⟩ := by
    unfold Rule.toT
    rw [h2, annotations_map f _ tys htys, h4]
  obtain ⟨A, h6, h7⟩ := hj _ ht
  have hc : (tys.map (PTerm.resolve f)).map LTerm.den = tys.map (PTerm.den f) := by
    rw [List.map_map]
    exact List.map_congr_left fun t _ => resolve_den f t
  rw [hc] at h6 h7
  rw [h5] at h6
  rw [h1.rhs] at h7
  exact ⟨A, h6, h7⟩

theorem forall₂_left {α β : Type} {R : α → β → Prop} {l : List α} {l' : List β} (h : List.Forall₂ R l l') {a : α} (ha : a ∈ l) :
    ∃ b ∈ l', R a b := by
  induction h with
  | nil => simp at ha
  | @cons a b l l' hab _ ih =>
    rcases List.mem_cons.1 ha with rfl | ha
    · exact ⟨b, by simp, hab⟩
    · obtain ⟨r', hr', h⟩ := ih ha
      exact ⟨r', by simp [hr'], h⟩

theorem forall₂_right {α β : Type} {R : α → β → Prop} {l : List α} {l' : List β} (h : List.Forall₂ R l l') {b : β} (hb : b ∈ l') :
    ∃ a ∈ l, R a b := by
  induction h with
  | nil => simp at hb
  | @cons a b l l' hab _ ih =>
    rcases List.mem_cons.1 hb with rfl | hb
    · exact ⟨a, by simp, hab⟩
    · obtain ⟨r', hr', h⟩ := ih hb
      exact ⟨r', by simp [hr'], h⟩

/-- the rules of a session are rules of the final context -/
theorem seqLoop_rules_mem {k : Kern} {opt : Opt} {gc gc' : GCtx} {cmds : List (Out Cmd)} (h : seqLoop k opt gc cmds = (gc', .ok ()))
    {rs : List Rule} {r : Rule} (hm : Out.ok (Cmd.rules rs) ∈ cmds) (hr : r ∈ rs) : ∃ l, gc'.rules r.lhs.symbol = some l ∧ r ∈ l := by
  obtain ⟨pre, post, rfl⟩ := List.append_of_mem hm
  obtain ⟨gci, -, h2⟩ := seqLoop_append_ok h
  obtain ⟨c, gc1, h3, h4, h5⟩ := seqLoop_cons_ok h2
  cases h3
  obtain ⟨-, h6⟩ := inferWith_rules_ok h4
  obtain ⟨-, -, h7, h8⟩ := GCtx.addRules_ok h6
  obtain ⟨l, hl⟩ := Option.isSome_iff_exists.1 (h8 r hr)
  have h9 := h7 r.lhs.symbol
  rw [hl] at h9
  obtain ⟨more, hmore⟩ := (seqLoop_grows h5).rules _ _ h9
  exact ⟨_, hmore, List.mem_append_left _ (List.mem_append_right _ (by simp [GCtx.rulesOf, hr]))⟩

theorem Shared.programSound {k : Kern} (hk : k.Real) {opt : Opt} (ho : opt.omitted = none) {es : List Entry} {cmds : List Cmd} {gc : GCtx}
    (h4 : Shared [] es cmds) (hrun : inferChecksSeq k opt (GCtx.start opt.eta) (cmds.map .ok) = (gc, .ok ())) : ProgramSound es gc.theory := by
  obtain ⟨c1, c2, c3, c4, c5⟩ := C07_session_sound k hk opt ho _ gc hrun
  refine ⟨?_, ?_, ?_, ?_, ?_⟩
  · simpa using h4.nodup List.nodup_nil
  · intro s
    have := h4.symbols s
    simp only [List.length_nil, Nat.zero_le, true_and, List.nil_append] at this
    rw [← this]
    simp only [GCtx.theory, Option.isSome_map]
    rw [c2 s]
    refine exists_congr fun it => ?_
    simp
  · intro pre m x args it post e
    obtain ⟨cpre, it', cpost, e1, e2⟩ := h4.at_intro e
    simp only [List.nil_append] at e1 e2
    obtain ⟨gci, A, -, -, hA, -, hj⟩ := c1 (cpre.map .ok) (declared pre).length it' (cpost.map .ok) (by rw [e1]; simp)
    exact e2.sound (by simp only [GCtx.theory, hA, Option.map_some]) hj
  · intro pre m rs post e r hr
    obtain ⟨cpre, rs', cpost, e1, e2⟩ := h4.at_rules e
    obtain ⟨gci, -, hj⟩ := c4 (cpre.map .ok) rs' (cpost.map .ok) (by rw [e1]; simp)
    obtain ⟨r', hr', hrr⟩ := forall₂_left e2 hr
    obtain ⟨f, h5, h6⟩ := hrr.sound (hj r' hr').2
    have hf : (cmds.map Out.ok).filter (keepInfer opt) = cmds.map Out.ok := by
      rw [List.filter_eq_self]; intro a _; simp [keepInfer, Opt.omits, ho]
    unfold inferChecksSeq at hrun
    rw [hf] at hrun
    exact ⟨f, r', h5, h6, seqLoop_rules_mem hrun (by rw [e1]; simp) hr'⟩
  · intro s l r' hs hr'
    rcases c5 s l r' hs hr' with ⟨ty, tm, hm, rfl⟩ | ⟨rs', hm, hr, rfl⟩
    · have hm : Cmd.intro s (.definition ty (some tm)) ∈ cmds := by simpa using hm
      obtain ⟨pre, m, x, args, it, post, e1, e2, f, hf, e3⟩ := h4.of_intro hm
      simp only [List.nil_append] at e2 hf
      left
      cases it with
      | theorem_ ty tm => cases e3
      | declaration inj ty => cases e3
      | definition oty otm =>
        cases otm with
        | none => cases e3
        | some tm0 =>
          simp only [Intro.scope, Intro.telescope, Intro.resolve, Option.map_some, PTerm.resolveOpt, Intro.definition.injEq,
            Option.some.injEq] at e3
          refine ⟨pre, m, x, args, oty, tm0, post, e1, e2, rfl, ?_⟩
          simp only [e3.2]
          exact means_term (fun c hc => hf c (.inl (by simp [Intro.scope, Intro.consts, PTerm.constsOpt, hc]))) fun c hc => hf c (.inr hc)
    · have hm : Cmd.rules rs' ∈ cmds := by simpa using hm
      obtain ⟨pre, m, rs, post, e1, e2⟩ := h4.of_rules hm
      obtain ⟨r, hr1, f, hf, -⟩ := forall₂_right e2 hr
      exact .inr ⟨pre, m, rs, post, r, f, e1, hr1, rfl, by simpa using hf⟩

/-- C41. If a run on some paths is accepted with all stages, then the paths mean texts, the texts are a program without syntax errors, and
the theory of the final context is what the program says and is right: see `ProgramSound`. -/
theorem C41_sound (k : Kern) (hk : k.Real) (opt : Opt) (ho : opt.omitted = none) (fs : FileSystem) (stdin : Str) (paths : List Str)
    (gc : GCtx) (h : RunPaths k opt fs stdin paths gc (.ok ())) :
    ∃ srcs es, Sources fs stdin paths srcs ∧ ProgramOf srcs es ∧ ProgramSound es gc.theory := by
  obtain ⟨files, hf⟩ := runFiles_ok_files h
  unfold RunPaths Run at h
  rw [hf] at h
  have hrun := runFiles_ok_iff.1 h
  obtain ⟨srcs, es, cmds, h1, h2, h3, h4⟩ := program_spec ho fs paths stdin ShState.new [] files .new hf (inferChecksSeq_ok_mem hrun)
  rw [h3] at hrun
  exact ⟨srcs, es, h1, h2, h4.programSound hk ho hrun⟩

/-- C41. The same for a run with a channel. -/
theorem C41_piped (k : Kern) (hk : k.Real) (opt : Opt) (ho : opt.omitted = none) (fs : FileSystem) (stdin : Str) (paths : List Str)
    (h : PipePaths k opt fs stdin paths (.ok ())) :
    ∃ srcs es gc, Sources fs stdin paths srcs ∧ ProgramOf srcs es ∧ ProgramSound es gc.theory ∧ RunPaths k opt fs stdin paths gc (.ok ()) := by
  obtain ⟨gc, h⟩ := (C29_accepts_iff k opt _).2 h
  obtain ⟨srcs, es, h1, h2, h3⟩ := C41_sound k hk opt ho fs stdin paths gc h
  exact ⟨srcs, es, gc, h1, h2, h3, h⟩

theorem PathOf.unique {p : Str} {ps ps' : List Str} (h : PathOf p ps) (h' : PathOf p ps') : ps = ps' := by
  have h1 := splitSlashes_text ps h.2.1 h.1
  have h2 := splitSlashes_text ps' h'.2.1 h'.1
  rw [← h.2.2] at h1
  rw [← h'.2.2] at h2
  exact h1.symm.trans h2

theorem TextOf.unique {text : Str} {cs cs' : List (PCmd (PTerm PSymb))} (h : TextOf text cs) (h' : TextOf text cs') : cs = cs' := by
  have := ((textOf_iff _ _).1 h).symm.trans ((textOf_iff _ _).1 h')
  cases this
  rfl

/-- C41. The texts that some paths mean, and the program that they contain, are unique. -/
theorem C41_unique (fs : FileSystem) (stdin : Str) (paths : List Str) (srcs srcs' : List (List Str × Str)) (es es' : List Entry)
    (h : Sources fs stdin paths srcs) (h' : Sources fs stdin paths srcs') (hp : ProgramOf srcs es) (hp' : ProgramOf srcs' es') :
    srcs = srcs' ∧ es = es' := by
  have h1 : srcs = srcs' := by
    clear hp hp'
    induction h generalizing srcs' with
    | nil => cases h'; rfl
    | stdin hp hm hd _ ih =>
      cases h' with
      | stdin hp' hm' hd' hs' =>
        cases hp.unique hp'
        rw [ih _ hs', C36_unique _ hp.2.1 hp.1 _ _ hm hm']
      | file hp' hm' hd' ht' hs' => cases hp.unique hp'; exact absurd hd hd'
    | file hp hm hd ht _ ih =>
      cases h' with
      | stdin hp' hm' hd' hs' => cases hp.unique hp'; exact absurd hd' hd
      | file hp' hm' hd' ht' hs' =>
        cases hp.unique hp'
        rw [ht] at ht'
        cases ht'
        rw [ih _ hs', C36_unique _ hp.2.1 hp.1 _ _ hm hm']
  subst h1
  refine ⟨rfl, ?_⟩
  clear h h'
  induction hp generalizing es' with
  | nil => cases hp'; rfl
  | cons ht _ ih =>
    cases hp' with
    | cons ht' hs' => rw [ht.unique ht', ih _ hs']

theorem Refers.unique {ns : List (List Str × Str)} (hn : ns.Nodup) {m : List Str} {c : PSymb} {i j : Nat} (h : Refers ns m c i)
    (h' : Refers ns m c j) : i = j := by
  obtain ⟨p, h1, h2, h3⟩ := h
  obtain ⟨p', h1', h2', h3'⟩ := h'
  have hl : p.length = p'.length := by
    rcases Nat.lt_trichotomy p.length p'.length with h | h | h
    · exact absurd (List.mem_of_getElem? h2') (h3 p' h1' h)
    · exact h
    · exact absurd (List.mem_of_getElem? h2) (h3' p h1 h)
  have : p = p' := (List.prefix_of_prefix_length_le h1 h1' (Nat.le_of_eq hl)).eq_of_length hl
  subst this
  obtain ⟨hi, ei⟩ := List.getElem?_eq_some_iff.1 h2
  obtain ⟨hj, ej⟩ := List.getElem?_eq_some_iff.1 h2'
  exact (List.Nodup.getElem_inj_iff hn).1 (ei.trans ej.symm)

mutual
  theorem den_congr {f g : PSymb → Sym} : (t : PTerm Atom) → (∀ c ∈ t.consts, f c = g c) → t.den f = t.den g
    | .app h args, hc => by
      rw [PTerm.consts] at hc
      rw [PTerm.den, PTerm.den, headDen_congr h fun c hh => hc c (List.mem_append_left _ hh),
        denList_congr args fun c hh => hc c (List.mem_append_right _ hh)]
  theorem headDen_congr {f g : PSymb → Sym} : (h : PHead Atom) → (∀ c ∈ h.consts, f c = g c) → h.den f = h.den g
    | .atom (.const c), hc => by rw [PHead.den, PHead.den, hc c (by simp [PHead.consts])]
    | .atom (.var n), _ => by rw [PHead.den, PHead.den]
    | .atom .type, _ => by rw [PHead.den, PHead.den]
    | .abst x none tm, hc => by
      rw [PHead.consts] at hc
      rw [PHead.den, PHead.den, den_congr tm fun c hh => hc c (List.mem_append_right _ hh)]
    | .abst x (some ty) tm, hc => by
      rw [PHead.consts, PTerm.constsOpt] at hc
      rw [PHead.den, PHead.den, den_congr tm fun c hh => hc c (List.mem_append_right _ hh),
        den_congr ty fun c hh => hc c (List.mem_append_left _ hh)]
    | .prod x ty tm, hc => by
      rw [PHead.consts] at hc
      rw [PHead.den, PHead.den, den_congr tm fun c hh => hc c (List.mem_append_right _ hh),
        den_congr ty fun c hh => hc c (List.mem_append_left _ hh)]
  theorem denList_congr {f g : PSymb → Sym} : (ts : List (PTerm Atom)) → (∀ c ∈ PTerm.constsList ts, f c = g c) →
      PTerm.denList f ts = PTerm.denList g ts
    | [], _ => by rw [PTerm.denList, PTerm.denList]
    | t :: ts, hc => by
      rw [PTerm.constsList] at hc
      rw [PTerm.denList, PTerm.denList, den_congr t fun c hh => hc c (List.mem_append_left _ hh),
        denList_congr ts fun c hh => hc c (List.mem_append_right _ hh)]
end

/-- C41. A written term means at most one term, if no name was introduced twice. -/
theorem C41_meaning_unique (ns : List (List Str × Str)) (hn : ns.Nodup) (m : List Str) (t : PTerm PSymb) (u u' : Tm)
    (h : Means (Refers ns m) t u) (h' : Means (Refers ns m) t u') : u = u' := by
  obtain ⟨f, h1, rfl⟩ := h
  obtain ⟨g, h2, rfl⟩ := h'
  exact den_congr _ fun c hc => (h1 c hc).unique hn (h2 c hc)

theorem opened_map {files : List (Out ParsedFile)} (h : files.all Out.isOk = true) : (opened files).map .ok = files := by
  induction files with
  | nil => rfl
  | cons f fs ih =>
    simp only [List.all_cons, Bool.and_eq_true] at h
    obtain ⟨f, rfl⟩ := Out.isOk_iff.1 h.1
    rw [opened, List.map_cons, ih h.2]

/-- Two files, and a third text from the standard input: natural numbers in `lib/nat.dk`, addition in `lib/add.dk`, and something about
them. -/
def Example.fileSystem : FileSystem := fun p =>
  if p = str "lib/nat.dk" then some (str "N : Type.\n0 : N.\ninjective S : N -> N.\n")
  else if p = str "lib/add.dk" then
    some (str "(; addition ;)\ndef add : nat.N ->\n  nat.N -> nat.N.\n[n: nat.N] add nat.0 n --> n\n[m: nat.N, n: nat.N] add (nat.S m) n --> nat.S (add m n).\n")
  else none

/-- the standard input -/
def Example.input : Str := str "E : lib.nat.N -> lib.nat.N -> Type.\nrefl (x : lib.nat.N) : E x x.\nthm two : E (lib.add.add (lib.nat.S lib.nat.0) (lib.nat.S lib.nat.0)) (lib.nat.S (lib.nat.S lib.nat.0)) := refl (lib.nat.S (lib.nat.S lib.nat.0)).\n"

/-- the example is accepted, with and without a channel -/
example : (∃ gc, RunPaths (Kern.std 30 fun _ => true) ⟨false, none, false⟩ Example.fileSystem Example.input
      [str "lib/nat.dk", str "lib/add.dk", str "-"] gc (.ok ())) ∧
    PipePaths (Kern.std 30 fun _ => true) ⟨false, none, false⟩ Example.fileSystem Example.input
      [str "lib/nat.dk", str "lib/add.dk", str "-"] (.ok ()) := by
  unfold PipePaths RunPaths
  rw [← C29_accepts_iff, and_self]
  have h : (openFiles Example.fileSystem Example.input [str "lib/nat.dk", str "lib/add.dk", str "-"]).all Out.isOk = true := by
    decide +kernel
  have h' : (inferChecksSeq (Kern.std 30 fun _ => true) ⟨false, none, false⟩ (GCtx.start false) (allCmds ⟨false, none, false⟩ ShState.new
      (opened (openFiles Example.fileSystem Example.input [str "lib/nat.dk", str "lib/add.dk", str "-"])))).2.isOk = true := by
    decide +kernel
  generalize openFiles Example.fileSystem Example.input [str "lib/nat.dk", str "lib/add.dk", str "-"] = files at h h' ⊢
  obtain ⟨u, hu⟩ := Out.isOk_iff.1 h'
  rw [← opened_map h]
  exact ⟨_, runFiles_ok_iff.2 (Prod.ext rfl hu)⟩

#print axioms C41_sound
#print axioms C41_piped
#print axioms C41_unique
#print axioms C41_meaning_unique

end Kontroli
