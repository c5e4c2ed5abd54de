import Verif.Proofs.Consistent
import Verif.Props.Terminate

/-!
# C57: consistency

What is accepted by the checker is true: types are read as propositions (`Spec/Consistent.lean`).
-/

namespace Kontroli

/-- C57. Truth values that respect the rules for types and make the types of the postulated symbols true make the types of all terms true. -/
theorem C57_true (eta : Bool) (cmds : List Cmd) (T : Theory) (h : SessionIn eta cmds T) (cr : Coherent eta T.rules) (v : Sym → Prop) (hv : T.Models v)
    (hax : ∀ s A, Postulated cmds s → T.ty s = some A → A.Holds v) (Γ : List Tm) (t A : Tm) (hΓ : WfCtx T Γ) (hh : ∀ B ∈ Γ, B.Holds v)
    (ht : Strict T Γ t A) : A.Holds v := by
  have hC := h.church_of cr
  have hT := h.wellFormedIn hC
  have hR : ∀ s l r, T.rules s = some l → r ∈ l → RuleSides T s r := fun _ _ _ => h.sides
  exact ht.holds hT hC hv hR (.refl T) (h.types_hold hT hC hv hR (.refl T) hax) hΓ hh

/-- C57. If all rewrite rules are for objects then the postulated symbols can be given any truth values. -/
theorem C57_models (eta : Bool) (cmds : List Cmd) (T : Theory) (h : SessionIn eta cmds T) (ho : ∀ rs, Cmd.rules rs ∈ cmds → ∀ r ∈ rs, T.Object r.lhs.symbol)
    (v₀ : Sym → Prop) : ∃ v, T.Models v ∧ ∀ s, Postulated cmds s → (v s ↔ v₀ s) := h.exists_models v₀ (.refl T) ho

theorem Amenable.coherent {eta : Bool} {R : RuleMap} (h : Amenable eta R) : Coherent eta R := by
  cases eta with
  | false => exact Orthogonal.confluent h
  | true => exact h

theorem Amenable.static {eta : Bool} {R : RuleMap}
    (h : ∀ s rs, R s = some rs → rs = [] ∨ ∃ tm : LTerm, rs = [⟨[], ⟨s, []⟩, tm⟩] ∧ tm.den.FreeBelow 0) : Amenable eta R := by
  cases eta with
  | false => exact Orthogonal.static h
  | true => exact Definitional.static h

theorem Tm.Ends.kind {T : Theory} {t : Tm} {o : Option Sym} (h : t.Ends o) (hT : T.Sorted) {Γ : List Tm} (ht : Strict T Γ t .kind) (hΓ : WfCtx T Γ) :
    o = none := by
  induction h generalizing Γ with
  | type => rfl
  | const =>
    rcases ht.kind_inv hT rfl hΓ with h | ⟨A, D, h, -⟩
    · exact absurd h Tm.apps_const_ne_type
    · exact absurd h Tm.apps_const_ne_pi
  | pi _ ih =>
    rcases ht.kind_inv hT rfl hΓ with h | ⟨A, D, h, h1, h2⟩
    · cases h
    · cases h; exact ih h2 (hΓ.cons h1)

/-- C57. A type for which nothing is made is empty: no closed term has it. -/
theorem C57_empty (eta : Bool) (cmds : List Cmd) (T : Theory) (h : SessionIn eta cmds T) (cr : Coherent eta T.rules) (k : Sym) (hk : Barren cmds T k)
    (ts : List Tm) (t : Tm) : ¬ Strict T [] t (Tm.apps (.const k) ts) := by
  intro ht
  obtain ⟨v, hv, h0⟩ := C57_models eta cmds T h (by
    intro rs hrs r hr
    obtain ⟨A, c, h1, h2⟩ := hk.rules rs hrs r hr
    obtain ⟨s, hs, h3⟩ := h.sorted _ _ h1
    cases hs with
    | type => exact ⟨A, h1, h3⟩
    | kind => cases h2.kind h.sorted h3 .nil) fun c => c ≠ k
  refine (h0 k hk.postulated).1 ((Tm.holds_apps (.const k) ts).1 (C57_true eta cmds T h cr v hv ?_ [] t _ .nil nofun ht)) rfl
  intro s A hs hA
  obtain ⟨o, h1, h2⟩ := hk.ends s A hs hA
  clear hA
  induction h1 with
  | type => trivial
  | const => exact (Tm.holds_apps (.const _) _).2 ((h0 _ (h2 _ rfl).1).2 (h2 _ rfl).2)
  | pi _ ih => exact fun _ => ih h2

/-! ## Programs -/

theorem IntroMeans.given {R : PSymb → Sym → Prop} {args : List (Str × PTerm PSymb)} {it : Intro (PTerm PSymb)} {it' : Intro LTerm}
    (h : IntroMeans R args it it') {ty : PTerm PSymb} (hg : it.given = some ty) :
    ∃ f, (∀ c ∈ ((telescopeType args ty).scope []).consts, R c (f c)) ∧ ∃ ty' : LTerm, it'.given = some ty' ∧
      ty'.den = ((telescopeType args ty).scope []).den f := by
  obtain ⟨f, h1, rfl⟩ := h
  have e : (telescopeType args ty).scope [] = telescopeType (scopeTele PTerm.scope [] args) (ty.scope (teleEnv (args.map Prod.fst))) := by
    rw [telescopeType_scope, List.append_nil]
  rw [e]
  refine ⟨f, ?_, (telescopeType (scopeTele PTerm.scope [] args) (ty.scope (teleEnv (args.map Prod.fst)))).resolve f, ?_, resolve_den f _⟩
  · intro c hc
    rw [telescopeType_consts, List.mem_append] at hc
    refine h1 c (hc.symm.imp_left fun h => ?_)
    cases it with
    | definition t tm => cases hg; exact List.mem_append_left _ h
    | theorem_ t tm => cases hg; exact List.mem_append_left _ h
    | declaration i t => cases hg; exact h
  · cases it with
    | definition t tm => cases hg; rfl
    | theorem_ t tm => cases hg; rfl
    | declaration i t => cases hg; rfl

theorem IntroMeans.body_none {R : PSymb → Sym → Prop} {args : List (Str × PTerm PSymb)} {it : Intro (PTerm PSymb)} {it' : Intro LTerm}
    (h : IntroMeans R args it it') : it'.body = none ↔ it.body = none := by
  obtain ⟨f, h1, rfl⟩ := h
  cases it with
  | definition t tm =>
    cases tm with
    | none => exact ⟨fun _ => rfl, fun _ => rfl⟩
    | some tm => exact ⟨nofun, nofun⟩
  | theorem_ t tm => exact ⟨nofun, nofun⟩
  | declaration i t => exact ⟨fun _ => rfl, fun _ => rfl⟩

theorem PTerm.Family.ends {t : PTerm Atom} (h : t.Family) (f : PSymb → Sym) : (t.den f).Ends none := by
  induction h with
  | type => exact .type
  | prod _ ih => exact .pi ih

/-- C57. In a correct program without rewrite rules in which only types are introduced without a body, nothing that is introduced has a type of such a
name (with any arguments). -/
theorem C57_program (eta : Bool) (es : List Entry) (T : Theory) (h : CorrectIn eta es T) (hn : ∀ e ∈ es, ∀ rs, e.cmd ≠ .rules rs) (ha : NoAxioms es)
    (pre post : List Entry) (m : List Str) (x : Str) (args : List (Str × PTerm PSymb)) (it : Intro (PTerm PSymb))
    (e : es = pre ++ ⟨m, .intro x args it⟩ :: post) (ty : PTerm PSymb) (hg : it.given = some ty) (c : PSymb) (as : List (PTerm Atom))
    (hty : (telescopeType args ty).scope [] = .app (.atom (.const c)) as)
    (pre' post' : List Entry) (m' : List Str) (x' : Str) (args' : List (Str × PTerm PSymb)) (it' : Intro (PTerm PSymb))
    (e' : es = pre' ++ ⟨m', .intro x' args' it'⟩ :: post') (hc : Refers (declared pre) m c (declared pre').length) : it'.body ≠ none := by
  intro hb
  obtain ⟨cmds, hS, hT⟩ := h
  have hr := hS.noRules hn
  have cr : Coherent eta T.rules := by
    rw [hT.rulesEq]
    refine Coherent.static fun s rs hr' => ?_
    obtain ⟨it, k1, k2⟩ := rulesOfCmds_static hr hr'
    exact hS.static hn s it k1 rs k2
  obtain ⟨p, i, q, k1, k2⟩ := hS.at_intro e
  obtain ⟨p', i', q', k1', k2'⟩ := hS.at_intro e'
  rw [List.nil_append] at k1 k2 k1'
  have hk : Barren cmds T (declared pre').length := by
    refine ⟨⟨i', by rw [k1']; simp, k2'.body_none.2 hb⟩, ?_, fun rs h => absurd h (hr rs)⟩
    rintro s A ⟨i, k1, k2⟩ k3
    obtain ⟨p, m1, x1, args1, it1, q, rfl, rfl, k5⟩ := hS.of_intro k1
    obtain ⟨ty1, k6, k7⟩ := ha m1 x1 args1 it1 (by simp) (k5.body_none.1 k2)
    obtain ⟨f, -, ty2, k8, k9⟩ := k5.given k6
    obtain ⟨B, j1, -, j2, -⟩ := hT.introduced k1
    rw [k3] at j1
    cases j1
    rw [j2 ty2 k8, k9]
    exact ⟨none, k7.ends f, nofun⟩
  obtain ⟨f, k3, ty', k4, k5⟩ := k2.given hg
  obtain ⟨A, j1, -, j2, j3⟩ := hT.introduced (s := (declared pre).length) (it := i) (by rw [k1]; simp)
  have hnd : (declared pre).Nodup := by
    have := hS.nodup List.nodup_nil
    rw [List.nil_append, e, declared_append] at this
    exact this.of_append_left
  have hA : A = Tm.apps (.const (declared pre').length) (PTerm.denList f as) := by
    rw [j2 ty' k4, k5, hty, PTerm.den, PHead.den]
    have := k3 c (by rw [hty]; simp [PTerm.consts, PHead.consts])
    rw [this.unique hnd hc]
  subst hA
  exact C57_empty eta cmds T hT cr _ hk _ (.const _) (.const j1)

/-! ## Runs -/

/-- C57. If a run accepts a regular program, then in the theory of the run a type for which nothing is made is empty. -/
theorem C57_run (k : Kern) (hk : k.Real) (opt : Opt) (ho : opt.omitted = none) (fs : FileSystem) (stdin : Str)
    (paths : List Str) (hR : ∀ srcs es, Sources fs stdin paths srcs → ProgramOf srcs es → RegularIn opt.eta es) (gc : GCtx)
    (h : RunPaths k opt fs stdin paths gc (.ok ())) :
    ∃ srcs es cmds, Sources fs stdin paths srcs ∧ ProgramOf srcs es ∧ Shared [] es cmds ∧
      ∀ c, Barren cmds gc.theory c → ∀ ts t, ¬ Strict gc.theory [] t (Tm.apps (.const c) ts) := by
  obtain ⟨srcs, es, h1, h2, ⟨cmds, h3, h4⟩, -⟩ := C66_sound k hk opt ho fs stdin paths hR gc h
  refine ⟨srcs, es, cmds, h1, h2, h3, fun c hc ts t => C57_empty opt.eta cmds _ h4 ?_ c hc ts t⟩
  rw [h4.rulesEq]
  exact Amenable.coherent ((hR srcs es h1 h2).orthogonal cmds h3)

/-- C57. If no text contains the arrow of rewrite rules, and a run accepts, and only types are introduced without a body, then nothing is introduced with
a type of such a name. -/
theorem C57_text (k : Kern) (hk : k.Real) (opt : Opt) (ho : opt.omitted = none) (fs : FileSystem) (stdin : Str)
    (paths : List Str) (hi : ¬ str "-->" <:+: stdin) (hs : ∀ p ∈ paths, ∀ text, fs p = some text → ¬ str "-->" <:+: text) (gc : GCtx)
    (h : RunPaths k opt fs stdin paths gc (.ok ())) (srcs : List (List Str × Str)) (es : List Entry) (h1 : Sources fs stdin paths srcs)
    (h2 : ProgramOf srcs es) (ha : NoAxioms es)
    (pre post : List Entry) (m : List Str) (x : Str) (args : List (Str × PTerm PSymb)) (it : Intro (PTerm PSymb))
    (e : es = pre ++ ⟨m, .intro x args it⟩ :: post) (ty : PTerm PSymb) (hg : it.given = some ty) (c : PSymb) (as : List (PTerm Atom))
    (hty : (telescopeType args ty).scope [] = .app (.atom (.const c)) as)
    (pre' post' : List Entry) (m' : List Str) (x' : Str) (args' : List (Str × PTerm PSymb)) (it' : Intro (PTerm PSymb))
    (e' : es = pre' ++ ⟨m', .intro x' args' it'⟩ :: post') (hc : Refers (declared pre) m c (declared pre').length) : it'.body ≠ none := by
  have hn : ∀ e ∈ es, ∀ rs, e.cmd ≠ .rules rs := by
    refine h2.static fun s hs' => ?_
    rcases h1.readable s hs' with h | h | ⟨p, hp, h⟩
    · rw [h]; exact hi
    · rw [h]; intro h; exact absurd (List.IsInfix.length_le h) (by decide)
    · exact hs p hp _ h
  obtain ⟨files, hf⟩ := runFiles_ok_files h
  unfold RunPaths Run at h
  rw [hf] at h
  have hrun := runFiles_ok_iff.1 h
  obtain ⟨srcs', es', cmds, k1, k2, k3, k4⟩ := program_spec ho fs paths stdin ShState.new [] files .new hf (inferChecksSeq_ok_mem hrun)
  obtain ⟨rfl, rfl⟩ := C41_unique _ _ _ _ _ _ _ k1 h1 k2 h2
  rw [k3, inferChecksSeq_all ho] at hrun
  have hr := k4.noRules hn
  refine C57_program opt.eta es' gc.theory ⟨cmds, k4, ?_⟩ hn ha pre post m x args it e ty hg c as hty pre' post' m' x' args' it' e' hc
  refine C66_session_sound k hk opt opt.eta (Opt.omits_none ho _) cmds (fun rs h => absurd h (hr rs)) (fun p rs q T e => absurd (e ▸ List.mem_append_right p List.mem_cons_self) (hr rs)) ?_ gc hrun
  refine Amenable.static fun s rs hr' => ?_
  obtain ⟨it, j1, j2⟩ := rulesOfCmds_static hr hr'
  exact k4.static hn s it j1 rs j2

/-! ## Examples -/

/-- After the numbers with addition by rules (`Example.cmds`), a type is declared for which nothing is made.  It is empty, though there are rules and
objects. -/
example : ∃ cmds T, Session cmds T ∧ Confluent T.rules ∧ Barren cmds T 5 ∧ (∃ rs, Cmd.rules rs ∈ cmds) ∧ ∃ t, Strict T [] t (.const 0) := by
  have hok : (seqLoop (Kern.std 30 fun _ => true) ⟨false, none, false⟩ (GCtx.start false) ((Example.cmds Example.goodBody).map .ok)).2.isOk = true := by
    decide +kernel
  obtain ⟨⟨⟩, hok⟩ := Out.isOk_iff.1 hok
  have hf : ∀ rs, Cmd.rules rs ∈ Example.cmds Example.goodBody → ∀ r ∈ rs, r.Full := by
    intro rs hrs r hr
    simp only [Example.cmds, List.mem_cons, reduceCtorEq, List.not_mem_nil, or_false, false_or, Cmd.rules.injEq] at hrs
    subst hrs
    simp only [List.mem_cons, List.not_mem_nil, or_false] at hr
    have pv : ∀ n, PatTm (.mvar n) (.var n) := fun n => .var
    rcases hr with rfl | rfl
    · refine ⟨_, _, _, [.const 0], rfl, rfl, .symb (ts := [.const 1, .var 0]) rfl ?_, rfl⟩
      rintro (_ | _ | i) p t hp ht
      · cases hp; cases ht; exact .symb (ts := []) rfl (by simp)
      · cases hp; cases ht; exact .var
      · simp at hp
    · refine ⟨_, _, _, [.const 0, .const 0], rfl, rfl, .symb (ts := [.app (.const 2) (.var 1), .var 0]) rfl ?_, rfl⟩
      rintro (_ | _ | i) p t hp ht
      · cases hp; cases ht
        refine PatTm.symb (ts := [.var 1]) rfl ?_
        rintro (_ | i) p t hp ht
        · cases hp; cases ht; exact .var
        · simp at hp
      · cases hp; cases ht; exact .var
      · simp at hp
  have hS := C49_session_sound (Kern.std 30 fun _ => true) (Kern.std_real _ _) ⟨false, none, false⟩ rfl _ hf (Example.ctxsRight _)
    (C49_orthogonal _ (by decide +kernel)) _ (Prod.ext rfl hok)
  have hx : ((seqLoop (Kern.std 30 fun _ => true) ⟨false, none, false⟩ (GCtx.start false) ((Example.cmds Example.goodBody).map .ok)).1.types 5).isNone = true := by
    decide +kernel
  have hx : (seqLoop (Kern.std 30 fun _ => true) ⟨false, none, false⟩ (GCtx.start false) ((Example.cmds Example.goodBody).map .ok)).1.theory.ty 5 = none := by
    show Option.map _ _ = _
    rw [Option.isNone_iff_eq_none.1 hx]; rfl
  generalize (seqLoop (Kern.std 30 fun _ => true) ⟨false, none, false⟩ (GCtx.start false) ((Example.cmds Example.goodBody).map .ok)).1.theory = T at hS hx
  have hS' := hS.intro hx (.declared (ty := .type) ⟨.kind, .kind, .type⟩)
  have hty : ∀ {s : Sym} {it : Intro LTerm} {A : Tm} {ty : LTerm}, Cmd.intro s it ∈ Example.cmds Example.goodBody ++ [.intro 5 (.declaration false .type)] →
      it.given = some ty → (T.declare 5 LTerm.type.den none).ty s = some A → A = ty.den := by
    intro s it A ty h1 h2 h3
    obtain ⟨B, h4, -, h5, -⟩ := hS'.introduced h1
    rw [h4] at h3
    cases h3
    exact h5 ty h2
  have hN : ∀ c, c = 0 → Postulated (Example.cmds Example.goodBody ++ [.intro 5 (.declaration false .type)]) c ∧ c ≠ 5 := by
    rintro c rfl; exact ⟨⟨_, List.mem_cons_self, rfl⟩, by decide⟩
  refine ⟨_, _, hS', ?_, ⟨⟨.declaration false .type, by simp, rfl⟩, ?_, ?_⟩, ⟨_, List.mem_append_left _ (List.mem_of_getElem? (i := 4) rfl)⟩, .const 1, ?_⟩
  · rw [hS'.rulesEq]
    exact (C49_orthogonal _ (by decide +kernel)).confluent
  · rintro s A ⟨it, h1, h2⟩ hA
    have h1' := h1
    simp only [Example.cmds, List.cons_append, List.nil_append, List.mem_cons, Cmd.intro.injEq, reduceCtorEq, List.not_mem_nil, or_false, false_or] at h1'
    rcases h1' with ⟨rfl, rfl⟩ | ⟨rfl, rfl⟩ | ⟨rfl, rfl⟩ | ⟨rfl, rfl⟩ | ⟨rfl, rfl⟩ | ⟨rfl, rfl⟩
    · rw [hty h1 rfl hA]; exact ⟨none, .type, nofun⟩
    · rw [hty h1 rfl hA]; exact ⟨some 0, .const (ts := []), fun c e => hN c (by cases e; rfl)⟩
    · rw [hty h1 rfl hA]; exact ⟨some 0, .pi (.const (ts := [])), fun c e => hN c (by cases e; rfl)⟩
    · rw [hty h1 rfl hA]; exact ⟨some 0, .pi (.pi (.const (ts := []))), fun c e => hN c (by cases e; rfl)⟩
    · cases h2
    · rw [hty h1 rfl hA]; exact ⟨none, .type, nofun⟩
  · intro rs hrs r hr
    have hadd := hS'.introduced (List.mem_append_left [_] (List.mem_of_getElem? (i := 3) rfl : _ ∈ Example.cmds Example.goodBody))
    obtain ⟨B, h4, -, h5, -⟩ := hadd
    simp only [Example.cmds, List.cons_append, List.nil_append, List.mem_cons, reduceCtorEq, List.not_mem_nil, or_false, false_or, Cmd.rules.injEq] at hrs
    subst hrs
    have he : B.Ends (some 0) := by rw [h5 _ rfl]; exact .pi (.pi (.const (ts := [])))
    simp only [List.mem_cons, List.not_mem_nil, or_false] at hr
    rcases hr with rfl | rfl <;> exact ⟨B, 0, h4, he⟩
  · exact .const (hS'.declaredType (s := 1) (b := false) (ty := .const 0) (List.mem_of_getElem? (i := 1) rfl))

/-- `P : Type.`, `def Q : Type.`, `[] Q --> P -> P.`, `thm t : Q := x : P => x.` -/
def Example.provedCmds : List Cmd :=
  [.intro 0 (.declaration false .type), .intro 1 (.definition (some .type) none), .rules [⟨[], ⟨1, []⟩, .comb (.prod ['$'] (.const 0) (.const 0))⟩],
   .intro 2 (.theorem_ (.const 1) (.comb (.abst ['x'] (some (.const 0)) (.var 0))))]

/-- C57. With a rewrite rule for a type, this type can be inhabited, though only types are postulated: the condition on rules is needed. -/
theorem C57_rules_false : ∃ cmds T k t, Session cmds T ∧ Confluent T.rules ∧ Postulated cmds k ∧
    (∀ s A, Postulated cmds s → T.ty s = some A → A = .type) ∧ Strict T [] t (.const k) := by
  have hok : (seqLoop (Kern.std 30 fun _ => true) ⟨false, none, false⟩ (GCtx.start false) (Example.provedCmds.map .ok)).2.isOk = true := by
    decide +kernel
  obtain ⟨⟨⟩, hok⟩ := Out.isOk_iff.1 hok
  have hO : Orthogonal (rulesOfCmds Example.provedCmds) := C49_orthogonal _ (by decide +kernel)
  have hr : ∀ rs, Cmd.rules rs ∈ Example.provedCmds → ∀ r ∈ rs, r = ⟨[], ⟨1, []⟩, .comb (.prod ['$'] (.const 0) (.const 0))⟩ := by
    intro rs hrs r hr
    simp only [Example.provedCmds, List.mem_cons, reduceCtorEq, List.not_mem_nil, or_false, false_or, Cmd.rules.injEq] at hrs
    subst hrs
    exact List.mem_singleton.1 hr
  have hS := C49_session_sound (Kern.std 30 fun _ => true) (Kern.std_real _ _) ⟨false, none, false⟩ rfl _ (fun rs hrs r hr' => by
      rw [hr rs hrs r hr']
      exact ⟨_, _, _, [], rfl, rfl, .symb (ts := []) rfl (by simp), rfl⟩) (fun p rs q T e _ r hr' Γ l u hc => by
      rw [hr rs (e ▸ List.mem_append_right p List.mem_cons_self) r hr'] at hc
      obtain ⟨tys, h1, rfl, -⟩ := hc
      have : tys = [] := by simpa using h1.symm
      subst this
      exact .nil) hO _ (Prod.ext rfl hok)
  refine ⟨_, _, 1, .const 2, hS, ?_, ⟨_, List.mem_of_getElem? (i := 1) rfl, rfl⟩, ?_, ?_⟩
  · rw [hS.rulesEq]; exact hO.confluent
  · rintro s A ⟨it, h1, h2⟩ hA
    obtain ⟨B, h4, -, h5, -⟩ := hS.introduced h1
    rw [h4] at hA
    cases hA
    simp only [Example.provedCmds, List.mem_cons, Cmd.intro.injEq, reduceCtorEq, List.not_mem_nil, or_false, false_or] at h1
    rcases h1 with ⟨rfl, rfl⟩ | ⟨rfl, rfl⟩ | ⟨rfl, rfl⟩
    · exact h5 _ rfl
    · exact h5 _ rfl
    · cases h2
  · obtain ⟨B, h4, -, h5, -⟩ := hS.introduced (List.mem_of_getElem? (i := 3) rfl : _ ∈ Example.provedCmds)
    rw [h5 _ rfl] at h4
    exact .const h4

/-- a text in which only types are postulated -/
def Example.typesText : Str := str "P : Type.\nQ : P -> Type.\ndef F : Type := P -> P.\nthm id : F := x : P => x.\n"

/-- its commands -/
def Example.typesCmds : List Cmd :=
  [.intro 0 (.declaration false .type), .intro 1 (.declaration false (.comb (.prod ['$'] (.const 0) .type))),
   .intro 2 (.definition (some .type) (some (.comb (.prod ['$'] (.const 0) (.const 0))))),
   .intro 3 (.theorem_ (.const 2) (.comb (.abst ['x'] (some (.const 0)) (.var 0))))]

/-- what is written -/
def Example.typesParsed : List (PCmd (PTerm PSymb)) :=
  let P := Example.pc "P" []
  let Ty := Example.pc "Type" []
  [.intro (str "P") [] (.declaration false Ty), .intro (str "Q") [] (.declaration false (.new (.prod none P Ty))),
   .intro (str "F") [] (.definition (some Ty) (some (.new (.prod none P P)))),
   .intro (str "id") [] (.theorem_ (Example.pc "F" []) (.new (.abst (str "x") (some P) (Example.pc "x" []))))]

set_option maxRecDepth 100000 in
theorem Example.typesText_of : TextOf Example.typesText Example.typesParsed := (textOf_iff _ _).2 (by rfl)

set_option maxRecDepth 100000 in
theorem Example.typesAll : allCmds ⟨false, none, false⟩ ShState.new [⟨[str "a"], parseText Example.typesText⟩] = Example.typesCmds.map .ok := by
  rw [parseText_of Example.typesText_of]
  rfl

set_option maxRecDepth 100000 in
/-- The hypotheses of `C57_text` hold for the text. -/
example : (¬ str "-->" <:+: Example.typesText) ∧
    (∃ gc, RunPaths (Kern.std 30 fun _ => true) ⟨false, none, false⟩ (Example.oneFile Example.typesText) [] [str "a.dk"] gc (.ok ())) ∧
    ∀ srcs es, Sources (Example.oneFile Example.typesText) [] [str "a.dk"] srcs → ProgramOf srcs es →
      NoAxioms es ∧ es = Example.typesParsed.map (Entry.mk [str "a"]) := by
  refine ⟨by decide +kernel, ?_, ?_⟩
  · have hok : (seqLoop (Kern.std 30 fun _ => true) ⟨false, none, false⟩ (GCtx.start false) (Example.typesCmds.map .ok)).2.isOk = true := by decide +kernel
    obtain ⟨⟨⟩, hok⟩ := Out.isOk_iff.1 hok
    exact Example.run (res := .ok ()) rfl Example.typesAll hok
  · intro srcs es h1 h2
    have hsrc : Sources (Example.oneFile Example.typesText) [] [str "a.dk"] [([str "a"], Example.typesText)] := by
      refine .file (pieces := [str "a.dk"]) ?_ ?_ ?_ (if_pos rfl) .nil
      · exact ⟨by decide, by decide, by decide⟩
      · exact (C36_module_path _ (by decide) (by decide) _).1 (by decide)
      · intro h; exact absurd h.1 (by decide)
    have hprog : ProgramOf [([str "a"], Example.typesText)] (Example.typesParsed.map (Entry.mk [str "a"])) := by
      have := ProgramOf.cons (m := [str "a"]) Example.typesText_of .nil
      rwa [List.append_nil] at this
    obtain ⟨rfl, rfl⟩ := C41_unique _ _ _ _ _ _ _ h1 hsrc h2 hprog
    refine ⟨?_, rfl⟩
    intro m x args it hm hb
    simp only [Example.typesParsed, List.map_cons, List.map_nil, List.mem_cons, Entry.mk.injEq, PCmd.intro.injEq, List.not_mem_nil, or_false] at hm
    rcases hm with ⟨-, -, rfl, rfl⟩ | ⟨-, -, rfl, rfl⟩ | ⟨-, -, rfl, rfl⟩ | ⟨-, -, rfl, rfl⟩
    · exact ⟨_, rfl, .type⟩
    · exact ⟨_, rfl, .prod .type⟩
    · cases hb
    · cases hb

/-- With eta, the hypotheses of `C57_empty` hold for `P` after the commands of this text. -/
example : ∃ T, SessionIn true Example.typesCmds T ∧ Coherent true T.rules ∧ Barren Example.typesCmds T 0 ∧ ∃ t, Strict T [] t (.const 2) := by
  have hok : (seqLoop (Kern.std 30 fun _ => true) ⟨true, none, false⟩ (GCtx.start true) (Example.typesCmds.map .ok)).2.isOk = true := by decide +kernel
  obtain ⟨⟨⟩, hok⟩ := Out.isOk_iff.1 hok
  have hr : ∀ rs, Cmd.rules rs ∉ Example.typesCmds := by
    intro rs h
    simp [Example.typesCmds] at h
  have hst : ∀ s rs, rulesOfCmds Example.typesCmds s = some rs → rs = [] ∨ ∃ tm : LTerm, rs = [⟨[], ⟨s, []⟩, tm⟩] ∧ tm.den.FreeBelow 0 := by
    intro s rs h
    obtain ⟨it, j1, j2⟩ := rulesOfCmds_static hr h
    simp only [Example.typesCmds, List.mem_cons, Cmd.intro.injEq, List.not_mem_nil, or_false] at j1
    rcases j1 with ⟨rfl, rfl⟩ | ⟨rfl, rfl⟩ | ⟨rfl, rfl⟩ | ⟨rfl, rfl⟩
    · cases j2
    · cases j2
    · cases j2
      exact .inr ⟨_, rfl, by simp [LTerm.den, LComb.den, Tm.FreeBelow]⟩
    · cases j2
  have hS := C66_session_sound (Kern.std 30 fun _ => true) (Kern.std_real _ _) ⟨true, none, false⟩ true rfl Example.typesCmds (fun rs h => absurd h (hr rs))
    (fun p rs q T e => absurd (e ▸ List.mem_append_right p List.mem_cons_self) (hr rs)) (Amenable.static hst) _ (Prod.ext rfl hok)
  refine ⟨_, hS, ?_, ⟨⟨_, List.mem_cons_self, rfl⟩, ?_, fun rs h => absurd h (hr rs)⟩, .const 3, ?_⟩
  · rw [hS.rulesEq]
    exact Coherent.static hst
  · rintro s A ⟨it, h1, h2⟩ hA
    obtain ⟨B, h4, -, h5, -⟩ := hS.introduced h1
    rw [h4] at hA
    cases hA
    simp only [Example.typesCmds, List.mem_cons, Cmd.intro.injEq, List.not_mem_nil, or_false] at h1
    rcases h1 with ⟨rfl, rfl⟩ | ⟨rfl, rfl⟩ | ⟨rfl, rfl⟩ | ⟨rfl, rfl⟩
    · rw [h5 _ rfl]; exact ⟨none, .type, nofun⟩
    · rw [h5 _ rfl]; exact ⟨none, .pi .type, nofun⟩
    · cases h2
    · cases h2
  · obtain ⟨B, h4, -, h5, -⟩ := hS.introduced (List.mem_of_getElem? (i := 3) rfl : _ ∈ Example.typesCmds)
    rw [h5 _ rfl] at h4
    exact .const h4

#print axioms C57_true
#print axioms C57_models
#print axioms C57_empty
#print axioms C57_program
#print axioms C57_run
#print axioms C57_text
#print axioms C57_rules_false

end Kontroli
