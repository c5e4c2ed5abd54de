import Verif.Model.Library
import Verif.Spec.Library
import Verif.Proofs.Web
import Verif.Proofs.StaticNormal

/-!
# The loop of users of the library: proofs
-/

namespace Kontroli

/-- the loop on shared commands -/
def libRun (k : Kern) : GCtx → List Cmd → Out GCtx
  | gc, [] => .ok gc
  | gc, c :: cs => (libCmd k gc c).bind fun gc => libRun k gc cs

theorem libRun_snoc {k : Kern} {gc gc' : GCtx} {cs : List Cmd} {c : Cmd} :
    libRun k gc (cs ++ [c]) = .ok gc' ↔ ∃ gc1, libRun k gc cs = .ok gc1 ∧ libCmd k gc1 c = .ok gc' := by
  induction cs generalizing gc with
  | nil =>
    simp only [List.nil_append, libRun, Out.bind_ok]
    constructor
    · rintro ⟨a, h, h'⟩; cases h'; exact ⟨gc, rfl, h⟩
    · rintro ⟨a, h, h'⟩; cases h; exact ⟨_, h', rfl⟩
  | cons d cs ih =>
    simp only [List.cons_append, libRun, Out.bind_ok, ih]
    constructor
    · rintro ⟨a, h, b, h1, h2⟩; exact ⟨b, ⟨a, h, h1⟩, h2⟩
    · rintro ⟨b, ⟨a, h, h1⟩, h2⟩; exact ⟨a, h, b, h1, h2⟩

theorem libRun_append {k : Kern} (gc : GCtx) (cs ds : List Cmd) : libRun k gc (cs ++ ds) = (libRun k gc cs).bind fun gc => libRun k gc ds := by
  induction cs generalizing gc with
  | nil => rfl
  | cons c cs ih =>
    simp only [List.cons_append, libRun, ih]
    cases libCmd k gc c <;> rfl

theorem libLoop_ok {k : Kern} {st : ShState} {gc gc' : GCtx} {cs : List (POut ParseError Scoped)} :
    libLoop k st gc cs = .ok gc' ↔ ∃ (l : List Scoped) (cmds : List Cmd), cs = l.map .ok ∧ (shareAll st (l.map .ok)).2 = cmds.map .ok ∧
      libRun k gc cmds = .ok gc' := by
  induction cs generalizing st gc with
  | nil =>
    simp only [libLoop]
    constructor
    · intro h; exact ⟨[], [], rfl, rfl, h⟩
    · rintro ⟨l, cmds, h1, h2, h3⟩
      cases l with
      | cons => cases h1
      | nil =>
        cases cmds with
        | cons => cases h2
        | nil => exact h3
  | cons c cs ih =>
    cases c with
    | err e =>
      simp only [libLoop, reduceCtorEq, false_iff]
      rintro ⟨l, cmds, h1, -⟩
      cases l <;> cases h1
    | panic =>
      simp only [libLoop, reduceCtorEq, false_iff]
      rintro ⟨l, cmds, h1, -⟩
      cases l <;> cases h1
    | ok c =>
      simp only [libLoop, Out.bind_ok, ih]
      constructor
      · rintro ⟨cmd, h1, gc1, h2, l, cmds, rfl, h3, h4⟩
        refine ⟨c :: l, cmd :: cmds, rfl, ?_, ?_⟩
        · simp only [List.map_cons, shareAll, shareStep, h1, h3]
        · simp only [libRun, Out.bind_ok]; exact ⟨gc1, h2, h4⟩
      · rintro ⟨l, cmds, h1, h2, h3⟩
        cases l with
        | nil => cases h1
        | cons c' l =>
          simp only [List.map_cons, List.cons.injEq, POut.ok.injEq] at h1
          obtain ⟨rfl, rfl⟩ := h1
          simp only [List.map_cons, shareAll, shareStep] at h2
          cases cmds with
          | nil => cases h2
          | cons cmd cmds =>
            simp only [List.map_cons, List.cons.injEq] at h2
            simp only [libRun, Out.bind_ok] at h3
            obtain ⟨gc1, h4, h5⟩ := h3
            exact ⟨cmd, h2.1, gc1, h4, l, cmds, rfl, h2.2, h5⟩

/-! ## Against the checker -/

theorem rewriteAll_ok {k : Kern} {gc : GCtx} {rs : List Rule} :
    rewriteAll k (fun (_ : Unit) c gc => (k.check gc c).out) gc rs () = .ok () ↔
      ∀ r ∈ rs, ∀ t, r.toT = some t → ∃ c, k.rewrite gc t = .ok c ∧ k.check gc c = .ok () := by
  induction rs with
  | nil => simp [rewriteAll]
  | cons r rs ih =>
    unfold rewriteAll
    cases ht : r.toT with
    | none =>
      simp only [ih, List.mem_cons, forall_eq_or_imp]
      constructor
      · exact fun h => ⟨fun t h' => (by rw [ht] at h'; cases h'), h⟩
      · exact fun h => h.2
    | some t =>
      simp only [Out.bind_ok, Res.out_ok, List.mem_cons, forall_eq_or_imp]
      constructor
      · rintro ⟨c, h1, _, h2, h3⟩
        exact ⟨fun t' h' => (by rw [ht] at h'; cases h'; exact ⟨c, h1, h2⟩), ih.1 h3⟩
      · rintro ⟨h1, h2⟩
        obtain ⟨c, h3, h4⟩ := h1 t ht
        exact ⟨c, h3, (), h4, ih.2 h2⟩

theorem libCmd_intro {k : Kern} {gc gc' : GCtx} {s : Sym} {it : Intro LTerm} :
    libCmd k gc (.intro s it) = .ok gc' ↔ ∃ ty chk, k.intro gc it = .ok (ty, chk) ∧ (∀ c, chk = some c → k.check gc c = .ok ()) ∧
      gc.insert s ty it.rewritable = (gc', .ok ()) := by
  unfold libCmd
  simp only [Out.bind_ok, Res.out_ok, gctxOut_ok]
  constructor
  · rintro ⟨⟨ty, chk⟩, h1, _, h2, _, h3, h4⟩
    refine ⟨ty, chk, h1, ?_, ?_⟩
    · rintro c rfl
      exact Res.out_ok.1 h2
    · cases h4; exact Prod.ext rfl h3
  · rintro ⟨ty, chk, h1, h2, h3⟩
    refine ⟨(ty, chk), h1, (), ?_, (), by rw [h3], by rw [h3]⟩
    cases chk with
    | none => rfl
    | some c => exact Res.out_ok.2 (h2 c rfl)

theorem libCmd_rules {k : Kern} {gc gc' : GCtx} {rs : List Rule} : libCmd k gc (.rules rs) = .ok gc' ↔ addRules gc rs = (gc', .ok ()) := by
  unfold libCmd
  simp only [Out.bind_ok, gctxOut_ok]
  constructor
  · rintro ⟨_, h1, h2⟩; cases h2; exact Prod.ext rfl h1
  · intro h; exact ⟨(), by rw [h], by rw [h]⟩

/-- the checks of the rules of a command succeed -/
def RulesPass (k : Kern) (gc : GCtx) : Cmd → Prop
  | .intro _ _ => True
  | .rules rs => ∀ r ∈ rs, ∀ t, r.toT = some t → ∃ c, k.rewrite gc t = .ok c ∧ k.check gc c = .ok ()

theorem inferCheck_lib {k : Kern} {opt : Opt} (ho : opt.omits .check = false) {gc gc' : GCtx} {cmd : Cmd} :
    inferCheck k opt gc cmd = (gc', .ok ()) ↔ libCmd k gc cmd = .ok gc' ∧ RulesPass k gc cmd := by
  cases cmd with
  | intro s it =>
    simp only [libCmd_intro, RulesPass, and_true]
    constructor
    · intro h
      obtain ⟨ty, chk, h1, h2, h3⟩ := inferWith_intro_ok h
      refine ⟨ty, chk, h1, ?_, h3⟩
      rintro c rfl
      simp only [ho, Bool.false_eq_true, if_false] at h2
      exact Res.out_ok.1 h2
    · rintro ⟨ty, chk, h1, h2, h3⟩
      unfold inferCheck
      rw [inferWith]
      simp only [ho, Bool.false_eq_true, if_false]
      rw [Res.out_ok.2 h1]
      simp only [Out.bind]
      cases chk with
      | none => simp only [h3]; rfl
      | some c => simp only [Res.out_ok.2 (h2 c rfl), h3]; rfl
  | rules rs =>
    simp only [libCmd_rules, RulesPass]
    have e : (fun (_ : Unit) (c : Check) (gc : GCtx) => if opt.omits .check then Out.ok () else (k.check gc c).out) = fun _ c gc => (k.check gc c).out := by
      simp [ho]
    constructor
    · intro h
      obtain ⟨h1, h2⟩ := inferWith_rules_ok h
      rw [e] at h1
      exact ⟨h2, rewriteAll_ok.1 h1⟩
    · rintro ⟨h1, h2⟩
      unfold inferCheck
      rw [inferWith, e, rewriteAll_ok.2 h2]
      simp only [h1]
      rfl

/-- the checks of all rules succeed, in the contexts that the loop makes -/
def AllRulesPass (k : Kern) (gc : GCtx) (cmds : List Cmd) : Prop :=
  ∀ pre cmd post gc', cmds = pre ++ cmd :: post → libRun k gc pre = .ok gc' → RulesPass k gc' cmd

theorem seqLoop_lib {k : Kern} {opt : Opt} (ho : opt.omits .check = false) {gc gc' : GCtx} {cmds : List Cmd} :
    seqLoop k opt gc (cmds.map .ok) = (gc', .ok ()) ↔ libRun k gc cmds = .ok gc' ∧ AllRulesPass k gc cmds := by
  induction cmds generalizing gc with
  | nil =>
    simp only [List.map_nil, seqLoop, libRun, Prod.mk.injEq, and_true, Out.ok.injEq]
    constructor
    · rintro rfl; exact ⟨rfl, fun pre cmd post gc' e => by cases pre <;> cases e⟩
    · exact fun h => h.1
  | cons cmd cmds ih =>
    constructor
    · intro h
      rw [List.map_cons, seqLoop] at h
      split at h
      · next gc1 h1 =>
        obtain ⟨h2, h3⟩ := (inferCheck_lib ho).1 h1
        obtain ⟨h4, h5⟩ := ih.1 h
        refine ⟨by rw [libRun, h2]; exact h4, ?_⟩
        intro pre c post gc2 e h6
        cases pre with
        | nil => cases e; cases h6; exact h3
        | cons d pre =>
          simp only [List.cons_append, List.cons.injEq] at e
          obtain ⟨rfl, e⟩ := e
          rw [libRun, h2] at h6
          exact h5 pre c post gc2 e h6
      · next e hne h1 => cases h; exact (hne rfl).elim
    · rintro ⟨h1, h2⟩
      rw [libRun, Out.bind_ok] at h1
      obtain ⟨gc1, h3, h4⟩ := h1
      rw [List.map_cons, seqLoop_cons ((inferCheck_lib ho).2 ⟨h3, h2 [] cmd cmds gc rfl rfl⟩)]
      refine ih.2 ⟨h4, fun pre c post gc2 e h5 => h2 (cmd :: pre) c post gc2 (by rw [e]; rfl) ?_⟩
      rw [libRun, h3]
      exact h5

/-! ## Soundness -/

theorem SessionIn.types_none {cmds : List Cmd} {gc : GCtx} (h : Session cmds gc.theory) (s : Sym) (hs : gc.types s = none) : gc.rules s = none :=
  h.dom s (by simp [GCtx.theory, hs])

theorem lib_intro {k : Kern} (hk : k.Real) {cmds : List Cmd} {gc gc' : GCtx} (hS : Session cmds gc.theory) (cr : Confluent gc.rules) {s : Sym}
    {it : Intro LTerm} (h : libCmd k gc (.intro s it) = .ok gc') : Session (cmds ++ [.intro s it]) gc'.theory := by
  have hT := hS.wellFormed cr
  have he : gc.eta = false := hS.eta
  have h2' : inferCheck k ⟨false, none, false⟩ gc (.intro s it) = (gc', .ok ()) := (inferCheck_lib rfl).2 ⟨h, trivial⟩
  have hreq := inferCheck_rulesEq hk hS.types_none h2'
  obtain ⟨ty, chk, k1, k2, k3⟩ := libCmd_intro.1 h
  obtain ⟨n, rc, st, k4⟩ := hk.intro _ _ _ k1
  have hp := TriG.ok (Tri.intro n it) k4
  have hi := hp.introduces (.plain he cr) hT s (by
    intro c hc
    obtain ⟨n', rc', s', h9⟩ := hk.check _ _ (k2 _ hc)
    exact TriG.ok (Tri.checkCheck n' _) h9) (by rintro rfl; cases k4)
  obtain ⟨k6, -, k7⟩ := GCtx.insert_ok k3
  have hth : gc'.theory = gc.theory.declare s ty.ty.den (it.ruleList s) := by
    unfold Theory.declare GCtx.theory
    rw [hreq]
    congr 1
    · funext c
      rw [k7]
      simp only [mapInsert]
      split <;> rfl
    · rw [k7]
  rw [hth]
  exact .intro hS (by simp [GCtx.theory, k6]) hi

theorem lib_extend {gc gc' : GCtx} {rs : List Rule} (h : addRules gc rs = (gc', .ok ())) : gc'.theory = gc.theory.extend rs := by
  obtain ⟨k3, k4, k6, k5⟩ := GCtx.addRules_ok h
  unfold Theory.extend GCtx.theory
  rw [show gc'.rules = fun c => (gc.rules c).map (· ++ rs.filter fun r => r.lhs.symbol = c) from funext k6, k3, k4]

theorem libCmd_grows {k : Kern} {gc gc' : GCtx} {cmd : Cmd} (h : libCmd k gc cmd = .ok gc') : gc.Grows gc' := by
  cases cmd with
  | intro s it => exact inferWith_grows ((inferCheck_lib (opt := ⟨false, none, false⟩) rfl).2 ⟨h, trivial⟩)
  | rules rs => exact GCtx.addRules_grows (libCmd_rules.1 h)

theorem libRun_grows {k : Kern} {gc gc' : GCtx} {cmds : List Cmd} (h : libRun k gc cmds = .ok gc') : gc.Grows gc' := by
  induction cmds generalizing gc with
  | nil => cases h; exact GCtx.Grows.refl _
  | cons c cs ih =>
    rw [libRun, Out.bind_ok] at h
    obtain ⟨gc1, h1, h2⟩ := h
    exact (libCmd_grows h1).trans (ih h2)

theorem libRun_rulesEq {k : Kern} (hk : k.Real) {gc' : GCtx} {cmds : List Cmd} (h : libRun k GCtx.new cmds = .ok gc') :
    gc'.rules = rulesOfCmds cmds ∧ ∀ s, gc'.types s = none → gc'.rules s = none := by
  induction cmds using List.reverseRecOn generalizing gc' with
  | nil => cases h; exact ⟨rfl, fun _ _ => rfl⟩
  | append_singleton cmds cmd ih =>
    obtain ⟨gc1, h1, h2⟩ := libRun_snoc.1 h
    obtain ⟨h3, h4⟩ := ih h1
    cases cmd with
    | intro s it =>
      have h2' : inferCheck k ⟨false, none, false⟩ gc1 (.intro s it) = (gc', .ok ()) := (inferCheck_lib rfl).2 ⟨h2, trivial⟩
      refine ⟨?_, inferCheck_dom h4 h2'⟩
      rw [inferCheck_rulesEq hk h4 h2', rulesOfCmds_snoc, h3]
    | rules rs =>
      obtain ⟨k1, -, k3, -⟩ := GCtx.addRules_ok (libCmd_rules.1 h2)
      refine ⟨?_, ?_⟩
      · rw [rulesOfCmds_snoc, ← h3]
        exact funext k3
      · intro c hc
        rw [k1] at hc
        rw [k3, h4 c hc]
        rfl

theorem libRun_confluent {k : Kern} (hk : k.Real) {gc' : GCtx} {cmds : List Cmd} (h : libRun k GCtx.new cmds = .ok gc')
    (hO : Orthogonal (rulesOfCmds cmds)) : ∀ pre post, cmds = pre ++ post → ∀ gci, libRun k GCtx.new pre = .ok gci → Confluent gci.rules := by
  rintro pre post rfl gci h1
  rw [← (libRun_rulesEq hk h).1] at hO
  rw [libRun_append, h1] at h
  exact (Orthogonal.grows (libRun_grows h) hO).confluent

theorem lib_sound {k : Kern} (hk : k.Real) {cmds : List Cmd} {gc' : GCtx} (hr : RulesRight cmds)
    (hcr : ∀ pre post, cmds = pre ++ post → ∀ gci, libRun k GCtx.new pre = .ok gci → Confluent gci.rules) (h : libRun k GCtx.new cmds = .ok gc') : Session cmds gc'.theory := by
  induction cmds using List.reverseRecOn generalizing gc' with
  | nil => cases h; exact .nil
  | append_singleton cmds cmd ih =>
    obtain ⟨gc1, h1, h2⟩ := libRun_snoc.1 h
    have hS := ih (fun pre rs post T e => hr pre rs (post ++ [cmd]) T (by rw [e]; simp)) (fun pre post e => hcr pre (post ++ [cmd]) (by rw [e]; simp)) h1
    cases cmd with
    | intro s it => exact lib_intro hk hS (hcr cmds [.intro s it] rfl _ h1) h2
    | rules rs =>
      have h3 := libCmd_rules.1 h2
      obtain ⟨-, -, -, k5⟩ := GCtx.addRules_ok h3
      rw [lib_extend h3]
      exact .rules hS fun r hr' => ⟨k5 r hr', hr cmds rs [] _ rfl hS r hr'⟩

/-! ## Abstractions without types -/

theorem Shared.known_intros {ns : List (List Str × Str)} {es : List Entry} {cmds : List Cmd} (h : Shared ns es cmds)
    (ha : ∀ e ∈ es, (∀ rs, e.cmd ≠ .rules rs) → e.cmd.Known) : ∀ s it, .intro s it ∈ cmds → (Cmd.intro s it).Known := by
  induction h with
  | nil => simp
  | intro _ hi _ ih =>
    rw [List.forall_mem_cons] at ha
    intro s it hm
    rcases List.mem_cons.1 hm with e | hm
    · cases e
      exact (hi.known _).1 (ha.1 fun rs h => (by cases h))
    · exact ih ha.2 s it hm
  | rules hr _ ih =>
    rw [List.forall_mem_cons] at ha
    intro s it hm
    rcases List.mem_cons.1 hm with e | hm
    · cases e
    · exact ih ha.2 s it hm

theorem Shared.directed_intros {ns : List (List Str × Str)} {es : List Entry} {cmds : List Cmd} (h : Shared ns es cmds)
    (hn : ∀ s, Cmd.intro s (.definition none none) ∉ cmds) (ha : ∀ s it, .intro s it ∈ cmds → (Cmd.intro s it).Known) :
    ∀ e ∈ es, (∀ rs, e.cmd ≠ .rules rs) → e.cmd.Known := by
  induction h with
  | nil => simp
  | intro _ hi _ ih =>
    rw [List.forall_mem_cons]
    refine ⟨fun _ => (hi.known _).2 ?_ (ha _ _ List.mem_cons_self),
      ih (fun s hs => hn s (List.mem_cons_of_mem _ hs)) fun s it hm => ha s it (List.mem_cons_of_mem _ hm)⟩
    rintro rfl
    exact hn _ List.mem_cons_self
  | rules hr _ ih =>
    rw [List.forall_mem_cons]
    exact ⟨fun h => absurd rfl (h _), ih (fun s hs => hn s (List.mem_cons_of_mem _ hs)) fun s it hm => ha s it (List.mem_cons_of_mem _ hm)⟩

theorem libRun_known {k : Kern} (hk : k.Real) {cmds : List Cmd} {gc gc' : GCtx} (h : libRun k gc cmds = .ok gc') :
    ∀ s it, .intro s it ∈ cmds → (Cmd.intro s it).Known := by
  induction cmds using List.reverseRecOn generalizing gc' with
  | nil => simp
  | append_singleton cmds cmd ih =>
    obtain ⟨gc1, h1, h2⟩ := libRun_snoc.1 h
    intro s it hm
    rcases List.mem_append.1 hm with hm | hm
    · exact ih h1 s it hm
    · cases List.mem_singleton.1 hm
      exact inferCheck_known hk (opt := ⟨false, none, false⟩) rfl (fun rs h => (by cases h)) ((inferCheck_lib rfl).2 ⟨h2, trivial⟩)

/-! ## Completeness -/

theorem SessionIn.right {cmds : List Cmd} {gc : GCtx} (h : Session cmds gc.theory) : gc.Right where
  dom := h.types_none
  types := h.sorted
  rules := fun _ _ _ hl hr => ⟨(h.typed hl hr).1, fun _ => (h.typed hl hr).2⟩

theorem SessionIn.untyped {cmds : List Cmd} {gc : GCtx} (h : Session cmds gc.theory) : gc.Untyped := by
  intro s rs r h3 h4 h5
  have := Rule.full_iff.1 (h.full (T := gc.theory) h3 h4)
  rw [h5] at this
  cases this

theorem RuleRight.rhs_small {T : Theory} (hL : T.Levelled) (he : T.eta = false) (cr : Confluent T.rules) {r : Rule} (h : RuleRight T r) :
    r.rhs.den.Small := by
  obtain ⟨Γ, l, u, hc, hw, A, s, hs, h1, h2, h3⟩ := h
  obtain ⟨-, -, -, -, rfl⟩ := hc
  rcases h3.level hL (.plain he cr) (hw.small hL (.plain he cr)) with h | ⟨-, rfl⟩
  · exact h.1
  · cases hs with
    | type => rcases h1.level hL (.plain he cr) (hw.small hL (.plain he cr)) with h | h
              · exact h.1.elim
              · cases h.2
    | kind => rcases h1.level hL (.plain he cr) (hw.small hL (.plain he cr)) with h | h
              · exact h.1.elim
              · exact h.1.elim

/-- an introduction does the same in the checker -/
theorem libCmd_timeout {k : Kern} {opt : Opt} (ho : opt.omits .check = false) {gc : GCtx} {s : Sym} {it : Intro LTerm}
    (h : (inferCheck k opt gc (.intro s it)).2 = .timeout) : libCmd k gc (.intro s it) = .timeout := by
  unfold inferCheck at h
  rw [inferWith] at h
  simp only [ho, Bool.false_eq_true, if_false] at h
  simp only [libCmd]
  cases h1 : (k.intro gc it).out with
  | err e => rw [h1] at h; cases h
  | panic => rw [h1] at h; cases h
  | timeout => rfl
  | ok r =>
    obtain ⟨ty, chk⟩ := r
    rw [h1] at h
    simp only [Out.bind] at h ⊢
    cases chk with
    | none =>
      simp only at h ⊢
      cases h2 : gctxOut (gc.insert s ty it.rewritable).2 with
      | timeout => rfl
      | _ => rw [h2] at h; cases h
    | some c =>
      simp only at h ⊢
      cases h3 : (k.check gc c).out with
      | timeout => rfl
      | ok u =>
        rw [h3] at h
        simp only at h ⊢
        cases h2 : gctxOut (gc.insert s ty it.rewritable).2 with
        | timeout => rfl
        | _ => rw [h2] at h; cases h
      | _ => rw [h3] at h; cases h

theorem lib_complete {k : Kern} (hk : k.Exact) {cmds : List Cmd} {T : Theory} (h : Session cmds T) (ha : ∀ s it, .intro s it ∈ cmds → (Cmd.intro s it).Known)
    (hp : ∀ cmd ∈ cmds, cmd.Proper) (hO : Orthogonal T.rules) :
    (∃ gc, libRun k GCtx.new cmds = .ok gc ∧ Agrees T gc ∧ Session cmds gc.theory ∧ gc.Levelled) ∨ libRun k GCtx.new cmds = .timeout := by
  induction h with
  | nil =>
    refine .inl ⟨_, rfl, ⟨rfl, rfl, fun _ _ => rfl, ?_⟩, .nil, GCtx.start_levelled false⟩
    intro c A h
    cases h
  | @intro cmds T s it A rs hS hs hI ih =>
    have hle := Theory.declare_le hs (hS.dom s hs) A rs
    have hO' : Orthogonal T.rules := hO.sub (by
      intro c l r h1 h2
      obtain ⟨l', h3, h4⟩ := hle.rules c l h1
      exact ⟨l', h3, h4 r h2⟩)
    rw [libRun_append]
    rcases ih (fun s it hc => ha s it (List.mem_append_left _ hc)) (fun c hc => hp c (List.mem_append_left _ hc)) hO' with ⟨gc, h1, hA, hG, hL⟩ | h1
    · rw [h1]
      have he : gc.eta = false := hG.eta
      have cr : Confluent gc.rules := by rw [hA.rules]; exact hO'.confluent
      rcases intro_complete hk (opt := ⟨false, none, false⟩) rfl (.plain he cr) hG.untyped hA hG.right hL hs (hS.dom s hs) hI (ha s it (by simp)) (hp _ (by simp)) with
        ⟨gc1, hr, h2, -, h4⟩ | hF
      · have hr' := ((inferCheck_lib rfl).1 hr).1
        refine .inl ⟨gc1, by simp only [Out.bind, libRun, hr'], h2, ?_, h4⟩
        exact lib_intro hk.real hG cr hr'
      · exact .inr (by simp only [Out.bind, libRun, libCmd_timeout rfl hF])
    · exact .inr (by rw [h1]; rfl)
  | @rules cmds T rs hS hrs ih =>
    have hO' : Orthogonal T.rules := hO.sub (by
      intro c l r h1 h2
      exact ⟨_, by simp only [Theory.extend, h1]; rfl, List.mem_append_left _ h2⟩)
    rw [libRun_append]
    rcases ih (fun s it hc => ha s it (List.mem_append_left _ hc)) (fun c hc => hp c (List.mem_append_left _ hc)) hO' with ⟨gc, h1, hA, hG, hL⟩ | h1
    · rw [h1]
      have he : gc.eta = false := hG.eta
      have cr : Confluent gc.rules := by rw [hA.rules]; exact hO'.confluent
      have hrs' : ∀ r ∈ rs, RuleRight gc.theory r := fun r hr => (hrs r hr).2.agrees hA hG.sorted
      have hadd : addRules gc rs = ((addRules gc rs).1, .ok ()) :=
        Prod.ext rfl (addRules_fresh fun r hr => by rw [hA.rules]; exact (hrs r hr).1)
      have hr := libCmd_rules (k := k).2 hadd
      generalize hgc : (addRules gc rs).1 = gc1 at hadd hr
      have hth := lib_extend hadd
      obtain ⟨k3, k4, k6, k5⟩ := GCtx.addRules_ok hadd
      have hg : gc.theory.Le gc1.theory := (GCtx.addRules_grows hadd).le
      refine .inl ⟨gc1, by simp only [Out.bind, libRun, hr], ⟨?_, ?_, ?_, ?_⟩, ?_, ?_⟩
      · have := congrArg Theory.rules hth
        rw [show gc1.rules = _ from this]
        simp only [Theory.extend, GCtx.theory, hA.rules]
      · rw [k4]; exact hA.eta
      · intro c hc
        rw [k3]
        exact hA.none c hc
      · intro c B hB
        obtain ⟨⟨A', k1, k2⟩, k3'⟩ := hA.some c B hB
        exact ⟨⟨A', by rw [k3]; exact k1, hg.conv k2⟩, Theory.Sorted.mono hg k3'⟩
      · rw [hth]
        exact .rules hG fun r hr' => ⟨k5 r hr', hrs' r hr'⟩
      · refine ⟨fun c t ht => hL.types c t (by rw [← k3]; exact ht), ?_⟩
        intro c l r hl hr'
        rw [k6 c] at hl
        obtain ⟨l0, h2, rfl⟩ := Option.map_eq_some_iff.1 hl
        rcases List.mem_append.1 hr' with h | h
        · exact hL.rules c l0 r h2 h
        · exact (hrs' r (List.mem_filter.1 h).1).rhs_small hL.theory he cr
    · exact .inr (by rw [h1]; rfl)

/-! ## Modules -/

/-- the names in another module -/
def moveNames (m : List Str) (ns : List (List Str × Str)) : List (List Str × Str) := ns.map fun n => (m, n.2)

theorem Refers.move {ns : List (List Str × Str)} {m m' : List Str} {c : PSymb} (hc : c.path = []) {i : Nat}
    (h : Refers ns m c i) : Refers (moveNames m' ns) m' c i := by
  obtain ⟨p, h1, h2, -⟩ := h
  refine ⟨m', List.prefix_refl _, ?_, fun p' h3 h4 => absurd h3.length_le (by omega)⟩
  rw [hc] at h2 ⊢
  simp only [List.append_nil] at h2 ⊢
  unfold moveNames
  rw [List.getElem?_map, h2]
  rfl

theorem Shared.move {ns : List (List Str × Str)} {es : List Entry} {cmds : List Cmd} (h : Shared ns es cmds) {m m' : List Str} (hn : ∀ n ∈ ns, n.1 = m)
    (he : ∀ e ∈ es, e.mod = m ∧ e.cmd.Unqualified) : Shared (moveNames m' ns) (es.map fun e => ⟨m', e.cmd⟩) cmds := by
  induction h with
  | nil => exact .nil
  | @intro ns m1 x args it it' es cmds h1 h2 _ ih =>
    obtain ⟨rfl, hu⟩ := he _ List.mem_cons_self
    have hn' : ∀ n ∈ ns ++ [(m1, x)], n.1 = m1 := by
      intro n h
      rcases List.mem_append.1 h with h | h
      · exact hn n h
      · simp only [List.mem_singleton] at h; rw [h]
    have h3 := ih hn' fun e h => he e (List.mem_cons_of_mem _ h)
    have e1 : moveNames m' (ns ++ [(m1, x)]) = moveNames m' ns ++ [(m', x)] := by simp [moveNames]
    have e2 : ns.length = (moveNames m' ns).length := by simp [moveNames]
    rw [e1] at h3
    rw [e2]
    refine .intro ?_ ?_ h3
    · intro h
      obtain ⟨⟨m2, y⟩, h4, h5⟩ := List.mem_map.1 h
      simp only [Prod.mk.injEq, true_and] at h5
      subst h5
      have := hn _ h4
      simp only at this
      subst this
      exact h1 h4
    · obtain ⟨f, h4, h5⟩ := h2
      exact ⟨f, fun c hc => (h4 c hc).move (hu c hc), h5⟩
  | @rules ns m1 rs rs' es cmds h1 _ ih =>
    obtain ⟨rfl, hu⟩ := he _ List.mem_cons_self
    refine .rules ?_ (ih hn fun e h => he e (List.mem_cons_of_mem _ h))
    have hu' : ∀ r ∈ rs, ∀ c ∈ r.scope.consts, c.path = [] := hu
    clear ih he hu
    induction h1 with
    | nil => exact .nil
    | cons h _ ih =>
      refine .cons ?_ (ih hn fun r h => hu' r (List.mem_cons_of_mem _ h))
      obtain ⟨f, h2, h3⟩ := h
      exact ⟨f, ⟨fun c hc => (h2.consts c hc).move (hu' _ List.mem_cons_self c hc), h2.lhs, h2.rhs⟩, h3⟩

/-! ## Texts -/

theorem libLoop_eq {k : Kern} {st : ShState} {gc : GCtx} {l : List Scoped} {cmds : List Cmd} (h : (shareAll st (l.map .ok)).2 = cmds.map .ok) :
    libLoop k st gc (l.map .ok) = libRun k gc cmds := by
  induction l generalizing st gc cmds with
  | nil =>
    cases cmds with
    | nil => rfl
    | cons => cases h
  | cons c l ih =>
    simp only [List.map_cons, shareAll, shareStep] at h
    cases cmds with
    | nil => cases h
    | cons cmd cmds =>
      simp only [List.map_cons, List.cons.injEq] at h
      simp only [List.map_cons, libLoop, h.1, libRun, Out.bind]
      cases libCmd k gc cmd with
      | ok gc1 => exact ih h.2
      | _ => rfl

theorem wholeText_of_ok {text : Str} (h : ∀ i ∈ strict scopeAtom text, ∃ c, i = .ok c) : ∃ cs, WholeTextOf text cs := by
  refine webFile_ok (name := []) fun c hc => ?_
  obtain ⟨i, h1, rfl⟩ := List.mem_map.1 hc
  obtain ⟨c, rfl⟩ := h i h1
  rfl

theorem libCheck_of {k : Kern} {text : Str} {cs : List (PCmd (PTerm PSymb))} (ht : WholeTextOf text cs) {cmds : List Cmd}
    (h : Shared [] (cs.map (Entry.mk [])) cmds) : libCheck k text = libRun k GCtx.new cmds ∧ ∀ cmd ∈ cmds, cmd.Proper := by
  obtain ⟨cmds1, cmds2, rfl, h1, -, h3⟩ := shareAll_complete SymInv.new (cs := cs) (es := []) (cmds := cmds) (by rw [List.append_nil]; exact h)
  cases h3
  rw [List.append_nil]
  have h1' : (shareAll ShState.new ((cs.map PCmd.scope).map .ok)).2 = cmds1.map .ok := by rw [List.map_map]; exact h1
  refine ⟨?_, fun cmd hc => shareAll_proper (st := ShState.new) cmd (by rw [h1]; exact List.mem_map_of_mem hc)⟩
  unfold libCheck
  rw [strict_all_ok ht, ← libLoop_eq h1', List.map_map]
  rfl

theorem libCheck_ok {k : Kern} {text : Str} {gc : GCtx} : libCheck k text = .ok gc ↔
    ∃ cs cmds, WholeTextOf text cs ∧ Shared [] (cs.map (Entry.mk [])) cmds ∧ libRun k GCtx.new cmds = .ok gc := by
  constructor
  · intro h
    obtain ⟨l, cmds, h1, h2, h3⟩ := libLoop_ok.1 h
    obtain ⟨cs, ht⟩ := wholeText_of_ok (text := text) (by
      intro i hi
      rw [h1] at hi
      obtain ⟨c, -, rfl⟩ := List.mem_map.1 hi
      exact ⟨c, rfl⟩)
    have hl : l = cs.map PCmd.scope := by
      rw [strict_all_ok ht] at h1
      refine List.map_injective_iff.2 (fun a b h => by cases h; rfl) (h1.symm.trans ?_)
      rw [List.map_map]
      rfl
    subst hl
    rw [List.map_map] at h2
    obtain ⟨cmds', h4, -, h5⟩ := shareAll_spec SymInv.new cs (fun c hc => by
      have : c ∈ cmds.map Out.ok := by rw [← h2]; exact hc
      obtain ⟨d, -, rfl⟩ := List.mem_map.1 this
      rfl)
    have he : cmds = cmds' := List.map_injective_iff.2 (fun a b h => by cases h; rfl) (h2.symm.trans h4)
    have h6 := h5 [] [] .nil
    rw [List.append_nil, List.append_nil] at h6
    exact ⟨cs, cmds, ht, by rw [he]; exact h6, h3⟩
  · rintro ⟨cs, cmds, ht, h, hr⟩
    rw [(libCheck_of ht h).1, hr]

theorem checkSingle_ok {k : Kern} {text : Str} {gc : GCtx} : CheckSingle k text false 3 gc (.ok ()) ↔
    ∃ cs cmds, WholeTextOf text cs ∧ Shared [] (cs.map (Entry.mk [str "main"])) cmds ∧
      seqLoop k ⟨false, none, false⟩ GCtx.new (cmds.map .ok) = (gc, .ok ()) := by
  have e : CheckSingle k text false 3 gc (.ok ()) ↔
      Consume k ⟨false, none, false⟩ ([(str "main", text)].flatMap fun m => webEvents m.1 m.2) gc (.ok ()) := by
    rw [List.flatMap_singleton]
    exact Iff.rfl
  rw [e, consume_web rfl]
  constructor
  · intro h
    obtain ⟨es, cmds, h1, h2, h3⟩ := web_spec rfl SymInv.new (inferChecksSeq_ok_mem h)
    cases h1 with
    | @cons _ _ cs _ _ ht hn =>
      cases hn
      rw [List.append_nil] at h3
      rw [h2, inferChecksSeq_all rfl] at h
      exact ⟨cs, cmds, ht, h3, h⟩
  · rintro ⟨cs, cmds, ht, h3, h⟩
    have hp : WebProgramOf [(str "main", text)] (cs.map (Entry.mk [str "main"])) := by
      have := WebProgramOf.cons (name := str "main") ht .nil
      rwa [List.append_nil] at this
    rw [web_complete rfl hp SymInv.new h3, inferChecksSeq_all rfl]
    exact h

theorem libCheck_web {k : Kern} {text : Str} {gc : GCtx} (hu : ∀ cs, WholeTextOf text cs → ∀ c ∈ cs, c.Unqualified) :
    CheckSingle k text false 3 gc (.ok ()) ↔
      ∃ cs cmds, WholeTextOf text cs ∧ Shared [] (cs.map (Entry.mk [])) cmds ∧ libRun k GCtx.new cmds = .ok gc ∧ AllRulesPass k GCtx.new cmds := by
  rw [checkSingle_ok]
  have mv : ∀ (m m' : List Str) (cs : List (PCmd (PTerm PSymb))) (cmds : List Cmd), (∀ c ∈ cs, c.Unqualified) →
      Shared [] (cs.map (Entry.mk m)) cmds → Shared [] (cs.map (Entry.mk m')) cmds := by
    intro m m' cs cmds h1 h2
    have := h2.move (m := m) (m' := m') (by simp) (by
      intro e he
      obtain ⟨c, hc, rfl⟩ := List.mem_map.1 he
      exact ⟨rfl, h1 c hc⟩)
    rw [List.map_map] at this
    exact this
  constructor
  · rintro ⟨cs, cmds, ht, h1, h2⟩
    obtain ⟨h3, h4⟩ := (seqLoop_lib rfl).1 h2
    exact ⟨cs, cmds, ht, mv _ _ _ _ (hu cs ht) h1, h3, h4⟩
  · rintro ⟨cs, cmds, ht, h1, h3, h4⟩
    exact ⟨cs, cmds, ht, mv _ _ _ _ (hu cs ht) h1, (seqLoop_lib rfl).2 ⟨h3, h4⟩⟩

end Kontroli
