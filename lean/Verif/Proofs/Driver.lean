import Verif.Spec.History
import Verif.Spec.Proper
import Verif.Proofs.Adequacy

/-!
# Lemmas on the driver
-/

namespace Kontroli

theorem Kern.std_exact (n : Nat) (rc : Nat → Bool) : (Kern.std n rc).Exact :=
  ⟨fun _ _ => ⟨n, rc, rfl⟩, fun _ _ => ⟨n, rc, rfl⟩, fun _ _ => ⟨n, rc, rfl⟩⟩

theorem Kern.Exact.real {k : Kern} (hk : k.Exact) : k.Real where
  intro gc i r h := by
    obtain ⟨n, rc, hn⟩ := hk.intro gc i
    rw [hn] at h
    refine ⟨n, rc, ?_⟩
    cases e : Kontroli.intro n gc i ⟨[], [], rc⟩ with
    | ok a => rw [e] at h; simp [Res.value] at h; exact ⟨a.2, by rw [← h]⟩
    | _ => rw [e] at h; simp [Res.value] at h
  rewrite gc t c h := by
    obtain ⟨n, rc, hn⟩ := hk.rewrite gc t
    rw [hn] at h
    refine ⟨n, rc, ?_⟩
    cases e : Kontroli.rewrite n gc t ⟨[], [], rc⟩ with
    | ok a => rw [e] at h; simp [Res.value] at h; exact ⟨a.2, by rw [← h]⟩
    | _ => rw [e] at h; simp [Res.value] at h
  check gc c h := by
    obtain ⟨n, rc, hn⟩ := hk.check gc c
    rw [hn] at h
    refine ⟨n, rc, ?_⟩
    cases e : Check.check n gc c ⟨[], [], rc⟩ with
    | ok a => exact ⟨a.2, rfl⟩
    | _ => rw [e] at h; simp [Res.value] at h

theorem Kern.std_real (n : Nat) (rc : Nat → Bool) : (Kern.std n rc).Real := (Kern.std_exact n rc).real

/-! ## Outcomes -/

theorem Out.bind_ok {α β : Type} {m : Out α} {f : α → Out β} {b : β} :
    m.bind f = .ok b ↔ ∃ a, m = .ok a ∧ f a = .ok b := by
  cases m <;> simp [Out.bind]

theorem Out.isOk_iff {α : Type} {m : Out α} : m.isOk = true ↔ ∃ a, m = .ok a := by
  cases m <;> simp [Out.isOk]

theorem Res.out_ok {α : Type} {m : Res α} {a : α} : m.out = .ok a ↔ m = .ok a := by
  cases m <;> simp [Res.out]

theorem gctxOut_ok {r : Except GError Unit} {a : Unit} : gctxOut r = .ok a ↔ r = .ok () := by
  cases r <;> simp [gctxOut]

/-! ## Global contexts -/

namespace GCtx

theorem insert_ok {gc gc' : GCtx} {s : Sym} {t : Typing} {rw : Bool} (h : gc.insert s t rw = (gc', .ok ())) :
    gc.types s = none ∧ (rw = true → gc.rules s = none) ∧
    gc' = { types := mapInsert gc.types s t.ty,
            rules := if rw then mapInsert gc.rules s (initRules s t.tm) else gc.rules, eta := gc.eta } := by
  unfold insert introType at h
  cases ht : gc.types s with
  | some A => simp [ht] at h
  | none =>
    simp only [ht, Option.isSome_none, Bool.false_eq_true, if_false] at h
    cases rw with
    | false => simp at h; exact ⟨rfl, by simp, by simp [h]⟩
    | true =>
      unfold introRules at h
      cases hr : gc.rules s with
      | some rs => simp [hr] at h
      | none => simp [hr] at h; exact ⟨rfl, fun _ => rfl, by simp [h]⟩

/-- what an insertion does to the maps, whatever its verdict -/
theorem insert_effect (gc : GCtx) (s : Sym) (t : Typing) (rw : Bool) :
    (gc.insert s t rw).1 =
      { types := mapInsert gc.types s t.ty,
        rules := if rw ∧ gc.types s = none then mapInsert gc.rules s (initRules s t.tm) else gc.rules, eta := gc.eta } := by
  unfold insert introType
  cases ht : gc.types s with
  | some A => simp
  | none =>
    simp only [Option.isSome_none, Bool.false_eq_true, if_false]
    cases rw with
    | false => simp
    | true =>
      unfold introRules
      cases hr : gc.rules s with
      | some rs => simp [hr]
      | none => simp [hr]

/-- the rules of `rs` that belong to `s` -/
def rulesOf (rs : List Rule) (s : Sym) : List Rule := rs.filter fun r => r.lhs.symbol = s

theorem Grows.refl (gc : GCtx) : gc.Grows gc := ⟨fun _ _ h => h, fun _ rs h => ⟨[], by simp [h]⟩, rfl⟩

theorem Grows.trans {a b c : GCtx} (h : a.Grows b) (h' : b.Grows c) : a.Grows c where
  types s A e := h'.types s A (h.types s A e)
  rules s rs e := by
    obtain ⟨m, hm⟩ := h.rules s rs e
    obtain ⟨m', hm'⟩ := h'.rules s _ hm
    exact ⟨m ++ m', by rw [hm', List.append_assoc]⟩
  eta := h'.eta.trans h.eta

theorem insert_grows {gc gc' : GCtx} {s : Sym} {t : Typing} {rw : Bool} (h : gc.insert s t rw = (gc', .ok ())) :
    gc.Grows gc' := by
  obtain ⟨h1, h2, rfl⟩ := insert_ok h
  refine ⟨?_, ?_, rfl⟩
  · intro s' A e
    have : s' ≠ s := by rintro rfl; rw [h1] at e; simp at e
    simp [mapInsert, this, e]
  · intro s' rs e
    refine ⟨[], ?_⟩
    cases rw with
    | false => simp [e]
    | true =>
      have : s' ≠ s := by rintro rfl; rw [h2 rfl] at e; simp at e
      simp [mapInsert, this, e]

/-- what adding rules does, whatever the verdict: a prefix is appended, and the first refused rule is for a symbol without
list of rules -/
theorem addRules_effect (gc : GCtx) (rs : List Rule) :
    ∃ pre post, rs = pre ++ post ∧ (addRules gc rs).1.types = gc.types ∧ (addRules gc rs).1.eta = gc.eta ∧
      (∀ s, (addRules gc rs).1.rules s = (gc.rules s).map (· ++ rulesOf pre s)) ∧
      (∀ r ∈ pre, (gc.rules r.lhs.symbol).isSome) ∧
      ((post = [] ∧ (addRules gc rs).2 = .ok ()) ∨
        ∃ r rest, post = r :: rest ∧ gc.rules r.lhs.symbol = none ∧ (addRules gc rs).2 = .error .nonRewritable) := by
  induction rs generalizing gc with
  | nil => exact ⟨[], [], rfl, rfl, rfl, by intro s; simp [rulesOf, addRules], by simp, .inl ⟨rfl, rfl⟩⟩
  | cons r rs ih =>
    cases hr : gc.rules r.lhs.symbol with
    | none =>
      have e : addRules gc (r :: rs) = (gc, .error .nonRewritable) := by simp [addRules, addRule, hr]
      exact ⟨[], r :: rs, rfl, by rw [e], by rw [e], by intro s; simp [e, rulesOf], by simp,
        .inr ⟨r, rs, rfl, hr, by rw [e]⟩⟩
    | some l =>
      have e : addRules gc (r :: rs) = addRules { gc with rules := mapInsert gc.rules r.lhs.symbol (l ++ [r]) } rs := by
        simp [addRules, addRule, hr]
      obtain ⟨pre, post, h1, h2, h3, h4, h5, h6⟩ := ih { gc with rules := mapInsert gc.rules r.lhs.symbol (l ++ [r]) }
      rw [e]
      refine ⟨r :: pre, post, by rw [h1]; rfl, h2, h3, ?_, ?_, ?_⟩
      · intro s
        rw [h4]
        by_cases hs : s = r.lhs.symbol
        · subst hs
          simp [mapInsert, hr, rulesOf]
        · have : ¬ r.lhs.symbol = s := fun h => hs h.symm
          simp [mapInsert, hs, rulesOf, this]
      · intro r' hr'
        rcases List.mem_cons.1 hr' with rfl | hr'
        · simp [hr]
        · have := h5 r' hr'
          simp only [mapInsert] at this
          split at this
          · next h => rw [h]; simp [hr]
          · exact this
      · rcases h6 with h6 | ⟨r', rest, h7, h8, h9⟩
        · exact .inl h6
        · refine .inr ⟨r', rest, h7, ?_, h9⟩
          simp only [mapInsert] at h8
          split at h8
          · simp at h8
          · exact h8

theorem addRules_ok {gc gc' : GCtx} {rs : List Rule} (h : addRules gc rs = (gc', .ok ())) :
    gc'.types = gc.types ∧ gc'.eta = gc.eta ∧ (∀ s, gc'.rules s = (gc.rules s).map (· ++ rulesOf rs s)) ∧
    ∀ r ∈ rs, (gc.rules r.lhs.symbol).isSome := by
  obtain ⟨pre, post, h1, h2, h3, h4, h5, h6⟩ := addRules_effect gc rs
  rw [h] at h2 h3 h4 h6
  rcases h6 with ⟨rfl, -⟩ | ⟨_, _, _, _, h⟩
  · simp at h1; subst h1
    exact ⟨h2, h3, h4, h5⟩
  · simp at h

theorem addRules_grows {gc gc' : GCtx} {rs : List Rule} (h : addRules gc rs = (gc', .ok ())) : gc.Grows gc' := by
  obtain ⟨h1, h2, h3, -⟩ := addRules_ok h
  refine ⟨fun s A e => by rw [h1]; exact e, fun s l e => ⟨rulesOf rs s, by rw [h3, e]; rfl⟩, h2⟩

end GCtx

/-! ## The driver -/

section
variable {k : Kern} {τ : Type} {f : τ → Check → GCtx → Out τ} {gc gc' : GCtx} {t t' : τ}

theorem inferWith_intro_ok {s : Sym} {it : Intro LTerm} (h : inferWith k f gc t (.intro s it) = (gc', .ok t')) :
    ∃ ty chk, k.intro gc it = .ok (ty, chk) ∧
      (match chk with
        | some c => f t c gc = .ok t'
        | none => t' = t) ∧
      gc.insert s ty it.rewritable = (gc', .ok ()) := by
  rw [inferWith] at h
  split at h
  · next typing t1 e =>
    simp only [Out.bind_ok, Res.out_ok] at e
    obtain ⟨⟨ty, chk⟩, h1, h2⟩ := e
    simp only [Prod.mk.injEq, Out.bind_ok, gctxOut_ok] at h
    obtain ⟨h3, _, h4, h5⟩ := h
    refine ⟨ty, chk, h1, ?_, ?_⟩
    · cases chk with
      | none => simp at h2 h5; rw [← h5, h2.2]
      | some c =>
        simp only [Out.bind_ok] at h2
        obtain ⟨t2, h6, h7⟩ := h2
        simp at h7 h5
        rw [← h5, ← h7.2]; exact h6
    · have hty : ty = typing := by
        cases chk with
        | none => simp at h2; exact h2.1
        | some c =>
          simp only [Out.bind_ok] at h2
          obtain ⟨t2, h6, h7⟩ := h2
          simp at h7; exact h7.1
      subst hty
      exact Prod.ext h3 h4
  all_goals simp at h

theorem inferWith_rules_ok {rs : List Rule} (h : inferWith k f gc t (.rules rs) = (gc', .ok t')) :
    rewriteAll k f gc rs t = .ok t' ∧ addRules gc rs = (gc', .ok ()) := by
  rw [inferWith] at h
  split at h
  · next t1 e =>
    simp only [Prod.mk.injEq, Out.bind_ok, gctxOut_ok] at h
    obtain ⟨h3, _, h4, h5⟩ := h
    simp at h5
    subst h5
    exact ⟨e, Prod.ext h3 h4⟩
  all_goals simp at h

theorem inferWith_grows {cmd : Cmd} (h : inferWith k f gc t cmd = (gc', .ok t')) : gc.Grows gc' := by
  cases cmd with
  | intro s it =>
    obtain ⟨ty, chk, -, -, h⟩ := inferWith_intro_ok h
    exact GCtx.insert_grows h
  | rules rs => exact GCtx.addRules_grows (inferWith_rules_ok h).2

/-- whatever the verdict: the context is unchanged, or an insertion or an addition of rules was tried -/
theorem inferWith_effect (k : Kern) (f : τ → Check → GCtx → Out τ) (gc : GCtx) (t : τ) (cmd : Cmd) :
    (inferWith k f gc t cmd).1 = gc ∨
    (∃ s it ty, cmd = .intro s it ∧ (inferWith k f gc t cmd).1 = (gc.insert s ty it.rewritable).1) ∨
    (∃ rs, cmd = .rules rs ∧ (inferWith k f gc t cmd).1 = (addRules gc rs).1) := by
  cases cmd with
  | intro s it =>
    rw [inferWith]
    split
    · next typing t1 e => exact .inr (.inl ⟨s, it, typing, rfl, rfl⟩)
    all_goals exact .inl rfl
  | rules rs =>
    rw [inferWith]
    split
    · exact .inr (.inr ⟨rs, rfl, rfl⟩)
    all_goals exact .inl rfl

/-- no command, accepted or refused, gives rules to a static symbol -/
theorem inferWith_static (k : Kern) (f : τ → Check → GCtx → Out τ) {gc : GCtx} (t : τ) (cmd : Cmd) {s : Sym}
    (h : gc.Static s) : (inferWith k f gc t cmd).1.Static s := by
  obtain ⟨h1, h2⟩ := h
  rcases inferWith_effect k f gc t cmd with e | ⟨s', it, ty, -, e⟩ | ⟨rs, -, e⟩
  · rw [e]; exact ⟨h1, h2⟩
  · rw [e, GCtx.insert_effect]
    constructor
    · simp only [mapInsert]
      split
      · rfl
      · exact h1
    · simp only
      split
      · next h =>
        have : s ≠ s' := by rintro rfl; rw [h.2] at h1; simp at h1
        simp [mapInsert, this, h2]
      · exact h2
  · rw [e]
    obtain ⟨pre, post, -, h3, -, h4, -⟩ := GCtx.addRules_effect gc rs
    exact ⟨by rw [h3]; exact h1, by rw [h4, h2]; rfl⟩

end

theorem seqLoop_cons_ok {k : Kern} {opt : Opt} {gc gc' : GCtx} {c : Out Cmd} {cs : List (Out Cmd)}
    (h : seqLoop k opt gc (c :: cs) = (gc', .ok ())) :
    ∃ cmd gc1, c = .ok cmd ∧ inferCheck k opt gc cmd = (gc1, .ok ()) ∧ seqLoop k opt gc1 cs = (gc', .ok ()) := by
  cases c with
  | ok cmd =>
    unfold seqLoop at h
    split at h
    · next gc1 e => exact ⟨cmd, gc1, rfl, e, h⟩
    · next gc1 e hne heq => cases h; exact absurd rfl hne
  | _ => simp [seqLoop] at h

theorem seqLoop_cons {k : Kern} {opt : Opt} {gc gc1 : GCtx} {cmd : Cmd} {cs : List (Out Cmd)}
    (h : inferCheck k opt gc cmd = (gc1, .ok ())) :
    seqLoop k opt gc (.ok cmd :: cs) = seqLoop k opt gc1 cs := by
  rw [seqLoop, h]

theorem seqLoop_append_ok {k : Kern} {opt : Opt} {gc gc' : GCtx} {as bs : List (Out Cmd)}
    (h : seqLoop k opt gc (as ++ bs) = (gc', .ok ())) :
    ∃ gc1, seqLoop k opt gc as = (gc1, .ok ()) ∧ seqLoop k opt gc1 bs = (gc', .ok ()) := by
  induction as generalizing gc with
  | nil => exact ⟨gc, rfl, h⟩
  | cons a as ih =>
    obtain ⟨cmd, gc1, rfl, h1, h2⟩ := seqLoop_cons_ok h
    obtain ⟨gc2, h3, h4⟩ := ih h2
    exact ⟨gc2, by rw [seqLoop_cons h1, h3], h4⟩

theorem seqLoop_grows {k : Kern} {opt : Opt} {gc gc' : GCtx} {cs : List (Out Cmd)}
    (h : seqLoop k opt gc cs = (gc', .ok ())) : gc.Grows gc' := by
  induction cs generalizing gc with
  | nil => cases h; exact .refl _
  | cons a as ih =>
    obtain ⟨cmd, gc1, rfl, h1, h2⟩ := seqLoop_cons_ok h
    exact (inferWith_grows h1).trans (ih h2)

/-! ## Theories -/

theorem GCtx.Grows.le {gc gc' : GCtx} (h : gc.Grows gc') : gc.theory.Le gc'.theory where
  ty s A e := by
    simp only [GCtx.theory, Option.map_eq_some_iff] at *
    obtain ⟨B, h1, h2⟩ := e
    exact ⟨B, h.types s B h1, h2⟩
  rules s rs e := by
    obtain ⟨m, hm⟩ := h.rules s rs e
    exact ⟨_, hm, fun r hr => List.mem_append_left _ hr⟩
  eta := h.eta

theorem Conv.monoRules {R R' : RuleMap} {eta : Bool}
    (hR : ∀ s rs, R s = some rs → ∃ rs', R' s = some rs' ∧ ∀ r ∈ rs, r ∈ rs') {t u : Tm} (h : Conv R eta t u) :
    Conv R' eta t u := by
  induction h with
  | refl t => exact .refl t
  | symm _ ih => exact ih.symm
  | trans _ _ ih ih' => exact ih.trans ih'
  | app _ _ ih ih' => exact .app ih ih'
  | dlam _ ih => exact .dlam ih
  | annot A b => exact .annot A b
  | pi _ _ ih ih' => exact .pi ih ih'
  | beta b a => exact .beta b a
  | eta h f => exact .eta h f
  | rule h hr hs hp =>
    obtain ⟨rs', h', hm⟩ := hR _ _ h
    exact .rule h' (hm _ hr) hs hp

theorem Theory.Le.conv {T T' : Theory} (h : T.Le T') {t u : Tm} (hc : T.Conv t u) : T'.Conv t u := by
  unfold Theory.Conv at *
  rw [h.eta]
  exact Kontroli.Conv.monoRules h.rules hc

theorem HasType.mono {T T' : Theory} (h : T.Le T') {Γ : List Tm} {t A : Tm} (ht : HasType T Γ t A) : HasType T' Γ t A := by
  induction ht with
  | type => exact .type
  | const e => exact .const (h.ty _ _ e)
  | var e => exact .var e
  | app _ _ ih ih' => exact .app ih ih'
  | lam _ _ hn ih ih' => exact .lam ih ih' hn
  | pi _ _ hs ih ih' => exact .pi ih ih' hs
  | dlam _ ih => exact .dlam ih
  | alam _ hc _ ih ih' => exact .alam ih (h.conv hc) ih'
  | conv _ hc ih => exact .conv ih (h.conv hc)

theorem IntroJustified.mono {T T' : Theory} (h : T.Le T') {it : Intro LTerm} {A : LTerm} (hj : IntroJustified T it A) :
    IntroJustified T' it A :=
  ⟨hj.type.imp (fun ⟨B, hB⟩ => ⟨B, hB.mono h⟩) id, hj.given, fun hb => (hj.sort hb).imp fun _ hs => ⟨hs.1, hs.2.mono h⟩, fun tm htm => (hj.body tm htm).mono h⟩

theorem RuleJustified.mono {T T' : Theory} (h : T.Le T') {r : Rule} (hj : RuleJustified T r) : RuleJustified T' r := by
  intro t ht
  obtain ⟨A, h1, h2⟩ := hj t ht
  exact ⟨A, h1.mono h, h2.mono h⟩

end Kontroli
