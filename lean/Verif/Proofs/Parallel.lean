import Verif.Proofs.Driver

/-!
# Deferred and concurrent checking
-/

namespace Kontroli

section
variable {k : Kern} {opt : Opt}

/-- pulling everything -/
def pullAll (k : Kern) : GCtx → List (Out Cmd) → GCtx × List (Out Checks)
  | gc, [] => (gc, [])
  | gc, c :: cs => ((pullAll k (pull k gc c).1 cs).1, (pull k gc c).2 :: (pullAll k (pull k gc c).1 cs).2)

theorem checkAll_append {cs cs' : List Check} {gc : GCtx} :
    checkAll k (cs ++ cs') gc = .ok () ↔ checkAll k cs gc = .ok () ∧ checkAll k cs' gc = .ok () := by
  induction cs with
  | nil => simp [checkAll]
  | cons c cs ih =>
    simp only [List.cons_append, checkAll, Out.bind_ok, ih]
    constructor
    · rintro ⟨a, h1, h2, h3⟩; exact ⟨⟨a, h1, h2⟩, h3⟩
    · rintro ⟨⟨a, h1, h2⟩, h3⟩; exact ⟨a, h1, h2, h3⟩

/-- the closure of `infer_check` -/
def now (k : Kern) (opt : Opt) : Unit → Check → GCtx → Out Unit :=
  fun _ c gc => if opt.omits .check then .ok () else (k.check gc c).out

/-- the closure of `infer` -/
def later : List Check → Check → GCtx → Out (List Check) := fun cs c _ => .ok (cs ++ [c])

/-- the checks are omitted or succeed -/
def Passed (k : Kern) (opt : Opt) (cs : List Check) (gc : GCtx) : Prop :=
  opt.omits .check = false → checkAll k cs gc = .ok ()

theorem passed_single {gc : GCtx} {c : Check} : now k opt () c gc = .ok () ↔ Passed k opt [c] gc := by
  unfold now Passed
  cases opt.omits .check with
  | true => simp
  | false =>
    simp only [checkAll, Out.bind_ok, Bool.false_eq_true, if_false, and_true, forall_const]
    exact ⟨fun h => ⟨(), h⟩, fun ⟨_, h⟩ => h⟩

theorem passed_append {cs cs' : List Check} {gc : GCtx} :
    Passed k opt (cs ++ cs') gc ↔ Passed k opt cs gc ∧ Passed k opt cs' gc := by
  unfold Passed
  rw [checkAll_append]
  constructor
  · intro h; exact ⟨fun e => (h e).1, fun e => (h e).2⟩
  · rintro ⟨h1, h2⟩ e; exact ⟨h1 e, h2 e⟩

theorem rewriteAll_now {gc : GCtx} {rs : List Rule} (cs0 : List Check) :
    rewriteAll k (now k opt) gc rs () = .ok () ↔
      ∃ cs, rewriteAll k later gc rs cs0 = .ok (cs0 ++ cs) ∧ Passed k opt cs gc := by
  induction rs generalizing cs0 with
  | nil =>
    simp only [rewriteAll, Out.ok.injEq, true_iff]
    exact ⟨[], by simp, fun _ => rfl⟩
  | cons r rs ih =>
    simp only [rewriteAll]
    cases r.toT with
    | none => exact ih cs0
    | some t =>
      simp only [Out.bind_ok, Res.out_ok, later, Out.ok.injEq]
      constructor
      · rintro ⟨c, h1, _, h2, h3⟩
        obtain ⟨cs, h4, h5⟩ := (ih (cs0 ++ [c])).1 h3
        exact ⟨c :: cs, ⟨c, h1, _, rfl, by simpa using h4⟩, passed_append (cs := [c]) |>.2 ⟨passed_single.1 h2, h5⟩⟩
      · rintro ⟨cs, ⟨c, h1, _, rfl, h4⟩, h5⟩
        -- the collected checks start with the one just made
        have key : ∀ (rs : List Rule) (a b : List Check), rewriteAll k later gc rs a = .ok b → ∃ d, b = a ++ d := by
          intro rs
          induction rs with
          | nil => intro a b h; simp [rewriteAll] at h; exact ⟨[], by simp [h]⟩
          | cons r rs ih =>
            intro a b h
            simp only [rewriteAll] at h
            cases hr : r.toT with
            | none => rw [hr] at h; exact ih a b h
            | some t =>
              rw [hr] at h
              simp only [Out.bind_ok, Res.out_ok, later, Out.ok.injEq] at h
              obtain ⟨c, -, _, rfl, h⟩ := h
              obtain ⟨d, rfl⟩ := ih _ _ h
              exact ⟨c :: d, by simp⟩
        obtain ⟨d, hd⟩ := key _ _ _ h4
        have : cs = c :: d := by simpa using hd
        subst this
        obtain ⟨h6, h7⟩ := passed_append (cs := [c]) |>.1 h5
        exact ⟨c, h1, (), passed_single.2 h6, (ih (cs0 ++ [c])).2 ⟨d, by simpa using h4, h7⟩⟩

/-- checking at once is collecting the checks and running them -/
theorem inferCheck_iff {gc gc1 : GCtx} {cmd : Cmd} :
    inferCheck k opt gc cmd = (gc1, .ok ()) ↔
      ∃ cs, inferOnly k gc cmd = (gc1, .ok (cs, gc)) ∧ Passed k opt cs gc := by
  have hin : ∀ cs, inferOnly k gc cmd = (gc1, .ok (cs, gc)) ↔ inferWith k later gc [] cmd = (gc1, .ok cs) := by
    intro cs
    unfold inferOnly
    change (match inferWith k later gc [] cmd with | (gc', res) => (gc', res.bind fun cs => .ok (cs, gc))) = _ ↔ _
    rcases inferWith k later gc [] cmd with ⟨g, res⟩
    simp only [Prod.mk.injEq, Out.bind_ok, Out.ok.injEq]
    constructor
    · rintro ⟨rfl, a, h1, h2, -⟩; exact ⟨rfl, by rw [h1, h2]⟩
    · rintro ⟨rfl, h⟩; exact ⟨rfl, cs, h, rfl, trivial⟩
  simp only [hin]
  change inferWith k (now k opt) gc () cmd = _ ↔ _
  cases cmd with
  | intro s it =>
    constructor
    · intro h
      obtain ⟨ty, chk, h1, h2, h3⟩ := inferWith_intro_ok h
      cases chk with
      | none =>
        refine ⟨[], ?_, fun _ => rfl⟩
        rw [inferWith]
        simp [h1, Res.out, Out.bind, h3, gctxOut]
      | some c =>
        refine ⟨[c], ?_, passed_single.1 h2⟩
        rw [inferWith]
        simp [h1, Res.out, Out.bind, h3, gctxOut, later]
    · rintro ⟨cs, h, hp⟩
      obtain ⟨ty, chk, h1, h2, h3⟩ := inferWith_intro_ok h
      cases chk with
      | none =>
        rw [inferWith]
        simp [h1, Res.out, Out.bind, h3, gctxOut]
      | some c =>
        simp only [later, List.nil_append, Out.ok.injEq] at h2
        subst h2
        rw [inferWith]
        have := passed_single.2 hp
        simp [h1, Res.out, Out.bind, h3, gctxOut, this]
  | rules rs =>
    constructor
    · intro h
      obtain ⟨h1, h2⟩ := inferWith_rules_ok h
      obtain ⟨cs, h3, h4⟩ := (rewriteAll_now []).1 h1
      refine ⟨cs, ?_, h4⟩
      simp only [List.nil_append] at h3
      rw [inferWith]
      simp [h3, h2, gctxOut, Out.bind]
    · rintro ⟨cs, h, hp⟩
      obtain ⟨h1, h2⟩ := inferWith_rules_ok h
      have := (rewriteAll_now (opt := opt) []).2 ⟨cs, by simpa using h1, hp⟩
      rw [inferWith]
      simp [this, h2, gctxOut, Out.bind]

/-- an element is filtered away or processed without error -/
def Good (k : Kern) (opt : Opt) (ts : Out Checks) : Prop := keepCheck opt ts = true → (processChecks k ts).isOk = true

theorem inferOnly_ok {gc : GCtx} {cmd : Cmd} {ts : Checks} (h : (inferOnly k gc cmd).2 = .ok ts) : ts.2 = gc := by
  unfold inferOnly at h
  simp only [Out.bind_ok] at h
  obtain ⟨cs, -, h⟩ := h
  cases h; rfl

theorem good_iff {gc : GCtx} {c : Out Cmd} :
    Good k opt (pull k gc c).2 ↔ ∃ cmd, c = .ok cmd ∧ inferCheck k opt gc cmd = ((pull k gc c).1, .ok ()) := by
  cases c with
  | ok cmd =>
    simp only [pull, Out.ok.injEq, exists_eq_left', inferCheck_iff]
    unfold Good
    rcases hio : inferOnly k gc cmd with ⟨g, res⟩
    cases res with
    | ok ts =>
      have := inferOnly_ok (k := k) (gc := gc) (cmd := cmd) (ts := ts) (by rw [hio])
      obtain ⟨cs, g'⟩ := ts
      simp only at this
      subst this
      simp only [keepCheck, Out.isOk, processChecks, Out.bind, Prod.mk.injEq, Out.ok.injEq, and_true, true_and,
        exists_eq_left', Passed, Bool.not_true, Bool.or_false, Bool.not_eq_true']
      constructor
      · intro h e
        have := h e
        revert this
        cases checkAll k cs g' <;> simp
      · intro h e; rw [h e]
    | err e => simp [keepCheck, Out.isOk, processChecks, Out.bind]
    | panic => simp [keepCheck, Out.isOk, processChecks, Out.bind]
    | timeout => simp [keepCheck, Out.isOk, processChecks, Out.bind]
  | err e => simp [Good, pull, keepCheck, Out.isOk, processChecks, Out.bind]
  | panic => simp [Good, pull, keepCheck, Out.isOk, processChecks, Out.bind]
  | timeout => simp [Good, pull, keepCheck, Out.isOk, processChecks, Out.bind]

/-- sequential checking accepts iff everything that is pulled is good -/
theorem seqLoop_iff {gc gc' : GCtx} {cmds : List (Out Cmd)} :
    seqLoop k opt gc cmds = (gc', .ok ()) ↔ (pullAll k gc cmds).1 = gc' ∧ ∀ ts ∈ (pullAll k gc cmds).2, Good k opt ts := by
  induction cmds generalizing gc with
  | nil => simp [seqLoop, pullAll]
  | cons c cs ih =>
    simp only [pullAll, List.mem_cons, forall_eq_or_imp]
    constructor
    · intro h
      obtain ⟨cmd, gc1, rfl, h1, h2⟩ := seqLoop_cons_ok h
      have h3 : (pull k gc (.ok cmd)).1 = gc1 := by
        obtain ⟨cs, h4, -⟩ := inferCheck_iff.1 h1
        simp [pull, h4]
      obtain ⟨h4, h5⟩ := ih.1 h2
      rw [h3]
      exact ⟨h4, good_iff.2 ⟨cmd, rfl, by rw [h3]; exact h1⟩, h5⟩
    · rintro ⟨h1, h2, h3⟩
      obtain ⟨cmd, rfl, h4⟩ := good_iff.1 h2
      rw [seqLoop_cons h4]
      exact ih.2 ⟨h1, h3⟩

/-- the invariant of the thread pool, started on `cmds` in `gc` -/
structure PoolInv (k : Kern) (opt : Opt) (gc : GCtx) (cmds : List (Out Cmd)) (p : Pool) : Prop where
  /-- what was pulled, and the rest -/
  split : ∃ pulled, cmds = pulled ++ p.todo ∧ (pullAll k gc pulled).1 = p.gc ∧
    (∀ ts ∈ (pullAll k gc pulled).2, ts ∈ p.running ∨ Good k opt ts ∨ p.failed ≠ []) ∧
    (∀ ts ∈ p.running, ts ∈ (pullAll k gc pulled).2 ∧ keepCheck opt ts = true) ∧
    (∀ e ∈ p.failed, e.isOk = false ∧ ∃ ts ∈ (pullAll k gc pulled).2, ¬ Good k opt ts)

theorem pullAll_concat {gc : GCtx} {cs : List (Out Cmd)} {c : Out Cmd} :
    pullAll k gc (cs ++ [c]) = ((pull k (pullAll k gc cs).1 c).1,
      (pullAll k gc cs).2 ++ [(pull k (pullAll k gc cs).1 c).2]) := by
  induction cs generalizing gc with
  | nil => simp [pullAll]
  | cons c' cs ih => simp [pullAll, ih]

theorem PoolInv.step {gc : GCtx} {cmds : List (Out Cmd)} {p q : Pool} (h : PoolInv k opt gc cmds p)
    (hs : PoolStep k opt p q) : PoolInv k opt gc cmds q := by
  obtain ⟨pulled, h1, h2, h3, h4, h5⟩ := h.split
  cases hs with
  | @pull cmd todo g running failed =>
    simp only at h1 h2 h3 h4 h5
    subst h2
    refine ⟨pulled ++ [cmd], by simp [h1], by rw [pullAll_concat], ?_, ?_, ?_⟩
    · rw [pullAll_concat]
      intro ts hts
      simp only [List.mem_append, List.mem_singleton] at hts
      rcases hts with hts | rfl
      · rcases h3 ts hts with h | h | h
        · left; simp only; split
          · exact List.mem_append_left _ h
          · exact h
        · exact .inr (.inl h)
        · exact .inr (.inr h)
      · by_cases hk : keepCheck opt (Kontroli.pull k (pullAll k gc pulled).1 cmd).2 = true
        · left; simp [hk]
        · exact .inr (.inl fun h => absurd h hk)
    · rw [pullAll_concat]
      intro ts hts
      simp only at hts
      split at hts
      · next hk =>
        rcases List.mem_append.1 hts with hts | hts
        · exact ⟨List.mem_append_left _ (h4 ts hts).1, (h4 ts hts).2⟩
        · simp only [List.mem_singleton] at hts
          subst hts
          exact ⟨by simp, hk⟩
      · exact ⟨List.mem_append_left _ (h4 ts hts).1, (h4 ts hts).2⟩
    · rw [pullAll_concat]
      intro e he
      obtain ⟨h6, ts, h7, h8⟩ := h5 e he
      exact ⟨h6, ts, List.mem_append_left _ h7, h8⟩
  | @done todo g pre post ts failed =>
    simp only at h1 h2 h3 h4 h5
    refine ⟨pulled, h1, h2, ?_, ?_, ?_⟩
    · intro ts' hts'
      simp only
      rcases h3 ts' hts' with h | h | h
      · rcases List.mem_append.1 h with h | h
        · exact .inl (List.mem_append_left _ h)
        · rcases List.mem_cons.1 h with rfl | h
          · right
            by_cases hok : (processChecks k ts').isOk = true
            · exact .inl fun _ => hok
            · right; simp [hok]
          · exact .inl (List.mem_append_right _ h)
      · exact .inr (.inl h)
      · right; right; split
        · exact h
        · simp
    · intro ts' hts'
      refine h4 ts' ?_
      simp only [List.mem_append, List.mem_cons] at hts' ⊢
      exact hts'.imp_right .inr
    · intro e he
      simp only at he
      split at he
      · exact h5 e he
      · next hno =>
        rcases List.mem_append.1 he with he | he
        · exact h5 e he
        · simp only [List.mem_singleton] at he
          subst he
          obtain ⟨h6, h7⟩ := h4 ts (by simp)
          exact ⟨by simpa using hno, ts, h6, fun hg => hno (hg h7)⟩

theorem PoolInv.steps {gc : GCtx} {cmds : List (Out Cmd)} {p q : Pool} (h : PoolInv k opt gc cmds p)
    (hs : PoolSteps k opt p q) : PoolInv k opt gc cmds q := by
  induction hs with
  | refl => exact h
  | step hs _ ih => exact ih (h.step hs)

theorem PoolInv.init (k : Kern) (opt : Opt) (gc : GCtx) (cmds : List (Out Cmd)) :
    PoolInv k opt gc cmds ⟨cmds, gc, [], []⟩ :=
  ⟨[], by simp, rfl, by simp [pullAll], by simp, by simp⟩

theorem PoolSteps.trans {p q r : Pool} (h : PoolSteps k opt p q) (h' : PoolSteps k opt q r) : PoolSteps k opt p r := by
  induction h with
  | refl => exact h'
  | step hs _ ih => exact .step hs (ih h')

/-- the schedule that processes every element directly after it was pulled -/
theorem pool_schedule {gc : GCtx} {cmds : List (Out Cmd)} (h : ∀ ts ∈ (pullAll k gc cmds).2, Good k opt ts) :
    PoolSteps k opt ⟨cmds, gc, [], []⟩ ⟨[], (pullAll k gc cmds).1, [], []⟩ := by
  induction cmds generalizing gc with
  | nil => exact .refl
  | cons c cs ih =>
    simp only [pullAll, List.mem_cons, forall_eq_or_imp] at h
    refine .step .pull ?_
    by_cases hk : keepCheck opt (pull k gc c).2 = true
    · simp only [hk, if_true, List.nil_append]
      refine .step (.done (pre := []) (post := [])) ?_
      simp only [h.1 hk, if_true, List.append_nil]
      exact ih h.2
    · simp only [hk]
      exact ih h.2

end

end Kontroli
