import Verif.Proofs.TerminateInfer
import Verif.Proofs.Correct

/-!
# Runs come to an end
-/

namespace Kontroli

/-- with enough fuel the outcome does not depend on the fuel, and it is not `timeout` -/
def Ends {α : Type} (F : Nat → Out α) : Prop := ∃ n r, r ≠ .timeout ∧ ∀ m, n ≤ m → F m = r

section
variable {α β : Type}

theorem Ends.const {r : Out α} (h : r ≠ .timeout) : Ends fun _ => r := ⟨0, r, h, fun _ _ => rfl⟩

theorem Ends.bind {F : Nat → Out α} {f : Nat → α → Out β} (h : Ends F) (hf : ∀ m a, F m = .ok a → Ends (fun m => f m a)) :
    Ends fun m => (F m).bind (f m) := by
  obtain ⟨n, r, hr, hn⟩ := h
  cases r with
  | ok a =>
    obtain ⟨n', r', hr', hn'⟩ := hf n a (hn n le_rfl)
    refine ⟨max n n', r', hr', fun m hm => ?_⟩
    simp only [hn m (le_trans (le_max_left _ _) hm)]
    exact hn' m (le_trans (le_max_right _ _) hm)
  | err e => exact ⟨n, .err e, nofun, fun m hm => by simp only [hn m hm]; rfl⟩
  | panic => exact ⟨n, .panic, nofun, fun m hm => by simp only [hn m hm]; rfl⟩
  | timeout => exact absurd rfl hr

theorem Halts.ends {F : Nat → M α} {rc : Nat → Bool} (h : Halts F (St.init rc)) : Ends fun m => (F m ⟨[], [], rc⟩).value.out := by
  obtain ⟨n, r, hr, hn⟩ := h
  refine ⟨n, r.value.out, ?_, fun m hm => ?_⟩
  · cases r with
    | timeout => exact absurd rfl hr
    | _ => nofun
  · have : F m ⟨[], [], rc⟩ = r := hn m hm
    simp only [this]

end

/-- the end of an introduction -/
def introDone (gc : GCtx) (s : Sym) (it : Intro LTerm) : Out (Typing × Unit) → GCtx × Out Unit
  | .ok (typing, t) => ((gc.insert s typing it.rewritable).1, (gctxOut (gc.insert s typing it.rewritable).2).bind fun _ => .ok t)
  | .err e => (gc, .err e)
  | .panic => (gc, .panic)
  | .timeout => (gc, .timeout)

/-- an introduction, when the outcome of the kernel is known -/
theorem inferWith_intro_eq {k : Kern} {gc : GCtx} {s : Sym} {it : Intro LTerm} {r : Out (Typing × Unit)}
    (h : ((k.intro gc it).out.bind fun r => match r.2 with
      | some c => ((k.check gc c).out).bind fun t => .ok (r.1, t)
      | none => .ok (r.1, ())) = r) :
    inferWith k (fun _ c gc => (k.check gc c).out) gc () (.intro s it) = introDone gc s it r := by
  subst h
  simp only [inferWith]
  unfold introDone
  cases hi : k.intro gc it with
  | ok p =>
    obtain ⟨ty, chk⟩ := p
    cases chk with
    | none => rfl
    | some c => cases hc : k.check gc c <;> simp [Res.out, Out.bind, hc]
  | _ => rfl

section
variable {gc : GCtx} (hT : gc.theory.WellFormed) (hC : gc.theory.Church) (hN : gc.theory.Normalising) (rc : Nat → Bool)
include hT hC hN

theorem intro_ends (it : Intro LTerm) : Ends fun m => ((Kern.std m rc).intro gc it).out :=
  Halts.ends (TH.intro hT hC hN it _ (World.init _ _ rc))

theorem rewrite_ends (r : TRule) (hΓ : WfCtx gc.theory (denCtx r.ctx)) : Ends fun m => ((Kern.std m rc).rewrite gc r).out :=
  Halts.ends (TH.rewrite hT hC hN r hΓ _ (World.init _ _ rc))

theorem check_ends (c : Check) (hΓ : WfCtx gc.theory (denCtx c.lc)) {X : Tm} (hX : Strict gc.theory (denCtx c.lc) c.ty.den X) :
    Ends fun m => ((Kern.std m rc).check gc c).out :=
  Halts.ends (TH.checkCheck hT hC hN c hΓ hX _ (World.init _ _ rc))

theorem rewriteAll_ends (rs : List Rule) (hw : ∀ r ∈ rs, ∀ t, r.toT = some t → WfCtx gc.theory (t.ctx.map LTerm.den).reverse) :
    Ends fun m => rewriteAll (Kern.std m rc) (fun _ c gc => ((Kern.std m rc).check gc c).out) gc rs () := by
  induction rs with
  | nil => exact .const nofun
  | cons r rs ih =>
    have ih' := ih fun r hr => hw r (List.mem_cons_of_mem _ hr)
    simp only [rewriteAll]
    cases ht : r.toT with
    | none => exact ih'
    | some t =>
      have hΓ := hw r List.mem_cons_self t ht
      simp only
      refine Ends.bind (rewrite_ends hT hC hN rc t hΓ) fun m c hc => ?_
      obtain ⟨n, rc', s, h7⟩ := (Kern.std_real m rc).rewrite _ _ _ (Res.out_ok.1 hc)
      obtain ⟨g1, g2, g3⟩ := TriG.ok (Tri.rewrite n t) h7
      refine Ends.bind ?_ fun _ _ _ => ih'
      have k1 := Inf.strict hT hC g3 hΓ
      rcases k1.typed hT.types hΓ with h | ⟨s, hs, k2⟩
      · have := LTerm.noKind c.ty
        rw [h] at this
        exact this.elim
      · exact check_ends hT hC hN rc c (by rw [g1]; exact hΓ) (by rw [g1]; exact k2)

theorem inferCheck_ends {opt : Opt} (ho : opt.omits .check = false) (cmd : Cmd) (hw : cmd.WfCtx gc) :
    ∃ n r, r.2 ≠ .timeout ∧ ∀ m, n ≤ m → inferCheck (Kern.std m rc) opt gc cmd = r := by
  unfold inferCheck
  simp only [ho, Bool.false_eq_true, if_false]
  cases cmd with
  | intro s it =>
    have h : Ends fun m => ((Kern.std m rc).intro gc it).out.bind fun r => match r.2 with
      | some c => (((Kern.std m rc).check gc c).out).bind fun t => .ok (r.1, t)
      | none => .ok (r.1, ()) := by
      refine Ends.bind (intro_ends hT hC hN rc it) fun m r hr => ?_
      obtain ⟨ty, chk⟩ := r
      cases chk with
      | none => exact .const nofun
      | some c =>
        simp only
        refine Ends.bind ?_ fun _ _ _ => .const nofun
        obtain ⟨n, rc', s, h7⟩ := (Kern.std_real m rc).intro _ _ _ (Res.out_ok.1 hr)
        have hp := TriG.ok (Tri.intro n it) h7
        have hc : c.lc = [] ∧ ∃ X, Inf gc.theory [] c.ty.den X := by
          have h1 := hp.chk
          simp only at h1
          cases it with
          | declaration inj A => cases h1
          | definition oty otm =>
            cases oty with
            | none => cases h1
            | some A =>
              cases otm with
              | none => cases h1
              | some tm =>
                cases h1
                rcases hp.ty with ⟨B, hB⟩ | ⟨tm, h, -⟩
                · have h2 := hp.given A (.inr (.inr (.inl ⟨_, rfl⟩)))
                  rw [h2] at hB
                  exact ⟨rfl, B, hB⟩
                · cases h
          | theorem_ A tm =>
            cases h1
            rcases hp.ty with ⟨B, hB⟩ | ⟨tm, h, -⟩
            · have h2 := hp.given A (.inr (.inr (.inr ⟨_, rfl⟩)))
              rw [h2] at hB
              exact ⟨rfl, B, hB⟩
            · cases h
        obtain ⟨h1, X, hX⟩ := hc
        refine check_ends hT hC hN rc c ?_ (X := X) ?_
        · rw [h1]; exact .nil
        · rw [h1]; exact Inf.strict hT hC hX .nil
    obtain ⟨n, r, hr, hn⟩ := h
    refine ⟨n, _, ?_, fun m hm => inferWith_intro_eq (hn m hm)⟩
    cases r with
    | ok p =>
      simp only [introDone]
      generalize (gc.insert s p.1 it.rewritable).2 = res
      cases res <;> nofun
    | err e => nofun
    | panic => nofun
    | timeout => exact absurd rfl hr
  | rules rs =>
    obtain ⟨n, r, hr, hn⟩ := rewriteAll_ends hT hC hN rc rs hw
    simp only at hn
    simp only [inferWith]
    cases r with
    | ok p =>
      refine ⟨n, _, ?_, fun m hm => by rw [hn m hm]⟩
      simp only
      generalize addRules gc rs = x
      obtain ⟨gc', res⟩ := x
      cases res <;> nofun
    | err e => exact ⟨n, (gc, .err e), nofun, fun m hm => by rw [hn m hm]⟩
    | panic => exact ⟨n, (gc, .panic), nofun, fun m hm => by rw [hn m hm]⟩
    | timeout => exact absurd rfl hr

end

theorem Coherent.church {gc : GCtx} (h : Coherent gc.eta gc.rules) (hd : ∀ s, gc.types s = none → gc.rules s = none) : gc.theory.Church := by
  cases he : gc.eta with
  | false =>
    rw [he] at h
    exact .plain he h
  | true =>
    rw [he] at h
    exact Amenable.church (by rw [he]; exact h) hd

theorem seqLoop_ends (rc : Nat → Bool) {opt : Opt} {eta : Bool} (ho : opt.omits .check = false) (cs : List (Out Cmd)) (hc : .timeout ∉ cs)
    (ht : ∀ pre post, cs = pre.map .ok ++ post → TameIn eta pre) :
    ∃ n r, r.2 ≠ .timeout ∧ ∀ m, n ≤ m → seqLoop (Kern.std m rc) opt (GCtx.start eta) cs = r := by
  have key : ∀ (post : List (Out Cmd)) (pre : List Cmd) (gc : GCtx), cs = pre.map .ok ++ post →
      (∃ n, ∀ m, n ≤ m → seqLoop (Kern.std m rc) opt (GCtx.start eta) (pre.map .ok) = (gc, .ok ())) →
      ∃ n r, r.2 ≠ .timeout ∧ ∀ m, n ≤ m → seqLoop (Kern.std m rc) opt gc post = r := by
    intro post
    induction post with
    | nil => exact fun _ gc _ _ => ⟨0, (gc, .ok ()), nofun, fun _ _ => rfl⟩
    | cons c post ih =>
      intro pre gc e hpre
      cases c with
      | ok cmd =>
        have e' : cs = (pre ++ [cmd]).map .ok ++ post := by rw [e]; simp
        have t1 := ht _ _ e
        have t2 := ht _ _ e'
        obtain ⟨n, hn⟩ := hpre
        obtain ⟨hS, hR⟩ := session_sound (Kern.std_real n rc) ho t1.full t1.ctxs (by
          intro pre' post' e gci hi
          refine Coherent.church ?_ (seqLoop_rulesEq (Kern.std_real n rc) hi).2
          rw [show gci.eta = eta from seqLoop_eta hi, (seqLoop_rulesEq (Kern.std_real n rc) hi).1]
          exact t1.coherent _ _ e) (hn n le_rfl)
        have hC : gc.theory.Church := by
          refine Coherent.church ?_ hR.dom
          rw [show gc.eta = eta from hS.eta, (seqLoop_rulesEq (Kern.std_real n rc) (hn n le_rfl)).1]
          exact t1.coherent pre [] (by simp)
        have hU : gc.Untyped := by
          intro s rs r h3 h4 h5
          have := Rule.full_iff.1 (hS.full (T := gc.theory) h3 h4)
          rw [h5] at this
          cases this
        have hw : cmd.WfCtx gc := by
          cases cmd with
          | intro s it => trivial
          | rules rs =>
            intro r hr t ht
            exact t2.ctxs pre rs [] gc.theory rfl hS r hr _ _ _ (Rule.consists_iff.2 ⟨t, ht, rfl, rfl, rfl⟩)
        obtain ⟨n1, ⟨gc1, r⟩, hr, hn1⟩ := inferCheck_ends (hR.wellFormed hC hU) hC (t1.normalising pre [] gc.theory (by simp) hS) rc ho cmd hw
        cases r with
        | ok u =>
          obtain ⟨n2, r2, hr2, hn2⟩ := ih (pre ++ [cmd]) gc1 e' ⟨max n n1, fun m hm => by
            rw [List.map_append, seqLoop_append, hn m (le_trans (le_max_left _ _) hm)]
            simp only [List.map_cons, List.map_nil, seqLoop]
            rw [hn1 m (le_trans (le_max_right _ _) hm)]⟩
          refine ⟨max n1 n2, r2, hr2, fun m hm => ?_⟩
          simp only [seqLoop]
          rw [hn1 m (le_trans (le_max_left _ _) hm)]
          exact hn2 m (le_trans (le_max_right _ _) hm)
        | err e => exact ⟨n1, (gc1, .err e), nofun, fun m hm => by simp only [seqLoop]; rw [hn1 m hm]⟩
        | panic => exact ⟨n1, (gc1, .panic), nofun, fun m hm => by simp only [seqLoop]; rw [hn1 m hm]⟩
        | timeout => exact absurd rfl hr
      | err e0 => exact ⟨0, (gc, .err e0), nofun, fun _ _ => rfl⟩
      | panic => exact ⟨0, (gc, .panic), nofun, fun _ _ => rfl⟩
      | timeout => exact absurd (by rw [e]; simp) hc
  exact key cs [] (GCtx.start eta) rfl ⟨0, fun _ _ => rfl⟩

end Kontroli
