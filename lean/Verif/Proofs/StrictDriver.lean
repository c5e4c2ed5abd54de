import Verif.Proofs.Complete

/-!
# Accepted commands are right by the textbook
-/

namespace Kontroli

variable {gc : GCtx}

theorem GCtx.Right.wellFormed (h : gc.Right) (cr : gc.theory.Church) (hu : gc.Untyped) : gc.theory.WellFormed := by
  refine Theory.Sorted.wellFormed h.types cr ?_
  intro s rs r h1 h2
  obtain ⟨h3, h4⟩ := h.rules s rs r h1 h2
  refine ⟨h3, ?_⟩
  cases ht : r.toT with
  | none => exact .inr (hu s rs r h1 h2 ht)
  | some t => exact .inl (h4 (by rw [ht]; rfl))

theorem GCtx.start_right (eta : Bool) : (GCtx.start eta).Right := by
  refine ⟨fun _ _ => rfl, ?_, ?_⟩
  · intro c A h
    simp [GCtx.theory, GCtx.start, GCtx.new] at h
  · intro s rs r h
    simp [GCtx.start, GCtx.new] at h

theorem Theory.Sorted.mono {T T' : Theory} (h : T.Le T') {A : Tm} (hA : ∃ s, IsSort s ∧ Strict T [] A s) : ∃ s, IsSort s ∧ Strict T' [] A s := by
  obtain ⟨s, hs, h1⟩ := hA
  exact ⟨s, hs, h1.mono h⟩

section
variable (cr : gc.theory.Church) (hT : gc.theory.WellFormed)
include cr hT

/-- the recorded type has a sort, and the body has the type -/
theorem IntroPost.strict {it : Intro LTerm} {ty : Typing} {chk : Option Check} (hp : IntroPost gc it (ty, chk))
    (hc : ∀ c, chk = some c → Chk gc.theory (denCtx c.lc) c.tm.den c.ty.den) (hit : it ≠ .definition none none) :
    IntroStrict gc.theory it ∧ (∃ s, IsSort s ∧ Strict gc.theory [] ty.ty.den s) ∧
    ∀ tm, it.body = some tm → Strict gc.theory [] tm.den ty.ty.den := by
  have key : ∀ A tm, ty.ty = A → chk = some ⟨[], A, tm⟩ → (∃ B, Inf gc.theory [] A.den B) →
      (∃ s, IsSort s ∧ Strict gc.theory [] A.den s) ∧ Strict gc.theory [] tm.den A.den := by
    rintro A tm - h2 ⟨B, hB⟩
    have h3 := hc _ h2
    exact Chk.strict hT cr h3 .nil (Inf.strict hT cr hB .nil)
  cases it with
  | declaration inj A =>
    have hA : ty.ty = A := hp.given A (by cases inj <;> simp)
    obtain ⟨s, hs, h⟩ := hp.decl (by simp) (by simp)
    have h1 := Inf.strict hT cr h .nil
    simp only at h1
    refine ⟨⟨s, hs, hA ▸ h1⟩, ⟨s, hs, h1⟩, by simp [Intro.body]⟩
  | theorem_ A tm =>
    have hA : ty.ty = A := hp.given A (.inr (.inr (.inr ⟨_, rfl⟩)))
    have hI : ∃ B, Inf gc.theory [] A.den B := by
      rcases hp.ty with ⟨B, hB⟩ | ⟨tm, h, -⟩
      · exact ⟨B, by rw [← hA]; exact hB⟩
      · cases h
    have h1 := key A tm hA hp.chk hI
    refine ⟨h1, by rw [hA]; exact h1.1, ?_⟩
    rintro _ ⟨⟩
    rw [hA]
    exact h1.2
  | definition oty otm =>
    cases otm with
    | none =>
      cases oty with
      | none => exact absurd rfl hit
      | some A =>
        have hA : ty.ty = A := hp.given A (.inr (.inr (.inl ⟨_, rfl⟩)))
        obtain ⟨s, hs, h⟩ := hp.decl (by simp) (by simp)
        have h1 := Inf.strict hT cr h .nil
        simp only at h1
        refine ⟨⟨s, hs, hA ▸ h1⟩, ⟨s, hs, h1⟩, by simp [Intro.body]⟩
    | some tm =>
      cases oty with
      | none =>
        have h1 := Inf.strict hT cr (hp.infd tm rfl) .nil
        simp only at h1
        rcases h1.typed hT.types .nil with h | ⟨s, hs, h2⟩
        · have := LTerm.noKind ty.ty
          rw [h] at this
          exact this.elim
        · refine ⟨⟨_, s, hs, h2, h1⟩, ⟨s, hs, h2⟩, ?_⟩
          rintro _ ⟨⟩
          exact h1
      | some A =>
        have hA : ty.ty = A := hp.given A (.inr (.inr (.inl ⟨_, rfl⟩)))
        have hI : ∃ B, Inf gc.theory [] A.den B := by
          rcases hp.ty with ⟨B, hB⟩ | ⟨tm, h, -⟩
          · exact ⟨B, by rw [← hA]; exact hB⟩
          · cases h
        have h1 := key A tm hA hp.chk hI
        refine ⟨h1, by rw [hA]; exact h1.1, ?_⟩
        rintro _ ⟨⟩
        rw [hA]
        exact h1.2

theorem rewriteAll_strict {k : Kern} (hk : k.Real) {rs : List Rule}
    (hw : ∀ r ∈ rs, ∀ t, r.toT = some t → WfCtx gc.theory (t.ctx.map LTerm.den).reverse)
    (h : rewriteAll k (fun _ c gc => (k.check gc c).out) gc rs () = .ok ()) :
    ∀ r ∈ rs, RuleStrict gc.theory r ∧ (r.toT.isSome → RuleTyped gc.theory r) := by
  induction rs with
  | nil => simp
  | cons r rs ih =>
    have ih' := ih fun r hr => hw r (List.mem_cons_of_mem _ hr)
    rw [rewriteAll] at h
    cases ht : r.toT with
    | none =>
      rw [ht] at h
      intro r' hr'
      rcases List.mem_cons.1 hr' with rfl | hr'
      · exact ⟨(fun t h => by rw [ht] at h; cases h), (fun h => by rw [ht] at h; cases h)⟩
      · exact ih' h r' hr'
    | some t =>
      rw [ht] at h
      simp only [Out.bind_ok, Res.out_ok] at h
      obtain ⟨c, h4, _, h5, h6⟩ := h
      intro r' hr'
      rcases List.mem_cons.1 hr' with rfl | hr'
      · obtain ⟨n, rc, s, h7⟩ := hk.rewrite _ _ _ h4
        obtain ⟨n', rc', s', h8⟩ := hk.check _ _ h5
        obtain ⟨g1, g2, g3⟩ := TriG.ok (Tri.rewrite n t) h7
        have h10 := TriG.ok (Tri.checkCheck n' c) h8
        rw [g1, g2, (Rule.toT_annotated ht).2] at h10
        have hΔ := hw r' List.mem_cons_self t ht
        have k1 := Inf.strict hT cr g3 hΔ
        rcases k1.typed hT.types hΔ with h | ⟨s, hs, k2⟩
        · have := LTerm.noKind c.ty
          rw [h] at this
          exact this.elim
        · have k3 := (Chk.strict hT cr h10 hΔ k2).2
          refine ⟨?_, fun _ => ⟨t, ht, hΔ, _, k1, k3⟩⟩
          intro t' ht'
          rw [ht] at ht'
          cases ht'
          exact ⟨_, s, hs, k2, k1, k3⟩
      · exact ih' h6 r' hr'

theorem inferCheck_strict {k : Kern} (hk : k.Real) {opt : Opt} (ho : opt.omits .check = false) {gc' : GCtx} {cmd : Cmd} (hR : gc.Right)
    (hw : cmd.WfCtx gc) (h : inferCheck k opt gc cmd = (gc', .ok ())) : CmdStrict gc cmd ∧ gc'.Right := by
  have hle : gc.theory.Le gc'.theory := (inferWith_grows h).le
  cases cmd with
  | intro s it =>
    obtain ⟨ty, chk, h1, h2, h3⟩ := inferWith_intro_ok h
    obtain ⟨n, rc, st, h4⟩ := hk.intro _ _ _ h1
    have h5 : ∀ c, chk = some c → k.check gc c = .ok () := by
      rintro c rfl
      simp only [ho, Bool.false_eq_true, if_false] at h2
      exact Res.out_ok.1 h2
    have hp := TriG.ok (Tri.intro n it) h4
    have hit : it ≠ .definition none none := by
      rintro rfl
      cases h4
    obtain ⟨hS, hty, hbody⟩ := hp.strict cr hT (by
      intro c hc
      obtain ⟨n', rc', s', h9⟩ := hk.check _ _ (h5 _ hc)
      exact TriG.ok (Tri.checkCheck n' _) h9) hit
    obtain ⟨h6, h7, rfl⟩ := GCtx.insert_ok h3
    refine ⟨⟨h6, hR.dom s h6, hS⟩, ?_, ?_, ?_⟩
    · intro c hc
      simp only [mapInsert] at hc ⊢
      split at hc
      · cases hc
      · next hne =>
        split
        · rw [mapInsert, if_neg hne]
          exact hR.dom c hc
        · exact hR.dom c hc
    · intro c A hA
      simp only [GCtx.theory, mapInsert, Option.map_eq_some_iff] at hA
      obtain ⟨a, ha, rfl⟩ := hA
      split at ha
      · cases ha
        exact Theory.Sorted.mono hle hty
      · exact Theory.Sorted.mono hle (hR.types c _ (by simp [GCtx.theory, ha]))
    · intro c rs r hrs hr
      have old : ∀ rs, gc.rules c = some rs → r ∈ rs → r.lhs.symbol = c ∧ (r.toT.isSome → ∀ {T'}, gc.theory.Le T' → RuleTyped T' r) := by
        intro rs k1 k2
        obtain ⟨k3, k4⟩ := hR.rules c rs r k1 k2
        exact ⟨k3, fun k _ hle => (k4 k).mono hle⟩
      simp only at hrs
      split at hrs
      · simp only [mapInsert] at hrs
        split at hrs
        · next hcs =>
          subst hcs
          cases hrs
          have hr' : ∃ tm, ty.tm = some tm ∧ r = ⟨[], ⟨c, []⟩, tm⟩ := by
            cases htm : ty.tm with
            | none => rw [htm] at hr; simp [GCtx.initRules] at hr
            | some tm =>
              rw [htm] at hr
              simp only [GCtx.initRules, List.mem_singleton] at hr
              exact ⟨tm, rfl, hr⟩
          obtain ⟨tm, htm, rfl⟩ := hr'
          refine ⟨rfl, fun _ => ⟨_, rfl, .nil, ty.ty.den, ?_, ?_⟩⟩
          · refine .const ?_
            simp [GCtx.theory, mapInsert]
          · refine (hbody tm ?_).mono hle
            rw [hp.tm] at htm
            cases it with
            | definition oty otm => exact htm
            | _ => cases htm
        · exact (old rs hrs hr).imp id fun h k => h k hle
      · exact (old rs hrs hr).imp id fun h k => h k hle
  | rules rs =>
    obtain ⟨h1, h2⟩ := inferWith_rules_ok h
    simp only [ho, Bool.false_eq_true, if_false] at h1
    have h3 := rewriteAll_strict cr hT hk hw h1
    obtain ⟨e1, e2, e3, e4⟩ := GCtx.addRules_ok h2
    refine ⟨fun r hr => ⟨e4 r hr, (h3 r hr).1⟩, ?_, ?_, ?_⟩
    · intro c hc
      rw [e1] at hc
      rw [e3, hR.dom c hc]
      rfl
    · intro c A hA
      refine Theory.Sorted.mono hle (hR.types c A ?_)
      simp only [GCtx.theory, e1] at hA ⊢
      exact hA
    · intro c rs' r hrs' hr
      rw [e3] at hrs'
      simp only [Option.map_eq_some_iff] at hrs'
      obtain ⟨l, h6, rfl⟩ := hrs'
      rcases List.mem_append.1 hr with hr | hr
      · obtain ⟨k3, k4⟩ := hR.rules c l r h6 hr
        exact ⟨k3, fun k => (k4 k).mono hle⟩
      · simp only [GCtx.rulesOf, List.mem_filter, decide_eq_true_eq] at hr
        exact ⟨hr.2, fun k => ((h3 r hr.1).2 k).mono hle⟩

end

end Kontroli
