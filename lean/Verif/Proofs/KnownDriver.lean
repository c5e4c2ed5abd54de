import Verif.Proofs.Complete

/-!
# In accepted commands, abstractions without types stand where their types are known
-/

namespace Kontroli

theorem infer_found {n : Nat} {gc : GCtx} {lc : LCtx} {t : LTerm} : Yields (infer n gc lc (STerm.ofL t)) fun _ => t.den.Known false :=
  ((iopsFound gc n).inf lc (STerm.ofL t)).mono fun _ h => by rwa [STerm.den_ofL] at h

theorem declare_found {n : Nat} {gc : GCtx} {ty : LTerm} : Yields (declare n gc ty) fun _ => ty.den.Known false := by
  unfold Kontroli.declare
  refine .bind infer_found fun r h => ?_
  split
  · exact .pure h
  · exact .pure h
  · exact .throw

theorem checkCheck_found {n : Nat} {gc : GCtx} {c : Check} : Yields (Check.check n gc c) fun _ => c.tm.den.Known true := by
  unfold Check.check
  refine .bind ((iopsFound gc n).chk _ _ _) fun r h => ?_
  split
  · next hb => exact .pure (by have := h hb; rwa [STerm.den_ofL] at this)
  · exact .throw

theorem intro_found {n : Nat} {gc : GCtx} {it : Intro LTerm} : Yields (intro n gc it) fun r =>
    (∀ A, it.given = some A → A.den.Known false) ∧ (it.given = none → ∀ t, it.body = some t → t.den.Known false) ∧
    (it.given.isSome → ∀ t, it.body = some t → ∃ c, r.2 = some c ∧ c.tm = t) := by
  have decl : ∀ {ty : LTerm}, Yields (declare n gc ty) fun _ => ∀ A, some ty = some A → A.den.Known false :=
    declare_found.mono fun _ h A hA => by cases hA; exact h
  cases it with
  | declaration inj ty => exact decl.mono fun _ h => ⟨h, fun h => (by cases h), fun _ t ht => (by cases ht)⟩
  | definition oty otm =>
    cases otm with
    | none =>
      cases oty with
      | none => exact .throw
      | some ty => exact decl.mono fun _ h => ⟨h, fun h => (by cases h), fun _ t ht => (by cases ht)⟩
    | some tm =>
      cases oty with
      | none =>
        exact .bind infer_found fun r h => .bind .trivial fun _ _ => .pure
          ⟨fun A hA => (by cases hA), fun _ t ht => (by cases ht; exact h), fun h => (by cases h)⟩
      | some ty =>
        exact .bind infer_found fun r h => .pure
          ⟨fun A hA => (by cases hA; exact h), fun h => (by cases h), fun _ t ht => (by cases ht; exact ⟨_, rfl, rfl⟩)⟩
  | theorem_ ty tm =>
    exact .bind infer_found fun r h => .pure
      ⟨fun A hA => (by cases hA; exact h), fun h => (by cases h), fun _ t ht => (by cases ht; exact ⟨_, rfl, rfl⟩)⟩

theorem rewrite_found {n : Nat} {gc : GCtx} {t : TRule} : Yields (rewrite n gc t) fun c => c.tm = t.rhs := by
  unfold Kontroli.rewrite
  exact .bind .trivial fun _ _ => .bind .trivial fun _ _ => .pure rfl

theorem rewriteAll_known {k : Kern} (hk : k.Real) {gc : GCtx} {rs : List Rule}
    (h : rewriteAll k (fun _ c gc => (k.check gc c).out) gc rs () = .ok ()) : ∀ r ∈ rs, r.toT.isSome → r.rhs.den.Known true := by
  induction rs with
  | nil => simp
  | cons r rs ih =>
    rw [rewriteAll] at h
    rw [List.forall_mem_cons]
    cases ht : r.toT with
    | none =>
      rw [ht] at h
      exact ⟨fun h => (by cases h), ih h⟩
    | some t =>
      rw [ht] at h
      simp only [Out.bind_ok, Res.out_ok] at h
      obtain ⟨c, h4, _, h5, h6⟩ := h
      refine ⟨fun _ => ?_, ih h6⟩
      obtain ⟨n, rc, s, h7⟩ := hk.rewrite _ _ _ h4
      obtain ⟨n', rc', s', h8⟩ := hk.check _ _ h5
      have := checkCheck_found _ _ _ h8
      rwa [rewrite_found _ _ _ h7, (Rule.toT_annotated ht).2] at this

theorem inferCheck_known {k : Kern} (hk : k.Real) {opt : Opt} (ho : opt.omits .check = false) {gc gc' : GCtx} {cmd : Cmd}
    (hf : ∀ rs, cmd = .rules rs → ∀ r ∈ rs, r.toT.isSome) (h : inferCheck k opt gc cmd = (gc', .ok ())) : cmd.Known := by
  cases cmd with
  | intro s it =>
    obtain ⟨ty, chk, h1, h2, h3⟩ := inferWith_intro_ok h
    obtain ⟨n, rc, st, h4⟩ := hk.intro _ _ _ h1
    have h5 : ∀ c, chk = some c → k.check gc c = .ok () := by
      rintro c rfl
      simp only [ho, Bool.false_eq_true, if_false] at h2
      exact Res.out_ok.1 h2
    obtain ⟨k1, k2, k3⟩ := intro_found _ _ _ h4
    refine ⟨k1, fun t ht => ?_⟩
    cases hg : it.given with
    | none => exact k2 hg t ht
    | some A =>
      obtain ⟨c, rfl, rfl⟩ := k3 (by rw [hg]; rfl) t ht
      obtain ⟨n', rc', s', h8⟩ := hk.check _ _ (h5 c rfl)
      exact checkCheck_found _ _ _ h8
  | rules rs =>
    have h1 := (inferWith_rules_ok h).1
    simp only [ho, Bool.false_eq_true, if_false] at h1
    exact fun r hr => rewriteAll_known hk h1 r hr (hf rs rfl r hr)

theorem seqLoop_known {k : Kern} (hk : k.Real) {opt : Opt} (ho : opt.omits .check = false) {cmds : List Cmd}
    (hf : ∀ rs, Cmd.rules rs ∈ cmds → ∀ r ∈ rs, r.toT.isSome) {gc gc' : GCtx} (h : seqLoop k opt gc (cmds.map .ok) = (gc', .ok ())) :
    ∀ cmd ∈ cmds, cmd.Known := by
  induction cmds generalizing gc with
  | nil => simp
  | cons c cmds ih =>
    obtain ⟨cmd, gc1, hc, h1, h2⟩ := seqLoop_cons_ok h
    cases hc
    rw [List.forall_mem_cons]
    exact ⟨inferCheck_known hk ho (by rintro rs rfl; exact hf rs List.mem_cons_self) h1,
      ih (fun rs hrs => hf rs (List.mem_cons_of_mem _ hrs)) h2⟩

end Kontroli
