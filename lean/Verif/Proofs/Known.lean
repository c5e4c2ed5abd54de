import Verif.Proofs.Refuse
import Verif.Proofs.SimEval

/-!
# Abstractions without types

They are complained about unless they stand where their types are known.
-/

namespace Kontroli

theorem Tm.Known.mono {t : Tm} {g : Bool} (h : t.Known false) : t.Known g := by
  induction t with
  | lam A b _ ih => exact ⟨h.1, ih h.2⟩
  | dlam b ih => exact absurd h.1 (by decide)
  | app f a => exact h
  | pi A B => exact h
  | _ => trivial

theorem Tm.Annotated.known {t : Tm} (h : t.Annotated) (g : Bool) : t.Known g := by
  induction t generalizing g with
  | lam A b ih1 ih2 => exact ⟨ih1 h.1 _, ih2 h.2 _⟩
  | dlam b ih => exact h.elim
  | app f a ih1 ih2 => exact ⟨ih1 h.1 _, ih2 h.2 _⟩
  | pi A B ih1 ih2 => exact ⟨ih1 h.1 _, ih2 h.2 _⟩
  | _ => trivial

theorem Tm.known_apps {f : Tm} {as : List Tm} {g : Bool} :
    (f.apps as).Known g ↔ f.Known (g && as.isEmpty) ∧ ∀ a ∈ as, a.Known true := by
  induction as generalizing f with
  | nil => simp [apps]
  | cons a as ih => simp [apps, ih, Known, and_assoc]

/-- only abstractions profit from a known type -/
theorem STerm.known_getAbst {t : STerm} (h : t.getAbst = none) (hp : t.Proper) (hk : t.den.Known true) : t.den.Known false := by
  have comb : ∀ c : SComb, (∀ id ty b, c ≠ .abst id ty b) → SComb.Proper c → (SComb.den c).Known true → (SComb.den c).Known false := by
    intro c hc hp hk
    cases c with
    | abst id ty b => exact absurd rfl (hc id ty b)
    | prod id A B => exact hk
    | appl f args =>
      rw [SComb.Proper] at hp
      simp only [SComb.den, STerm.denList_eq, Tm.known_apps, Bool.false_and] at hk ⊢
      refine ⟨?_, hk.2⟩
      cases args with
      | nil =>
        obtain ⟨s, rfl⟩ := hp.2.2 rfl
        trivial
      | cons a args => simpa using hk.1
  cases t with
  | scomb c =>
    rw [STerm.Proper] at hp
    exact comb c (by rintro id ty b rfl; cases h) hp hk
  | lcomb c =>
    rw [STerm.Proper] at hp
    have := comb (SComb.ofL c) (by
      cases c with
      | abst id ty b => cases h
      | appl f args => intro id ty b h; cases h
      | prod id A B => intro id ty b h; cases h) ((SComb.proper_ofL _).2 hp) (by simpa [STerm.den] using hk)
    simpa [STerm.den] using this
  | _ => trivial

theorem STerm.proper_getAbst {t : STerm} {id : Str} {ty : Option STerm} {b : STerm} (h : t.getAbst = some (id, ty, b)) (hp : t.Proper) :
    STerm.ProperOpt ty ∧ b.Proper := by
  have h' : t.getComb = some (.abst id ty b) := by
    unfold STerm.getAbst at h
    split at h
    · cases h; rfl
    · cases h; rfl
    · cases h
  rw [STerm.proper_getComb h', SComb.Proper] at hp
  exact hp

/-- if the types of abstractions are known there is no complaint about them -/
structure IOpsKnown (ic : IOps) : Prop where
  inf : ∀ lc t, t.Proper → t.den.Known false → NoDfa (ic.inf lc t)
  chk : ∀ lc t ty, t.Proper → t.den.Known true → NoDfa (ic.chk lc t ty)

section
variable {ic : IOps} (hic : IOpsKnown ic)
include hic

theorem IOpsKnown.inferArgs {o : Ops} (ho : OpsNE o) : ∀ (args : List STerm) (ty : STerm) (lc : LCtx),
    (∀ a ∈ args, a.Proper ∧ a.den.Known true) → NoDfa (inferArgs o ic args ty lc)
  | [], _, _, _ => .pure _
  | arg :: args, ty, lc, h => by
    unfold Kontroli.inferArgs
    refine .bind (NoErr.whnfTerm ho ty).noDfa fun w => .bind (.okOr (by decide) _) fun p =>
      .bind (hic.chk lc arg _ (h arg List.mem_cons_self).1 (h arg List.mem_cons_self).2) fun r => ?_
    split
    · exact .bind (NoErr.subst _ _).noDfa fun ty => IOpsKnown.inferArgs ho args ty _ fun a ha => h a (List.mem_cons_of_mem _ ha)
    · exact .throw (by decide)

theorem IOpsKnown.bindOfType {lc : LCtx} {arg t : STerm} (p1 : arg.Proper) (h1 : arg.den.Known false) (p2 : t.Proper) (h2 : t.den.Known false) :
    NoDfa (bindOfType ic lc arg fun lc => ic.inf lc t) := by
  unfold Kontroli.bindOfType
  refine .bind (hic.inf lc arg p1 h1) fun r => ?_
  split
  · exact .bind (hic.inf _ t p2 h2) fun _ => .pure _
  · exact .throw (by decide)

theorem IOpsKnown.inferComb {o : Ops} (ho : OpsNE o) (lc : LCtx) (c : SComb) (hp : SComb.Proper c) (h : (SComb.den c).Known false) :
    NoDfa (inferComb o ic lc c) := by
  cases c with
  | appl f args =>
    simp only [SComb.den, STerm.denList_eq, Tm.known_apps, List.forall_mem_map, Bool.false_and] at h
    rw [SComb.Proper] at hp
    exact .bind (hic.inf lc f hp.1 h.1) fun r => IOpsKnown.inferArgs hic ho args _ _ fun a ha =>
      ⟨(STerm.properList_iff _).1 hp.2.1 a ha, h.2 a ha⟩
  | prod id A B =>
    simp only [SComb.den, Tm.Known] at h
    rw [SComb.Proper] at hp
    refine .bind (IOpsKnown.bindOfType hic hp.1 h.1 hp.2 h.2) fun r => ?_
    split
    · exact .pure _
    · exact .pure _
    · exact .throw (by decide)
  | abst id A b =>
    rw [SComb.Proper] at hp
    cases A with
    | none => simp [SComb.den, STerm.denAbs, Tm.Known] at h
    | some A =>
      simp only [SComb.den, STerm.denAbs, Tm.Known] at h
      rw [STerm.ProperOpt] at hp
      refine .bind (IOpsKnown.bindOfType hic hp.1 h.1 hp.2 h.2) fun r => ?_
      split
      · exact .throw (by decide)
      · exact .pure _

theorem IOpsKnown.inferBody {gc : GCtx} {o : Ops} (ho : OpsNE o) (lc : LCtx) (t : STerm) (hp : t.Proper) (h : t.den.Known false) :
    NoDfa (inferBody gc o ic lc t) := by
  cases t with
  | kind => exact .throw (by decide)
  | type => exact .pure _
  | const c => exact .bind (.okOr (by decide) _) fun _ => .pure _
  | var v =>
    refine .bind ?_ fun _ => .pure _
    unfold lctxGet
    cases lc[v]? with
    | none => exact .throw (by decide)
    | some t => exact (NoErr.shift _ _).noDfa
  | scomb c =>
    rw [STerm.Proper] at hp
    exact IOpsKnown.inferComb hic ho lc c hp h
  | lcomb c =>
    have : (SComb.den (SComb.ofL c)).Known false := by simpa [STerm.den] using h
    rw [STerm.Proper] at hp
    exact IOpsKnown.inferComb hic ho lc _ ((SComb.proper_ofL _).2 hp) this

theorem IOpsKnown.checkBody {o : Ops} (ho : OpsNE o) (lc : LCtx) (t ty : STerm) (hp : t.Proper) (h : t.den.Known true) :
    NoDfa (checkBody o ic lc t ty) := by
  unfold Kontroli.checkBody
  split
  · next id argTy b hab =>
    obtain ⟨p1, p2⟩ := STerm.proper_getAbst hab hp
    rw [STerm.den_getAbst hab] at h
    refine .bind (NoErr.whnfTerm ho ty).noDfa fun w => .bind (.okOr (by decide) _) fun p => ?_
    cases argTy with
    | none =>
      simp only [STerm.denAbs, Tm.Known] at h
      exact .bind (.pure _) fun r => by
        split
        · exact .bind (hic.chk _ b _ p2 h.2) fun _ => .pure _
        · exact .pure _
    | some A =>
      simp only [STerm.denAbs, Tm.Known] at h
      rw [STerm.ProperOpt] at p1
      refine .bind ?_ fun r => ?_
      · exact .bind (hic.inf lc A p1 h.1) fun _ => .bind (ho.cv _).noDfa fun _ => .pure _
      · split
        · exact .bind (hic.chk _ b _ p2 h.2) fun _ => .pure _
        · exact .pure _
  · next hab => exact .bind (hic.inf lc t hp (STerm.known_getAbst hab hp h)) fun _ => .bind (ho.cv _).noDfa fun _ => .pure _

end

theorem iopsKnown (gc : GCtx) (n : Nat) : IOpsKnown (iops gc n) := by
  induction n with
  | zero => exact ⟨fun _ _ _ _ => NoErr.timeout.noDfa, fun _ _ _ _ _ => NoErr.timeout.noDfa⟩
  | succ n ih =>
    exact ⟨fun lc t p h => IOpsKnown.inferBody ih (opsNE gc n) lc t p h, fun lc t ty p h => IOpsKnown.checkBody ih (opsNE gc n) lc t ty p h⟩

/-! ## What is accepted has known types -/

/-- a value, if there is one, has a property -/
def Yields {α : Type} (m : M α) (Φ : α → Prop) : Prop := ∀ s a s', m s = .ok (a, s') → Φ a

section
variable {α β : Type}
theorem Yields.trivial {m : M α} : Yields m fun _ => True := fun _ _ _ _ => True.intro
theorem Yields.pure {a : α} {Φ : α → Prop} (h : Φ a) : Yields (M.pure a) Φ := by
  intro s b s' hb
  cases hb
  exact h
theorem Yields.throw {e : KError} {Φ : α → Prop} : Yields (M.throw e) Φ := by
  intro s b s' hb
  cases hb
theorem Yields.bind {m : M α} {f : α → M β} {Φ : α → Prop} {Ψ : β → Prop} (h : Yields m Φ) (h' : ∀ a, Φ a → Yields (f a) Ψ) :
    Yields (M.bind m f) Ψ := by
  intro s b s' hb
  unfold M.bind at hb
  split at hb
  · next a s1 h1 => exact h' a (h _ _ _ h1) _ _ _ hb
  all_goals cases hb
theorem Yields.mono {m : M α} {Φ Ψ : α → Prop} (h : Yields m Φ) (h' : ∀ a, Φ a → Ψ a) : Yields m Ψ := fun s a s' hs => h' a (h s a s' hs)
end

/-- if a type is inferred, or a check says yes, the types of abstractions are known -/
structure IOpsFound (ic : IOps) : Prop where
  inf : ∀ lc t, Yields (ic.inf lc t) fun _ => t.den.Known false
  chk : ∀ lc t ty, Yields (ic.chk lc t ty) fun r => r.1 = true → t.den.Known true

section
variable {ic : IOps} (hic : IOpsFound ic)
include hic

theorem IOpsFound.inferArgs {o : Ops} : ∀ (args : List STerm) (ty : STerm) (lc : LCtx),
    Yields (inferArgs o ic args ty lc) fun _ => ∀ a ∈ args, a.den.Known true
  | [], _, _ => .pure (by simp)
  | arg :: args, ty, lc => by
    unfold Kontroli.inferArgs
    refine .bind .trivial fun w _ => .bind .trivial fun p _ => .bind (hic.chk lc arg _) fun r hr => ?_
    split
    · next hb =>
      refine .bind .trivial fun ty _ => (IOpsFound.inferArgs args ty _).mono fun _ h => ?_
      rw [List.forall_mem_cons]
      exact ⟨hr hb, h⟩
    · exact .throw

theorem IOpsFound.bindOfType {lc : LCtx} {arg t : STerm} :
    Yields (bindOfType ic lc arg fun lc => ic.inf lc t) fun _ => arg.den.Known false ∧ t.den.Known false := by
  unfold Kontroli.bindOfType
  refine .bind (hic.inf lc arg) fun r h1 => ?_
  split
  · exact .bind (hic.inf _ t) fun _ h2 => .pure ⟨h1, h2⟩
  · exact .throw

theorem IOpsFound.inferComb {o : Ops} (lc : LCtx) (c : SComb) : Yields (inferComb o ic lc c) fun _ => (SComb.den c).Known false := by
  cases c with
  | appl f args =>
    simp only [SComb.den, STerm.denList_eq, Tm.known_apps, List.forall_mem_map, Bool.false_and]
    exact .bind (hic.inf lc f) fun r h1 => (IOpsFound.inferArgs hic args _ _).mono fun _ h2 => ⟨h1, h2⟩
  | prod id A B =>
    simp only [SComb.den, Tm.Known]
    refine .bind (IOpsFound.bindOfType hic) fun r h => ?_
    split
    · exact .pure h
    · exact .pure h
    · exact .throw
  | abst id A b =>
    cases A with
    | none => exact .throw
    | some A =>
      simp only [SComb.den, STerm.denAbs, Tm.Known]
      refine .bind (IOpsFound.bindOfType hic) fun r h => ?_
      split
      · exact .throw
      · exact .pure h

theorem IOpsFound.inferBody {gc : GCtx} {o : Ops} (lc : LCtx) (t : STerm) : Yields (inferBody gc o ic lc t) fun _ => t.den.Known false := by
  cases t with
  | kind => exact .throw
  | type => exact .pure True.intro
  | const c => exact fun _ _ _ _ => True.intro
  | var v => exact fun _ _ _ _ => True.intro
  | scomb c => exact IOpsFound.inferComb hic lc c
  | lcomb c =>
    refine (IOpsFound.inferComb hic (o := o) lc (SComb.ofL c)).mono fun _ h => ?_
    simpa [STerm.den] using h

theorem IOpsFound.checkBody {o : Ops} (lc : LCtx) (t ty : STerm) : Yields (checkBody o ic lc t ty) fun r => r.1 = true → t.den.Known true := by
  unfold Kontroli.checkBody
  split
  · next id argTy b hab =>
    rw [STerm.den_getAbst hab]
    refine .bind .trivial fun w _ => .bind .trivial fun p _ => ?_
    cases argTy with
    | none =>
      simp only [STerm.denAbs, Tm.Known]
      refine .bind .trivial fun r _ => ?_
      split
      · exact .bind (hic.chk _ b _) fun r h => .pure fun hb => ⟨True.intro, h hb⟩
      · exact .pure fun hb => by cases hb
    | some A =>
      simp only [STerm.denAbs, Tm.Known]
      refine .bind (Φ := fun _ => A.den.Known false) ?_ fun r h1 => ?_
      · exact .bind (hic.inf lc A) fun _ h => .bind .trivial fun _ _ => .pure h
      · split
        · exact .bind (hic.chk _ b _) fun r h => .pure fun hb => ⟨h1, h hb⟩
        · exact .pure fun hb => by cases hb
  · exact .bind (hic.inf lc t) fun _ h => .bind .trivial fun _ _ => .pure fun _ => h.mono

end

theorem iopsFound (gc : GCtx) (n : Nat) : IOpsFound (iops gc n) := by
  induction n with
  | zero => exact ⟨fun _ _ _ _ _ h => (by cases h), fun _ _ _ _ _ _ h => (by cases h)⟩
  | succ n ih => exact ⟨fun lc t => IOpsFound.inferBody ih lc t, fun lc t ty => IOpsFound.checkBody ih lc t ty⟩

end Kontroli
