import Verif.Spec.Share
import Verif.Proofs.Symbols
import Mathlib.Tactic.Tauto

/-!
# Lemmas on sharing
-/

namespace Kontroli

/-- the first unknown constant -/
def firstBad (s : Symbols) (cs : List PSymb) : Option PSymb := cs.find? fun c => (s.get c.path c.name).isNone

/-- `v`, unless a constant is unknown -/
def spec {α : Type} (s : Symbols) (cs : List PSymb) (v : α) : Except ShareError α :=
  match firstBad s cs with
  | some c => .error (.undeclaredSymbol c.display)
  | none => .ok v

theorem spec_nil {α : Type} {s : Symbols} {v : α} : spec s [] v = .ok v := rfl

theorem firstBad_append {s : Symbols} {cs cs' : List PSymb} :
    firstBad s (cs ++ cs') = (firstBad s cs).or (firstBad s cs') := List.find?_append

theorem spec_ok_iff {α : Type} {s : Symbols} {cs : List PSymb} {v w : α} :
    spec s cs v = .ok w ↔ (∀ c ∈ cs, s.Known c) ∧ w = v := by
  unfold spec firstBad Symbols.Known
  have : (cs.find? fun c => (s.get c.path c.name).isNone) = none ↔ ∀ c ∈ cs, ∃ sym, s.Resolves c.path c.name sym := by
    rw [List.find?_eq_none]
    refine forall₂_congr fun c _ => ?_
    simp only [Option.isNone_iff_eq_none, ← Symbols.get_some]
    exact Option.ne_none_iff_exists'
  rw [← this]
  cases List.find? (fun c => (s.get c.path c.name).isNone) cs with
  | some c => simp
  | none => simp [eq_comm]

theorem spec_error_iff {α : Type} {s : Symbols} {cs : List PSymb} {v : α} {e : ShareError} :
    spec s cs v = .error e ↔ ∃ pre c post, cs = pre ++ c :: post ∧ (∀ c' ∈ pre, s.Known c') ∧ ¬ s.Known c ∧
      e = .undeclaredSymbol c.display := by
  have hk : ∀ c : PSymb, ¬ s.Known c ↔ (s.get c.path c.name).isNone = true := by
    intro c
    unfold Symbols.Known
    simp only [← Symbols.get_some, Option.isNone_iff_eq_none]
    rw [← Option.ne_none_iff_exists']
    exact Decidable.not_not
  have hk' : ∀ c : PSymb, s.Known c ↔ (!(s.get c.path c.name).isNone) = true := by
    intro c
    have := hk c
    rw [Bool.not_eq_true', ← Bool.not_eq_true, ← this, Classical.not_not]
  unfold spec firstBad
  cases hf : List.find? (fun c => (s.get c.path c.name).isNone) cs with
  | none =>
    rw [List.find?_eq_none] at hf
    simp only [reduceCtorEq, false_iff]
    rintro ⟨pre, c, post, rfl, -, h, -⟩
    exact hf c (by simp) ((hk c).1 h)
  | some c =>
    rw [List.find?_eq_some_iff_append] at hf
    obtain ⟨h1, pre, post, h2, h3⟩ := hf
    simp only [Except.error.injEq]
    constructor
    · rintro rfl
      exact ⟨pre, c, post, h2, fun c' hc' => (hk' c').2 (h3 c' hc'), (hk c).2 h1, rfl⟩
    · rintro ⟨pre', c', post', h4, h5, h6, rfl⟩
      -- the first unknown constant is unique
      have : c = c' := by
        have e1 : List.find? (fun c => (s.get c.path c.name).isNone) cs = some c :=
          List.find?_eq_some_iff_append.2 ⟨h1, pre, post, h2, h3⟩
        have e2 : List.find? (fun c => (s.get c.path c.name).isNone) cs = some c' :=
          List.find?_eq_some_iff_append.2 ⟨(hk c').1 h6, pre', post', h4, fun x hx => (hk' x).1 (h5 x hx)⟩
        rw [e1] at e2
        simpa using e2
      rw [this]

theorem display_eq (c : PSymb) : c.display = c.dotted := by
  unfold PSymb.display PSymb.dotted
  induction c.path with
  | nil => simp [List.intercalate]
  | cons p ps ih =>
    rw [List.foldr_cons, ih]
    cases ps with
    | nil => simp [List.intercalate]
    | cons q qs => simp [List.intercalate]

mutual
  theorem share_spec (s : Symbols) : (t : PTerm Atom) → t.share s = spec s t.consts (t.resolve s.sym)
    | .app h [] => by
      rw [PTerm.share, PTerm.consts, PTerm.resolve, headShare_spec s h, PTerm.constsList]
      simp only [spec, List.append_nil]
      cases firstBad s h.consts <;> rfl
    | .app h (a :: as) => by
      rw [PTerm.share, PTerm.consts, PTerm.resolve, headShare_spec s h, PTerm.constsList, share_spec s a, shareList_spec s as]
      simp only [spec, firstBad_append]
      cases firstBad s h.consts <;> cases firstBad s a.consts <;> cases firstBad s (PTerm.constsList as) <;> rfl
  theorem headShare_spec (s : Symbols) : (h : PHead Atom) → h.share s = spec s h.consts (h.resolve s.sym)
    | .atom (.const c) => by
      rw [PHead.share, PHead.consts, PHead.resolve]
      unfold PSymb.share spec firstBad Symbols.sym
      cases h : s.get c.path c.name <;> simp [h]
    | .atom (.var n) => by rw [PHead.share, PHead.consts, PHead.resolve]; rfl
    | .atom .type => by rw [PHead.share, PHead.consts, PHead.resolve]; rfl
    | .abst x ty tm => by
      rw [PHead.share, PHead.consts, PHead.resolve, shareOpt_spec s ty, share_spec s tm]
      simp only [spec, firstBad_append]
      cases firstBad s (PTerm.constsOpt ty) <;> cases firstBad s tm.consts <;> rfl
    | .prod x ty tm => by
      rw [PHead.share, PHead.consts, PHead.resolve, share_spec s ty, share_spec s tm]
      simp only [spec, firstBad_append]
      cases firstBad s ty.consts <;> cases firstBad s tm.consts <;> rfl
  theorem shareList_spec (s : Symbols) : (ts : List (PTerm Atom)) →
      PTerm.shareList s ts = spec s (PTerm.constsList ts) (PTerm.resolveList s.sym ts)
    | [] => by rw [PTerm.shareList, PTerm.constsList, PTerm.resolveList]; rfl
    | t :: ts => by
      rw [PTerm.shareList, PTerm.constsList, PTerm.resolveList, share_spec s t, shareList_spec s ts]
      simp only [spec, firstBad_append]
      cases firstBad s t.consts <;> cases firstBad s (PTerm.constsList ts) <;> rfl
  theorem shareOpt_spec (s : Symbols) : (t : Option (PTerm Atom)) →
      PTerm.shareOpt s t = spec s (PTerm.constsOpt t) (PTerm.resolveOpt s.sym t)
    | none => by rw [PTerm.shareOpt, PTerm.constsOpt, PTerm.resolveOpt]; rfl
    | some t => by
      rw [PTerm.shareOpt, PTerm.constsOpt, PTerm.resolveOpt, share_spec s t]
      simp only [spec]
      cases firstBad s t.consts <;> rfl
end

mutual
  theorem resolve_den (f : PSymb → Sym) : (t : PTerm Atom) → (t.resolve f).den = t.den f
    | .app h [] => by rw [PTerm.resolve, PTerm.den, headResolve_den f h, PTerm.denList, Tm.apps]
    | .app h (a :: as) => by
      rw [PTerm.resolve, PTerm.den, LTerm.den, LComb.den, headResolve_den f h, PTerm.denList, LTerm.denList, resolve_den f a,
        resolveList_den f as]
  theorem headResolve_den (f : PSymb → Sym) : (h : PHead Atom) → (h.resolve f).den = h.den f
    | .atom (.const c) => by rw [PHead.resolve, PHead.den, LTerm.den]
    | .atom (.var n) => by rw [PHead.resolve, PHead.den, LTerm.den]
    | .atom .type => by rw [PHead.resolve, PHead.den, LTerm.den]
    | .abst x none tm => by
      rw [PHead.resolve, PHead.den, LTerm.den, LComb.den, PTerm.resolveOpt, LTerm.denAbs, resolve_den f tm]
    | .abst x (some ty) tm => by
      rw [PHead.resolve, PHead.den, LTerm.den, LComb.den, PTerm.resolveOpt, LTerm.denAbs, resolve_den f tm, resolve_den f ty]
    | .prod x ty tm => by rw [PHead.resolve, PHead.den, LTerm.den, LComb.den, resolve_den f tm, resolve_den f ty]
  theorem resolveList_den (f : PSymb → Sym) : (ts : List (PTerm Atom)) →
      LTerm.denList (PTerm.resolveList f ts) = PTerm.denList f ts
    | [] => by rw [PTerm.resolveList, PTerm.denList, LTerm.denList]
    | t :: ts => by rw [PTerm.resolveList, PTerm.denList, LTerm.denList, resolve_den f t, resolveList_den f ts]
end

/-! ## Introductions -/

theorem introShare_spec (s : Symbols) (it : Intro (PTerm Atom)) : it.share s = spec s it.consts (it.resolve s.sym) := by
  cases it with
  | definition ty tm =>
    rw [Intro.share, Intro.consts, Intro.resolve, shareOpt_spec s ty, shareOpt_spec s tm]
    simp only [spec, firstBad_append]
    cases firstBad s (PTerm.constsOpt ty) <;> cases firstBad s (PTerm.constsOpt tm) <;> rfl
  | theorem_ ty tm =>
    rw [Intro.share, Intro.consts, Intro.resolve, share_spec s ty, share_spec s tm]
    simp only [spec, firstBad_append]
    cases firstBad s ty.consts <;> cases firstBad s tm.consts <;> rfl
  | declaration inj ty =>
    rw [Intro.share, Intro.consts, Intro.resolve, share_spec s ty]
    simp only [spec]
    cases firstBad s ty.consts <;> rfl

/-- wrapping of reversed parameters -/
def wrapArgs (f : PSymb → Sym) : List (Str × PTerm Atom) → Intro LTerm → Intro LTerm
  | [], it => it
  | (x, A) :: args, it => wrapArgs f args (wrapArg x (A.resolve f) it)

theorem shareArgs_spec (s : Symbols) (args : List (Str × PTerm Atom)) (it : Intro LTerm) :
    shareArgs s args it = spec s (argConsts args) (wrapArgs s.sym args it) := by
  induction args generalizing it with
  | nil => rfl
  | cons a args ih =>
    obtain ⟨x, A⟩ := a
    rw [shareArgs, wrapArgs, argConsts, List.flatMap_cons, share_spec s A]
    simp only [spec, firstBad_append]
    cases firstBad s A.consts with
    | some c => rfl
    | none => exact ih _

theorem telescopeType_consts (args : List (Str × PTerm Atom)) (t : PTerm Atom) :
    (telescopeType args t).consts = argConsts args ++ t.consts := by
  induction args with
  | nil => rfl
  | cons a args ih =>
    obtain ⟨x, A⟩ := a
    simp [telescopeType, PTerm.new, PTerm.consts, PHead.consts, PTerm.constsList, ih, argConsts]

theorem telescopeTerm_consts (args : List (Str × PTerm Atom)) (t : PTerm Atom) :
    (telescopeTerm args t).consts = argConsts args ++ t.consts := by
  induction args with
  | nil => rfl
  | cons a args ih =>
    obtain ⟨x, A⟩ := a
    simp [telescopeTerm, PTerm.new, PTerm.consts, PHead.consts, PTerm.constsList, PTerm.constsOpt, ih, argConsts]

theorem wrapArgs_append (f : PSymb → Sym) (as bs : List (Str × PTerm Atom)) (it : Intro LTerm) :
    wrapArgs f (as ++ bs) it = wrapArgs f bs (wrapArgs f as it) := by
  induction as generalizing it with
  | nil => rfl
  | cons a as ih => obtain ⟨x, A⟩ := a; exact ih _

theorem telescope_resolve (f : PSymb → Sym) (args : List (Str × PTerm Atom)) (it : Intro (PTerm Atom)) :
    (it.telescope args).resolve f = wrapArgs f args.reverse (it.resolve f) := by
  induction args with
  | nil =>
    cases it with
    | definition ty tm =>
      cases ty <;> cases tm <;> rfl
    | _ => rfl
  | cons a args ih =>
    obtain ⟨x, A⟩ := a
    rw [List.reverse_cons, wrapArgs_append, ← ih]
    cases it with
    | definition ty tm =>
      cases ty <;> cases tm <;> simp [Intro.telescope, Intro.resolve, wrapArgs, wrapArg, Intro.mapType, Intro.mapTerm,
        PTerm.resolveOpt, telescopeType, telescopeTerm, PTerm.new, PTerm.resolve, PHead.resolve]
    | theorem_ ty tm => simp [Intro.telescope, Intro.resolve, wrapArgs, wrapArg, Intro.mapType, Intro.mapTerm,
        PTerm.resolveOpt, telescopeType, telescopeTerm, PTerm.new, PTerm.resolve, PHead.resolve]
    | declaration inj ty => simp [Intro.telescope, Intro.resolve, wrapArgs, wrapArg, Intro.mapType, Intro.mapTerm,
        telescopeType, PTerm.new, PTerm.resolve, PHead.resolve]

theorem mem_telescope_consts (args : List (Str × PTerm Atom)) (it : Intro (PTerm Atom)) (h : it ≠ .definition none none) (c : PSymb) :
    c ∈ (it.telescope args).consts ↔ c ∈ it.consts ∨ c ∈ argConsts args := by
  cases it with
  | definition ty tm =>
    cases ty <;> cases tm <;>
      simp [Intro.telescope, Intro.consts, PTerm.constsOpt, telescopeType_consts, telescopeTerm_consts] at h ⊢ <;> tauto
  | theorem_ ty tm => simp [Intro.telescope, Intro.consts, telescopeType_consts, telescopeTerm_consts]; tauto
  | declaration inj ty => simp [Intro.telescope, Intro.consts, telescopeType_consts]; tauto

/-! ## Patterns -/

/-- value of a success -/
def Except.toOpt {ε α : Type} : Except ε α → Option α
  | .ok a => some a
  | .error _ => none

mutual
  theorem ofL_complete (f : PSymb → Sym) (n : Nat) : (t : PTerm Atom) → FOPat t →
      ∃ p, Pattern.ofL (t.resolve f) = .ok p ∧ PatOf f n t (p.joke n)
    | .app (.atom (.const c)) [], _ =>
      ⟨.symb (f c) [], by rw [PTerm.resolve, PHead.resolve, Pattern.ofL],
        by rw [Pattern.joke, Pattern.jokeList]; exact .symb rfl (by simp)⟩
    | .app (.atom (.var i)) [], _ => by
      refine ⟨.mvar i, by rw [PTerm.resolve, PHead.resolve, Pattern.ofL], ?_⟩
      rw [Pattern.joke]
      split
      · next h => subst h; exact .wild
      · next h => exact .var h
    | .app (.atom (.const c)) (a :: as), h => by
      have ha : ∀ x ∈ a :: as, FOPat x := by cases h with | symb h => exact h
      obtain ⟨p, h1, h2⟩ := ofL_complete f n a (ha a (by simp))
      obtain ⟨ps, h3, h4, h5⟩ := ofLList_complete f n as fun x hx => ha x (by simp [hx])
      refine ⟨.symb (f c) (p :: ps), ?_, ?_⟩
      · rw [PTerm.resolve, PHead.resolve, Pattern.ofL, Pattern.ofL, Pattern.ofLList, h1, h3]
        rfl
      · rw [Pattern.joke, Pattern.jokeList]
        refine .symb (by simp [h4]) ?_
        intro i hi hi'
        cases i with
        | zero => exact h2
        | succ i => exact h5 i (by simpa using hi) (by simpa using hi')
    | .app (.atom (.var i)) (a :: as), h => by cases h
    | .app (.atom .type) _, h => by cases h
    | .app (.abst _ _ _) _, h => by cases h
    | .app (.prod _ _ _) _, h => by cases h
  theorem ofLList_complete (f : PSymb → Sym) (n : Nat) : (ts : List (PTerm Atom)) → (∀ t ∈ ts, FOPat t) →
      ∃ ps, Pattern.ofLList (PTerm.resolveList f ts) = .ok ps ∧ ts.length = (Pattern.jokeList n ps).length ∧
        ∀ i (h : i < ts.length) (h' : i < (Pattern.jokeList n ps).length), PatOf f n ts[i] (Pattern.jokeList n ps)[i]
    | [], _ => ⟨[], by rw [PTerm.resolveList, Pattern.ofLList], by rw [Pattern.jokeList]; rfl, by simp⟩
    | t :: ts, h => by
      obtain ⟨p, h1, h2⟩ := ofL_complete f n t (h t (by simp))
      obtain ⟨ps, h3, h4, h5⟩ := ofLList_complete f n ts fun x hx => h x (by simp [hx])
      refine ⟨p :: ps, by rw [PTerm.resolveList, Pattern.ofLList, h1, h3], by rw [Pattern.jokeList]; simp [h4], ?_⟩
      intro i hi hi'
      simp only [Pattern.jokeList]
      cases i with
      | zero => exact h2
      | succ i => exact h5 i (by simpa using hi) (by rw [Pattern.jokeList] at hi'; simpa using hi')
end

mutual
  theorem ofL_sound (f : PSymb → Sym) : (t : PTerm Atom) → (p : Pattern) → Pattern.ofL (t.resolve f) = .ok p → FOPat t
    | .app (.atom (.const c)) [], _, _ => .symb (by simp)
    | .app (.atom (.var i)) [], _, _ => .var
    | .app (.atom (.const c)) (a :: as), p, h => by
      rw [PTerm.resolve, PHead.resolve, Pattern.ofL, Pattern.ofL, Pattern.ofLList] at h
      cases ha : Pattern.ofL (a.resolve f) with
      | error e => rw [ha] at h; simp at h
      | ok q =>
        rw [ha] at h
        cases hs : Pattern.ofLList (PTerm.resolveList f as) with
        | error e => rw [hs] at h; simp at h
        | ok qs =>
          have h1 := ofL_sound f a q ha
          have h2 := ofLList_sound f as qs hs
          refine .symb ?_
          intro x hx
          rcases List.mem_cons.1 hx with rfl | hx
          · exact h1
          · exact h2 x hx
    | .app (.atom (.var i)) (a :: as), p, h => by
      rw [PTerm.resolve, PHead.resolve, Pattern.ofL, Pattern.ofL] at h
      simp at h
    | .app (.atom .type) [], p, h => by rw [PTerm.resolve, PHead.resolve, Pattern.ofL] at h; simp at h
    | .app (.atom .type) (a :: as), p, h => by rw [PTerm.resolve, PHead.resolve, Pattern.ofL, Pattern.ofL] at h; simp at h
    | .app (.abst _ _ _) [], p, h => by rw [PTerm.resolve, PHead.resolve, Pattern.ofL] at h; simp at h
    | .app (.abst _ _ _) (a :: as), p, h => by rw [PTerm.resolve, PHead.resolve, Pattern.ofL, Pattern.ofL] at h; simp at h
    | .app (.prod _ _ _) [], p, h => by rw [PTerm.resolve, PHead.resolve, Pattern.ofL] at h; simp at h
    | .app (.prod _ _ _) (a :: as), p, h => by rw [PTerm.resolve, PHead.resolve, Pattern.ofL, Pattern.ofL] at h; simp at h
  theorem ofLList_sound (f : PSymb → Sym) : (ts : List (PTerm Atom)) → (ps : List Pattern) →
      Pattern.ofLList (PTerm.resolveList f ts) = .ok ps → ∀ t ∈ ts, FOPat t
    | [], _, _ => by simp
    | t :: ts, ps, h => by
      rw [PTerm.resolveList, Pattern.ofLList] at h
      cases ha : Pattern.ofL (t.resolve f) with
      | error e => rw [ha] at h; simp at h
      | ok q =>
        rw [ha] at h
        cases hs : Pattern.ofLList (PTerm.resolveList f ts) with
        | error e => rw [hs] at h; simp at h
        | ok qs =>
          have h1 := ofL_sound f t q ha
          have h2 := ofLList_sound f ts qs hs
          intro x hx
          rcases List.mem_cons.1 hx with rfl | hx
          · exact h1
          · exact h2 x hx
end

/-- the constants of a rule context -/
def ctxConsts (ctx : List (Str × Option (PTerm Atom))) : List PSymb := ctx.flatMap fun a => PTerm.constsOpt a.2

theorem shareCtx_spec (s : Symbols) (ctx : List (Str × Option (PTerm Atom))) :
    shareCtx s ctx = spec s (ctxConsts ctx) (ctx.map fun a => (a.1, PTerm.resolveOpt s.sym a.2)) := by
  induction ctx with
  | nil => rfl
  | cons a ctx ih =>
    obtain ⟨x, A⟩ := a
    rw [shareCtx, ctxConsts, List.flatMap_cons, shareOpt_spec s A, ih]
    simp only [spec, firstBad_append, ctxConsts]
    cases firstBad s (PTerm.constsOpt A) <;> cases firstBad s (List.flatMap (fun a => PTerm.constsOpt a.2) ctx) <;> rfl

end Kontroli
