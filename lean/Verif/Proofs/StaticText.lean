import Verif.Props.Web

/-! # A test for programs without rewrite rules, for examples -/

namespace Kontroli

mutual
  /-- abstractions without types stand where their types are known -/
  def PTerm.known {A : Type} (g : Bool) : PTerm A → Bool
    | .app h args => PHead.known (g && args.isEmpty) h && knownArgs args
  /-- the same for a head -/
  def PHead.known {A : Type} (g : Bool) : PHead A → Bool
    | .atom _ => true
    | .abst _ ty tm => knownTy g ty && PTerm.known g tm
    | .prod _ ty tm => PTerm.known false ty && PTerm.known false tm
  /-- the same for arguments -/
  def knownArgs {A : Type} : List (PTerm A) → Bool
    | [] => true
    | t :: ts => PTerm.known true t && knownArgs ts
  /-- the same for the type of the variable of an abstraction -/
  def knownTy {A : Type} (g : Bool) : Option (PTerm A) → Bool
    | none => g
    | some t => PTerm.known false t
end

mutual
  theorem PTerm.known_sound {A : Type} {g : Bool} : ∀ {t : PTerm A}, t.known g = true → t.Known g
    | .app _ _, h => by
      rw [PTerm.known, Bool.and_eq_true] at h
      exact ⟨PHead.known_sound h.1, knownArgs_sound h.2⟩
  theorem PHead.known_sound {A : Type} {g : Bool} : ∀ {t : PHead A}, t.known g = true → t.Known g
    | .atom _, _ => trivial
    | .abst _ none _, h => by
      rw [PHead.known, knownTy, Bool.and_eq_true] at h
      exact ⟨h.1, PTerm.known_sound h.2⟩
    | .abst _ (some _) _, h => by
      rw [PHead.known, knownTy, Bool.and_eq_true] at h
      exact ⟨PTerm.known_sound h.1, PTerm.known_sound h.2⟩
    | .prod _ _ _, h => by
      rw [PHead.known, Bool.and_eq_true] at h
      exact ⟨PTerm.known_sound h.1, PTerm.known_sound h.2⟩
  theorem knownArgs_sound {A : Type} : ∀ {ts : List (PTerm A)}, knownArgs ts = true → PTerm.KnownList ts
    | [], _ => trivial
    | _ :: _, h => by
      rw [knownArgs, Bool.and_eq_true] at h
      exact ⟨PTerm.known_sound h.1, knownArgs_sound h.2⟩
end

/-- a parsed introduction where abstractions without types stand where their types are known -/
def staticItem : POut ParseError (PCmd (PTerm PSymb)) → Bool
  | .ok (.intro _ args it) => args.all (fun a => a.2.known false) && it.given.all (PTerm.known false) && it.body.all (PTerm.known it.given.isSome)
  | _ => false

/-- a text of such introductions -/
def staticText (text : Str) : Bool := (strict scopeSymb text).all staticItem

theorem staticText_sound {text : Str} (h : staticText text = true) (m : List Str) {eta : Bool} :
    ∀ cs, WholeTextOf text cs → RegularIn eta (cs.map (Entry.mk m)) ∧ Directed (cs.map (Entry.mk m)) := by
  intro cs hcs
  have hs : ∀ c ∈ cs, staticItem (.ok c) = true := by
    rw [staticText, (C47_strict _ _).2 hcs] at h
    intro c hc
    exact List.all_eq_true.1 h _ (List.mem_map.2 ⟨c, hc, rfl⟩)
  refine ⟨.static ?_, ?_⟩
  · intro e he rs
    obtain ⟨c, hc, rfl⟩ := List.mem_map.1 he
    rintro rfl
    cases hs _ hc
  · intro e he
    obtain ⟨c, hc, rfl⟩ := List.mem_map.1 he
    have := hs c hc
    cases c with
    | rules rs => cases this
    | intro x args it =>
      simp only [staticItem, Bool.and_eq_true, List.all_eq_true] at this
      refine ⟨fun a ha => PTerm.known_sound (this.1.1 a ha), fun t ht => ?_, fun t ht => ?_⟩
      · have := this.1.2
        rw [ht] at this
        exact PTerm.known_sound this
      · have := this.2
        rw [ht] at this
        exact PTerm.known_sound this

/-- A text that is a correct program, with or without eta. -/
def CorrectTextIn (eta : Bool) (text : Str) : Prop := ∃ cs T, WholeTextOf text cs ∧ CorrectIn eta (cs.map (Entry.mk [str "main"])) T

/-- A text that is a correct program. -/
abbrev CorrectText (text : Str) : Prop := CorrectTextIn false text

theorem correctText_of {text : Str} {eta : Bool} (h : staticText text = true) (hv : (Example.webVerdict [(str "main", text)] eta).isOk = true) :
    CorrectTextIn eta text := by
  obtain ⟨gc, hc⟩ := Example.web [(str "main", text)] eta
  rw [List.flatMap_singleton, Out.isOk_unit hv] at hc
  obtain ⟨cs, T, h1, h2, -⟩ := (C50_single_exact _ (Kern.std_exact ..) _ eta (fun cs hcs => (staticText_sound h _ cs hcs).1) gc _ hc (fun e => nomatch e)).1 rfl
  exact ⟨cs, T, h1, h2⟩

theorem not_correctText_of {text : Str} {eta : Bool} (h : ∀ cs, WholeTextOf text cs → RegularIn eta (cs.map (Entry.mk [str "main"])) ∧ Directed (cs.map (Entry.mk [str "main"])))
    (hv : (Example.webVerdict [(str "main", text)] eta).isErr = true) : ¬ CorrectTextIn eta text := by
  obtain ⟨gc, hc⟩ := Example.web [(str "main", text)] eta
  rw [List.flatMap_singleton] at hc
  generalize Example.webVerdict [(str "main", text)] eta = res at hc hv
  cases res with
  | err e =>
    rintro ⟨cs, T, h1, h2⟩
    exact nomatch (C50_single_exact _ (Kern.std_exact ..) _ eta (fun cs hcs => (h cs hcs).1) gc _ hc (fun e => nomatch e)).2 ⟨cs, T, h1, h2, (h cs h1).2⟩
  | ok _ => cases hv
  | panic => cases hv
  | timeout => cases hv

/-- correct, and accepted: the type of `x` is known from the type of `t` -/
example : CorrectText (str "A : Type. f : (A -> A) -> A. thm t : (A -> A) -> A := g => f (x => g x).") :=
  correctText_of (by decide +kernel) (by decide +kernel)

end Kontroli
