import Verif.Proofs.Web

/-!
# C50: the web checker
-/

namespace Kontroli

/-- C50. A single text that is accepted with all stages is a program whose statements are right by the textbook, and if the program is
regular, it is correct, and every abstraction without a type stands where its type is known. -/
theorem C50_single_sound (k : Kern) (hk : k.Real) (text : Str) (eta : Bool) (gc : GCtx) (h : CheckSingle k text eta 3 gc (.ok ())) :
    ∃ cs, WholeTextOf text cs ∧ ProgramSound (cs.map (Entry.mk [str "main"])) gc.theory ∧
      (RegularIn eta (cs.map (Entry.mk [str "main"])) →
        CorrectIn eta (cs.map (Entry.mk [str "main"])) gc.theory ∧ Directed (cs.map (Entry.mk [str "main"]))) := by
  have h' : Consume k ⟨eta, none, false⟩ ([(str "main", text)].flatMap fun m => webEvents m.1 m.2) gc (.ok ()) := by
    rw [List.flatMap_singleton]
    exact h
  obtain ⟨es, h1, h2, h3⟩ := web_sound hk rfl rfl h'
  cases h1 with
  | @cons _ _ cs _ _ ht hn =>
    cases hn
    rw [List.append_nil] at h2 h3
    exact ⟨cs, ht, h2, h3⟩

/-- C50. Checking a regular single text that comes to an end accepts if and only if the text is a correct program in which every
abstraction without a type stands where its type is known. -/
theorem C50_single_exact (k : Kern) (hk : k.Exact) (text : Str) (eta : Bool)
    (hR : ∀ cs, WholeTextOf text cs → RegularIn eta (cs.map (Entry.mk [str "main"]))) (gc : GCtx) (res : Out Unit)
    (h : CheckSingle k text eta 3 gc res) (ht : res ≠ .timeout) :
    res = .ok () ↔ ∃ cs T, WholeTextOf text cs ∧ CorrectIn eta (cs.map (Entry.mk [str "main"])) T ∧ Directed (cs.map (Entry.mk [str "main"])) := by
  constructor
  · rintro rfl
    obtain ⟨cs, h1, -, h3⟩ := C50_single_sound k hk.real text eta gc h
    exact ⟨cs, _, h1, h3 (hR cs h1)⟩
  · rintro ⟨cs, T, h1, h2, hd⟩
    have h' : Consume k ⟨eta, none, false⟩ ([(str "main", text)].flatMap fun m => webEvents m.1 m.2) gc res := by
      rw [List.flatMap_singleton]
      exact h
    have hp : WebProgramOf [(str "main", text)] (cs.map (Entry.mk [str "main"])) := by
      have := WebProgramOf.cons (name := str "main") h1 .nil
      rwa [List.append_nil] at this
    exact (web_accepts hk rfl rfl hp (hR cs h1) h2 hd h').resolve_right ht

/-- C50. If a module is accepted with all stages, it is the first program of that name, its dependencies have names and texts, and these form a program
whose statements are right by the textbook. -/
theorem C50_multiple_sound (k : Kern) (hk : k.Real) (fetch : Str → Option Str) (programs : List WebProgram) (main : Str) (eta : Bool) (gc : GCtx)
    (h : CheckMultiple k fetch programs main eta 3 gc (some (.ok ()))) :
    ∃ before p after ms es, programs = before ++ p :: after ∧ p.name = main ∧ (∀ q ∈ before, q.name ≠ main) ∧
      List.Forall₂ (fun a m => (∃ suffix, a.1 = m.1 ++ suffix ∧ utf8Len suffix = 3) ∧ fetch a.2 = some m.2) (p.dependency.zip p.urls) ms ∧
      WebProgramOf ms es ∧ ProgramSound es gc.theory ∧ (RegularIn eta es → CorrectIn eta es gc.theory ∧ Directed es) := by
  unfold CheckMultiple at h
  simp only [getOmit] at h
  split at h
  · cases h.2
  · next p hp =>
    split at h
    · cases h.2
    · next ms hms =>
      obtain ⟨r, h1, h2⟩ := h
      cases h1
      obtain ⟨es, h3, h4, h5⟩ := web_sound hk rfl rfl h2
      obtain ⟨hname, before, after, rfl, hb⟩ := List.find?_eq_some_iff_append.1 hp
      refine ⟨before, p, after, ms, es, rfl, of_decide_eq_true hname, ?_, ?_, h3, h4, h5⟩
      · intro q hq hn
        have := hb q hq
        simp [hn] at this
      · refine (webModules_iff.1 hms).imp fun a m hm => ⟨?_, hm.2⟩
        have hd := hm.1
        unfold dropDk at hd
        split at hd
        · cases hd
        · obtain ⟨u, hu, hl⟩ := sliceTo_iff.1 hd
          refine ⟨u, hu, ?_⟩
          have := congrArg utf8Len hu
          rw [utf8Len_append] at this
          omega

/-- C50. The name of a module is the name of its file without the last three bytes; the code panics if there is no such name. -/
theorem C50_name (filename name : Str) : dropDk filename = some name ↔ ∃ suffix, filename = name ++ suffix ∧ utf8Len suffix = 3 := by
  unfold dropDk
  constructor
  · intro h
    split at h
    · cases h
    · obtain ⟨u, hu, hl⟩ := sliceTo_iff.1 h
      refine ⟨u, hu, ?_⟩
      have := congrArg utf8Len hu
      rw [utf8Len_append] at this
      omega
  · rintro ⟨u, rfl, hl⟩
    rw [utf8Len_append, if_neg (by omega), hl, Nat.add_sub_cancel]
    exact sliceTo_iff.2 ⟨u, rfl, rfl⟩

/-- C50. Checking a module whose dependencies have names and texts: if it is regular and checking comes to an end, it is accepted if and only if the
texts form a correct program in which every abstraction without a type stands where its type is known. -/
theorem C50_multiple_exact (k : Kern) (hk : k.Exact) (fetch : Str → Option Str) (before after : List WebProgram) (p : WebProgram) (eta : Bool)
    (hb : ∀ q ∈ before, q.name ≠ p.name) (ms : List (Str × Str))
    (hms : List.Forall₂ (fun a m => (∃ suffix, a.1 = m.1 ++ suffix ∧ utf8Len suffix = 3) ∧ fetch a.2 = some m.2) (p.dependency.zip p.urls) ms)
    (hR : ∀ es, WebProgramOf ms es → RegularIn eta es) (gc : GCtx) (res : Option (Out Unit))
    (h : CheckMultiple k fetch (before ++ p :: after) p.name eta 3 gc res) (ht : res ≠ some .timeout) :
    res = some (.ok ()) ↔ ∃ es T, WebProgramOf ms es ∧ CorrectIn eta es T ∧ Directed es := by
  have hfind : (before ++ p :: after).find? (fun q => q.name = p.name) = some p :=
    List.find?_eq_some_iff_append.2 ⟨by simp, before, after, rfl, fun q hq => by simp [hb q hq]⟩
  have hmods : webModules fetch (p.dependency.zip p.urls) = some ms := webModules_iff.2 (hms.imp fun a m hm => ⟨(C50_name _ _).2 hm.1, hm.2⟩)
  unfold CheckMultiple at h
  rw [hfind] at h
  simp only [getOmit, hmods] at h
  obtain ⟨r, rfl, h2⟩ := h
  constructor
  · intro hr
    cases hr
    obtain ⟨es, h3, -, h5⟩ := web_sound hk.real rfl rfl h2
    exact ⟨es, _, h3, h5 (hR es h3)⟩
  · rintro ⟨es, T, h3, h4, hd⟩
    rcases web_accepts hk rfl rfl h3 (hR es h3) h4 hd h2 with rfl | rfl
    · rfl
    · exact absurd rfl ht

/-- C50. A module that is not there is not checked, and nothing is said. -/
theorem C50_missing (k : Kern) (fetch : Str → Option Str) (programs : List WebProgram) (main : Str) (eta : Bool) (gc : GCtx) (res : Option (Out Unit))
    (hm : ∀ p ∈ programs, p.name ≠ main) (h : CheckMultiple k fetch programs main eta 3 gc res) : res = none := by
  have hfind : programs.find? (fun q => q.name = main) = none := List.find?_eq_none.2 fun q hq => by simp [hm q hq]
  unfold CheckMultiple at h
  rw [hfind] at h
  exact h.2

/-- C50. Dependencies without an address are left out without a word: the verdict depends only on the pairs. -/
theorem C50_truncated (k : Kern) (fetch : Str → Option Str) (name : Str) (deps urls more : List Str) (hl : deps.length = urls.length) (eta : Bool)
    (level : Nat) (gc : GCtx) (res : Option (Out Unit)) :
    CheckMultiple k fetch [⟨name, deps ++ more, urls⟩] name eta level gc res ↔ CheckMultiple k fetch [⟨name, deps, urls⟩] name eta level gc res := by
  have hz : (deps ++ more).zip urls = deps.zip urls := by
    induction deps generalizing urls with
    | nil => cases urls with
      | nil => simp
      | cons => cases hl
    | cons d deps ih => cases urls with
      | nil => cases hl
      | cons u urls => simp only [List.cons_append, List.zip_cons_cons, ih urls (by simpa using hl)]
  unfold CheckMultiple
  simp [hz]

/-! ## Examples -/

theorem Out.isOk_unit {o : Out Unit} (h : o.isOk = true) : o = .ok () := by
  obtain ⟨⟨⟩, h⟩ := Out.isOk_iff.1 h
  exact h

/-- the verdict on a list of modules -/
def Example.webVerdict (ms : List (Str × Str)) (eta : Bool := false) : Out Unit :=
  (inferChecksSeq (Kern.std 30 fun _ => true) ⟨eta, none, false⟩ (GCtx.start eta) (allCmds ⟨eta, none, false⟩ ShState.new (ms.map webFile))).2

theorem Example.web (ms : List (Str × Str)) (eta : Bool := false) :
    ∃ gc, Consume (Kern.std 30 fun _ => true) ⟨eta, none, false⟩ (ms.flatMap fun m => webEvents m.1 m.2) gc (Example.webVerdict ms eta) :=
  ⟨_, (consume_web rfl).2 rfl⟩

/-- A text that is accepted. -/
example : ∃ gc, CheckSingle (Kern.std 30 fun _ => true) (str "A : Type. a : A. thm b : A := a.") false 3 gc (.ok ()) := by
  have := Example.web [(str "main", str "A : Type. a : A. thm b : A := a.")]
  rwa [List.flatMap_singleton, Out.isOk_unit (o := Example.webVerdict [(str "main", str "A : Type. a : A. thm b : A := a.")]) (by decide +kernel)] at this

/-- A text that is not: the theorem has the wrong type. -/
example : ∃ gc e, CheckSingle (Kern.std 30 fun _ => true) (str "A : Type. a : A. thm b : Type := a.") false 3 gc (.err e) := by
  obtain ⟨gc, h⟩ := Example.web [(str "main", str "A : Type. a : A. thm b : Type := a.")]
  rw [List.flatMap_singleton] at h
  have hres : (Example.webVerdict [(str "main", str "A : Type. a : A. thm b : Type := a.")]).isErr = true := by decide +kernel
  generalize Example.webVerdict [(str "main", str "A : Type. a : A. thm b : Type := a.")] = res at h hres
  cases res with
  | err e => exact ⟨gc, e, h⟩
  | ok => cases hres
  | panic => cases hres
  | timeout => cases hres

/-- The text of the example is regular, so checking it exactly tells whether it is correct. -/
example : ∃ cs T, WholeTextOf (str "A : Type. a : A.") cs ∧ Correct (cs.map (Entry.mk [str "main"])) T ∧
    Directed (cs.map (Entry.mk [str "main"])) := by
  have ht : WholeTextOf (str "A : Type. a : A.") [.intro (str "A") [] (.declaration false (.new (.atom ⟨[], str "Type"⟩))),
      .intro (str "a") [] (.declaration false (.new (.atom ⟨[], str "A"⟩)))] := (C47_strict _ _).1 rfl
  obtain ⟨gc, h⟩ := Example.web [(str "main", str "A : Type. a : A.")]
  rw [List.flatMap_singleton, Out.isOk_unit (o := Example.webVerdict [(str "main", str "A : Type. a : A.")]) (by decide +kernel)] at h
  refine (C50_single_exact _ (Kern.std_exact ..) _ false ?_ gc _ h (fun e => nomatch e)).1 rfl
  intro cs hcs
  rw [hcs.unique ht]
  exact .static (by simp)

/-- A module with a dependency. -/
example : ∃ gc, CheckMultiple (Kern.std 30 fun _ => true) (fun u => if u = str "u" then some (str "A : Type.") else some (str "a : m.A."))
    [⟨str "x", [], []⟩, ⟨str "y", [str "m.dk", str "y.dk"], [str "u", str "v"]⟩] (str "y") false 3 gc (some (.ok ())) := by
  obtain ⟨gc, h⟩ := Example.web [(str "m", str "A : Type."), (str "y", str "a : m.A.")]
  rw [Out.isOk_unit (o := Example.webVerdict [(str "m", str "A : Type."), (str "y", str "a : m.A.")]) (by decide +kernel)] at h
  exact ⟨gc, _, rfl, h⟩

example : dropDk (str "nat.dk") = some (str "nat") := by decide
/-- Names that do not end in three bytes of characters lead to a panic. -/
example : dropDk (str "dk") = none ∧ dropDk (str "é∀") = some (str "é") ∧ dropDk (str "∀a") = none := by decide

#print axioms C50_single_sound
#print axioms C50_single_exact
#print axioms C50_multiple_sound
#print axioms C50_multiple_exact
#print axioms C50_name
#print axioms C50_missing
#print axioms C50_truncated

end Kontroli
