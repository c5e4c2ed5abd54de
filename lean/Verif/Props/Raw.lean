import Verif.Proofs.Raw

/-!
# C69: files are bytes

The other properties speak about files that are texts.  A file that is not UTF-8, or that cannot be read although it can be opened, makes the
program panic; all other files are read as the texts that they encode.
-/

namespace Kontroli

/-- **C69.** If the files are texts in UTF-8 then the program does what it does for these texts. -/
theorem C69_same (k : Kern) (opt : Opt) (channel : Option (Option Nat)) (fs : Str → Option Raw) (stdin : Raw) (paths : List Str)
    (fs' : FileSystem) (stdin' : Str) (h : Texts fs stdin paths fs' stdin') (res : Out Unit) :
    MainRaw k opt channel fs stdin paths res ↔ Main k opt channel fs' stdin' paths res := by
  unfold MainRaw Main RunPaths
  rw [h.open]
  cases channel <;> rfl

/-- the parts of C69_accepts: a program that is accepted consists of texts -/
theorem mainRaw_texts {k : Kern} {opt : Opt} {channel : Option (Option Nat)} {fs : Str → Option Raw} {stdin : Raw} {paths : List Str}
    (h : MainRaw k opt channel fs stdin paths (.ok ())) : ∃ fs' stdin', Texts fs stdin paths fs' stdin' := by
  have h1 : ∃ gc, Run k opt (openRaw fs stdin paths) gc (.ok ()) := by
    cases channel with
    | none => exact h
    | some capacity => exact (C53_accepts k opt capacity _ (channel_sendable h)).1.1 h
  obtain ⟨gc, h1⟩ := h1
  obtain ⟨files, h2⟩ := runFiles_ok_files h1
  unfold Run at h1
  rw [h2, runFiles_ok_iff] at h1
  exact texts_of_ok h2 (allCmds_ok _ _ (inferChecksSeq_ok_mem h1))

/-- **C69.** The program accepts exactly if the files are texts in UTF-8 that it accepts. -/
theorem C69_accepts (k : Kern) (opt : Opt) (channel : Option (Option Nat)) (fs : Str → Option Raw) (stdin : Raw) (paths : List Str) :
    MainRaw k opt channel fs stdin paths (.ok ()) ↔
      ∃ fs' stdin', Texts fs stdin paths fs' stdin' ∧ Main k opt channel fs' stdin' paths (.ok ()) := by
  constructor
  · intro h
    obtain ⟨fs', stdin', ht⟩ := mainRaw_texts h
    exact ⟨fs', stdin', ht, (C69_same k opt channel fs stdin paths fs' stdin' ht _).1 h⟩
  · rintro ⟨fs', stdin', ht, h⟩
    exact (C69_same k opt channel fs stdin paths fs' stdin' ht _).2 h

/-- **C69.** Hence a run (conditions as in C53) has the exit status 0 exactly if the files are texts in UTF-8 of a correct and directed program. -/
theorem C69_correct (k : Kern) (hk : k.Exact) (opt : Opt) (ho : opt.omitted = none) (channel : Option (Option Nat))
    (fs : Str → Option Raw) (stdin : Raw) (paths : List Str)
    (hR : ∀ fs' stdin', Texts fs stdin paths fs' stdin' → ∀ srcs es, Sources fs' stdin' paths srcs → ProgramOf srcs es → RegularIn opt.eta es)
    (hd : ∀ fs' stdin', Texts fs stdin paths fs' stdin' → ∃ gc' res', RunPaths k { opt with jobs := false } fs' stdin' paths gc' res' ∧ res' ≠ .timeout)
    (res : Out Unit) (h : MainRaw k opt channel fs stdin paths res) :
    exitStatus res = some 0 ↔ ∃ fs' stdin' srcs es T, Texts fs stdin paths fs' stdin' ∧ Sources fs' stdin' paths srcs ∧ ProgramOf srcs es ∧
      CorrectIn opt.eta es T ∧ Directed es := by
  constructor
  · intro h0
    have hres : res = .ok () := by cases res <;> simp [exitStatus] at h0 ⊢
    subst hres
    obtain ⟨fs', stdin', ht⟩ := mainRaw_texts h
    obtain ⟨gc', res', h1, h2⟩ := hd fs' stdin' ht
    obtain ⟨srcs, es, T, h3⟩ := (C53_main k hk opt ho channel fs' stdin' paths (hR fs' stdin' ht) gc' res' h1 h2 _
      ((C69_same k opt channel fs stdin paths fs' stdin' ht _).1 h)).1 h0
    exact ⟨fs', stdin', srcs, es, T, ht, h3⟩
  · rintro ⟨fs', stdin', srcs, es, T, ht, h3⟩
    obtain ⟨gc', res', h1, h2⟩ := hd fs' stdin' ht
    exact (C53_main k hk opt ho channel fs' stdin' paths (hR fs' stdin' ht) gc' res' h1 h2 _
      ((C69_same k opt channel fs stdin paths fs' stdin' ht _).1 h)).2 ⟨srcs, es, T, h3⟩

/-- **C69.** The program panics only if some file is not a text in UTF-8. -/
theorem C69_panic_only (k : Kern) (hk : k.Exact) (opt : Opt) (channel : Option (Option Nat)) (fs : Str → Option Raw) (stdin : Raw)
    (paths : List Str) (h : MainRaw k opt channel fs stdin paths .panic) : ¬ ∃ fs' stdin', Texts fs stdin paths fs' stdin' := by
  rintro ⟨fs', stdin', ht⟩
  exact C65_no_panic k hk opt channel fs' stdin' paths _ ((C69_same k opt channel fs stdin paths fs' stdin' ht _).1 h) rfl

/-- **C69.** And it does panic, with the exit status 101: if the first file begins with lines that are accepted, and the next line cannot be read or is
not UTF-8, then there is no other outcome (without threads and channel), whatever options and further files there are. -/
theorem C69_panics (k : Kern) (opt : Opt) (hj : opt.jobs = false) (fs : Str → Option Raw) (stdin : Raw) (p : Str) (ps : List Str)
    (hp : isDash p = false) (r : Raw) (hr : fs p = some r) (text : Str) (bad : List UInt8) (hb : r.bytes = utf8 text ++ bad)
    (ht : text = [] ∨ text.getLast? = some '\n') (hu : Unreadable ⟨bad, r.broken⟩)
    (hok : Main k opt none (fun _ => some text) [] [p] (.ok ())) (res : Out Unit) :
    (MainRaw k opt none fs stdin (p :: ps) res ↔ res = .panic) ∧ exitStatus .panic = some 101 := by
  refine ⟨?_, rfl⟩
  obtain ⟨gc, hok⟩ := hok
  have hjobs : ∀ gc cmds gc' res, InferChecks k opt gc cmds gc' res ↔ inferChecksSeq k opt gc cmds = (gc', res) := by
    intro gc cmds gc' res
    unfold InferChecks
    rw [hj]
    simp
  unfold RunPaths Run at hok
  rw [openFiles] at hok
  cases hm : modulePath p with
  | none => rw [hm] at hok; cases hok
  | some path =>
    rw [hm] at hok
    simp only [hp, Bool.false_eq_true, if_false, openFiles] at hok
    have h1 : ∀ c ∈ parseText text, c.isOk = true := by
      have h2 : RunFiles k opt ShState.new (GCtx.start opt.eta) ([(⟨path, parseText text⟩ : ParsedFile)].map .ok) gc (.ok ()) := hok
      exact allCmds_ok _ _ (inferChecksSeq_ok_mem (runFiles_ok_iff.1 h2)) _ List.mem_cons_self
    obtain ⟨js, h2⟩ := parseRaw_panics hb ht hu h1
    have h3 : ∃ gc1, inferChecksSeq k opt (GCtx.start opt.eta) (fileCmds opt ShState.new ⟨path, parseText text⟩).2 = (gc1, .ok ()) := by
      cases hok with
      | next h _ => exact ⟨_, (hjobs ..).1 h⟩
      | fail _ h => cases h
    obtain ⟨gc1, h3⟩ := h3
    have h4 := run_panics (js := js) h3
    rw [← h2] at h4
    have ho : openRaw fs stdin (p :: ps) = .ok ⟨path, parseRaw r⟩ :: openRaw fs stdin ps := by
      rw [openRaw, hm]
      simp [hp, hr]
    unfold MainRaw Run
    simp only [ho]
    constructor
    · rintro ⟨gc2, h⟩
      cases h with
      | next h _ => rw [hjobs, h4] at h; cases h
      | fail h _ => rw [hjobs, h4] at h; cases h; rfl
    · rintro rfl
      exact ⟨gc1, .fail ((hjobs ..).2 h4) rfl⟩

/-! ## Examples -/

/-- one file as bytes -/
def Example.oneRaw (r : Raw) : Str → Option Raw := fun p => if p = str "a.dk" then some r else none

theorem Example.nothing : Main (Kern.std 30 fun _ => true) ⟨false, none, false⟩ none (fun _ => some []) [] [str "a.dk"] (.ok ()) := by
  refine ⟨GCtx.start false, ?_⟩
  show RunFiles _ _ _ _ [.ok ⟨[str "a"], []⟩] _ _
  exact .next rfl .nil

/-- a directory can be opened but not read -/
example (stdin : Raw) : MainRaw (Kern.std 30 fun _ => true) ⟨false, none, false⟩ none (Example.oneRaw ⟨[], true⟩) stdin [str "a.dk"] .panic :=
  (C69_panics _ _ rfl _ stdin _ [] (by decide) _ (if_pos rfl) [] [] rfl (.inl rfl) (.broken (by simp)) Example.nothing _).1.2 rfl

/-- a comment in Latin-1, `(;é;)`, although everything in comments is ignored -/
example (stdin : Raw) : MainRaw (Kern.std 30 fun _ => true) ⟨false, none, false⟩ none (Example.oneRaw ⟨[40, 59, 0xE9, 59, 41], false⟩) stdin [str "a.dk"] .panic :=
  (C69_panics _ _ rfl _ stdin _ [] (by decide) _ (if_pos rfl) [] [40, 59, 0xE9, 59, 41] rfl (.inl rfl)
    (.last (by decide) fun t h => by have h1 := fromUtf8_iff.2 h; revert h1; simp [show fromUtf8 [40, 59, 0xE9, 59, 41] = none from by decide +kernel])
    Example.nothing _).1.2 rfl

/-- the same comment in UTF-8 -/
example : Texts (Example.oneRaw ⟨[40, 59, 0xC3, 0xA9, 59, 41], false⟩) Raw.empty [str "a.dk"] (Example.oneFile (str "(;é;)")) [] where
  none p hp _ h := by
    rw [List.mem_singleton.1 hp] at h
    cases h
  some p hp _ r h := by
    rw [List.mem_singleton.1 hp] at h ⊢
    cases h
    exact ⟨_, rfl, rfl, by decide +kernel⟩
  stdin p hp h := ⟨rfl, rfl⟩

#print axioms C69_same
#print axioms C69_accepts
#print axioms C69_correct
#print axioms C69_panic_only
#print axioms C69_panics

end Kontroli
