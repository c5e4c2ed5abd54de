import Verif.Model.Web
import Verif.Spec.Web
import Verif.Props.Correct
import Verif.Props.Grammar

/-!
# The web checker: proofs
-/

namespace Kontroli

/-- a module as a file -/
def webFile (m : Str × Str) : ParsedFile :=
  ⟨[m.1], (strict scopeAtom m.2).map fun i => match i with
    | .ok c => .ok c
    | .err _ => .err .parse
    | .panic => .panic⟩

theorem webEvents_produce (ms : List (Str × Str)) :
    produce ((ms.map webFile).map .ok) = (ms.flatMap fun m => webEvents m.1 m.2, .ok ()) := by
  induction ms with
  | nil => rfl
  | cons m ms ih =>
    rw [List.map_cons, List.map_cons, produce, ih, List.flatMap_cons]
    simp only [webFile, webEvents, List.map_map, List.cons_append]
    congr 4
    funext i
    cases i <;> rfl

theorem strict_all_ok {text : Str} {cs : List (PCmd (PTerm PSymb))} (h : WholeTextOf text cs) :
    strict scopeAtom text = cs.map fun c => .ok c.scope := by
  have h1 := (C47_strict text cs).2 h
  have h2 := C24_strict text
  rw [h1] at h2
  have hup : ∀ cs : List (PCmd (PTerm PSymb)), upToError (cs.map (POut.ok (ε := ParseError))) = cs.map .ok := by
    intro cs
    induction cs with
    | nil => rfl
    | cons c cs ih => rw [List.map_cons, upToError, ih]
  rw [hup, List.map_map] at h2
  have hall : ∀ (l : List (POut ParseError (PCmd (PTerm Atom)))) (cs : List (PCmd (PTerm PSymb))),
      upToError l = cs.map (scopeItem ∘ POut.ok) → l = cs.map fun c => .ok c.scope := by
    intro l
    induction l with
    | nil => intro cs h; cases cs with
      | nil => rfl
      | cons c cs => cases h
    | cons a l ih =>
      intro cs h
      cases a with
      | ok a =>
        cases cs with
        | nil => cases h
        | cons c cs =>
          rw [upToError, List.map_cons, List.cons.injEq] at h
          rw [ih cs h.2, List.map_cons, h.1]
          rfl
      | err e =>
        cases cs with
        | nil => cases h
        | cons c cs => simp only [upToError, List.map_cons, List.cons.injEq] at h; cases h.1
      | panic =>
        cases cs with
        | nil => cases h
        | cons c cs => simp only [upToError, List.map_cons, List.cons.injEq] at h; cases h.1
  exact hall _ _ h2

theorem webFile_of {name text : Str} {cs : List (PCmd (PTerm PSymb))} (h : WholeTextOf text cs) :
    webFile (name, text) = ⟨[name], cs.map fun c => .ok c.scope⟩ := by
  rw [webFile]
  simp only [strict_all_ok h, List.map_map]
  rfl

theorem webFile_ok {name text : Str} (h : ∀ c ∈ (webFile (name, text)).cmds, c.isOk = true) : ∃ cs, WholeTextOf text cs := by
  have h2 := C24_strict text
  have h1 : ∀ i ∈ strict scopeAtom text, ∃ c, i = .ok c := by
    intro i hi
    cases i with
    | ok c => exact ⟨c, rfl⟩
    | err e => have := h (.err .parse) (List.mem_map.2 ⟨_, hi, rfl⟩); cases this
    | panic => have := h .panic (List.mem_map.2 ⟨_, hi, rfl⟩); cases this
  have hup : ∀ l : List (POut ParseError (PCmd (PTerm Atom))), (∀ i ∈ l, ∃ c, i = .ok c) → upToError l = l := by
    intro l
    induction l with
    | nil => intro _; rfl
    | cons a l ih =>
      intro h
      obtain ⟨c, rfl⟩ := h a List.mem_cons_self
      rw [upToError, ih fun i hi => h i (List.mem_cons_of_mem _ hi)]
  rw [hup _ h1] at h2
  have hall : ∀ (l : List (POut ParseError (PCmd (PTerm PSymb)))), (∀ i ∈ (upToError l).map scopeItem, ∃ c, i = .ok c) →
      ∃ cs : List (PCmd (PTerm PSymb)), l = cs.map .ok := by
    intro l
    induction l with
    | nil => intro _; exact ⟨[], rfl⟩
    | cons a l ih =>
      intro h
      cases a with
      | ok a =>
        obtain ⟨cs, rfl⟩ := ih fun i hi => h i (by rw [upToError, List.map_cons]; exact List.mem_cons_of_mem _ hi)
        exact ⟨a :: cs, rfl⟩
      | err e => obtain ⟨c, hc⟩ := h (.err e) (by simp [upToError, scopeItem]); cases hc
      | panic => obtain ⟨c, hc⟩ := h .panic (by simp [upToError, scopeItem]); cases hc
  obtain ⟨cs, hcs⟩ := hall _ (h2 ▸ h1)
  exact ⟨cs, (C47_strict text cs).1 hcs⟩

theorem keepShare_all {opt : Opt} (ho : opt.omitted = none) (cs : List (Out Scoped)) : cs.filter (keepShare opt) = cs := by
  rw [List.filter_eq_self]
  intro c _
  simp [keepShare, Opt.omits, ho]

theorem web_spec {opt : Opt} (ho : opt.omitted = none) {ms : List (Str × Str)} {st : ShState} {ns : List (List Str × Str)} (h : SymInv st ns)
    (hok : ∀ c ∈ allCmds opt st (ms.map webFile), c.isOk = true) :
    ∃ es cmds, WebProgramOf ms es ∧ allCmds opt st (ms.map webFile) = cmds.map .ok ∧ Shared ns es cmds := by
  induction ms generalizing st ns with
  | nil => exact ⟨[], [], .nil, rfl, .nil⟩
  | cons m ms ih =>
    obtain ⟨name, text⟩ := m
    have hparsed := allCmds_ok st _ hok
    obtain ⟨cs, h1⟩ := webFile_ok (hparsed _ List.mem_cons_self)
    have hinv := h.setPath [name]
    have hpath : (st.syms.setPath [name]).path = [name] := Symbols.setPath_path
    simp only [List.map_cons, allCmds, fileCmds, keepShare_all ho, webFile_of h1, List.mem_append] at hok ⊢
    obtain ⟨cmds, h3, h4, h5⟩ := shareAll_spec hinv cs fun c hc => hok c (.inl hc)
    simp only [hpath] at h4 h5
    obtain ⟨es, cmds', h7, h8, h9⟩ := ih h4 fun c hc => hok c (.inr hc)
    exact ⟨_, cmds ++ cmds', .cons h1 h7, by rw [h3, h8, List.map_append], h5 _ _ h9⟩

theorem web_complete {opt : Opt} (ho : opt.omitted = none) {ms : List (Str × Str)} {es : List Entry} (hp : WebProgramOf ms es)
    {st : ShState} {ns : List (List Str × Str)} (h : SymInv st ns) {cmds : List Cmd} (hs : Shared ns es cmds) :
    allCmds opt st (ms.map webFile) = cmds.map .ok := by
  induction hp generalizing st ns cmds with
  | nil => cases hs; rfl
  | @cons name text cs mods es ht _ ih =>
    have hinv := h.setPath [name]
    have hpath : (st.syms.setPath [name]).path = [name] := Symbols.setPath_path
    obtain ⟨cmds1, cmds2, rfl, h1, h2, h3⟩ := shareAll_complete hinv (cs := cs) (es := es) (cmds := cmds) (by rw [hpath]; exact hs)
    simp only [List.map_cons, allCmds, fileCmds, keepShare_all ho, webFile_of ht]
    rw [h1, ih h2 h3, List.map_append]

theorem consume_web {k : Kern} {opt : Opt} (hj : opt.jobs = false) {ms : List (Str × Str)} {gc : GCtx} {res : Out Unit} :
    Consume k opt (ms.flatMap fun m => webEvents m.1 m.2) gc res ↔
      inferChecksSeq k opt (GCtx.start opt.eta) (allCmds opt ShState.new (ms.map webFile)) = (gc, res) := by
  have h := congrArg Prod.fst (webEvents_produce ms)
  simp only at h
  rw [← h]
  unfold Consume InferChecks
  rw [eventCmds_produce, hj]
  simp only [Bool.false_eq_true, if_false]

theorem web_sound {k : Kern} (hk : k.Real) {opt : Opt} (ho : opt.omitted = none) (hj : opt.jobs = false) {ms : List (Str × Str)} {gc : GCtx}
    (h : Consume k opt (ms.flatMap fun m => webEvents m.1 m.2) gc (.ok ())) :
    ∃ es, WebProgramOf ms es ∧ ProgramSound es gc.theory ∧ (RegularIn opt.eta es → CorrectIn opt.eta es gc.theory ∧ Directed es) := by
  have hrun := (consume_web hj).1 h
  obtain ⟨es, cmds, h1, h2, h3⟩ := web_spec ho SymInv.new (inferChecksSeq_ok_mem hrun)
  rw [h2] at hrun
  refine ⟨es, h1, h3.programSound hk ho hrun, fun hreg => ?_⟩
  rw [inferChecksSeq_all ho] at hrun
  have hS := C66_session_sound k hk opt opt.eta (Opt.omits_none ho _) cmds (h3.full hreg.full) (hreg.ctxs cmds h3) (hreg.orthogonal cmds h3) gc hrun
  exact ⟨⟨cmds, h3, hS⟩, h3.directed hS.noEmpty (C66_session_known k hk opt opt.eta (Opt.omits_none ho _) cmds (h3.full hreg.full) gc hrun)⟩

theorem web_accepts {k : Kern} (hk : k.Exact) {opt : Opt} (ho : opt.omitted = none) (hj : opt.jobs = false)
    {ms : List (Str × Str)} {es : List Entry} {T : Theory} (h1 : WebProgramOf ms es) (hR : RegularIn opt.eta es) (h2 : CorrectIn opt.eta es T) (hd : Directed es) {gc : GCtx} {res : Out Unit}
    (h : Consume k opt (ms.flatMap fun m => webEvents m.1 m.2) gc res) : res = .ok () ∨ res = .timeout := by
  obtain ⟨cmds, h4, h5⟩ := h2
  have hall := web_complete ho h1 SymInv.new h4
  have hp : ∀ cmd ∈ cmds, cmd.Proper := by
    intro cmd hc
    refine allCmds_proper (opt := opt) (st := ShState.new) (files := ms.map webFile) cmd ?_
    rw [hall]
    exact List.mem_map_of_mem hc
  have hC := C66_session_complete k hk opt opt.eta (Opt.omits_none ho _) cmds (h4.known hd) hp (hR.orthogonal cmds h4) T h5
  have h6 := (consume_web hj).1 h
  rw [hall, inferChecksSeq_all ho] at h6
  rw [h6] at hC
  exact hC

theorem WholeTextOf.unique {text : Str} {cs cs' : List (PCmd (PTerm PSymb))} (h : WholeTextOf text cs) (h' : WholeTextOf text cs') : cs = cs' := by
  have := ((C47_strict text cs).2 h).symm.trans ((C47_strict text cs').2 h')
  exact List.map_injective_iff.2 (fun a b h => by cases h; rfl) this

theorem WebProgramOf.unique {ms : List (Str × Str)} {es es' : List Entry} (h : WebProgramOf ms es) (h' : WebProgramOf ms es') : es = es' := by
  induction h generalizing es' with
  | nil => cases h'; rfl
  | cons ht _ ih =>
    cases h' with
    | cons ht' h' => rw [ih h', ht.unique ht']

/-! ## Names of modules -/

theorem utf8Len_append (a b : Str) : utf8Len (a ++ b) = utf8Len a + utf8Len b := by
  induction a with
  | nil => simp [utf8Len]
  | cons c a ih => rw [List.cons_append, utf8Len, utf8Len, ih, Nat.add_assoc]

theorem utf8Len_zero {s : Str} : utf8Len s = 0 ↔ s = [] := by
  cases s with
  | nil => simp [utf8Len]
  | cons c s =>
    have := c.utf8Size_pos
    simp only [utf8Len, reduceCtorEq, iff_false]
    omega

theorem sliceTo_iff {s t : Str} {n : Nat} : sliceTo s n = some t ↔ ∃ u, s = t ++ u ∧ utf8Len t = n := by
  induction s generalizing n t with
  | nil =>
    rw [sliceTo]
    constructor
    · intro h
      split at h
      · next hn => cases h; exact ⟨[], rfl, by rw [hn]; rfl⟩
      · cases h
    · rintro ⟨u, h, h'⟩
      obtain ⟨rfl, rfl⟩ := List.append_eq_nil_iff.1 h.symm
      rw [if_pos (show n = 0 from h'.symm)]
  | cons c s ih =>
    rw [sliceTo]
    have hc := c.utf8Size_pos
    constructor
    · intro h
      split at h
      · next hn => cases h; exact ⟨c :: s, rfl, by rw [hn]; rfl⟩
      · split at h
        · next hle =>
          obtain ⟨t', h1, rfl⟩ := Option.map_eq_some_iff.1 h
          obtain ⟨u, rfl, h2⟩ := ih.1 h1
          exact ⟨u, rfl, by rw [utf8Len, h2]; omega⟩
        · cases h
    · rintro ⟨u, h, rfl⟩
      cases t with
      | nil => rw [if_pos (show utf8Len [] = 0 from rfl)]
      | cons d t =>
        simp only [List.cons_append, List.cons.injEq] at h
        obtain ⟨rfl, rfl⟩ := h
        rw [utf8Len, if_neg (by omega), if_pos (by omega), Nat.add_sub_cancel_left, ih.2 ⟨u, rfl, rfl⟩]
        rfl

theorem webModules_iff {fetch : Str → Option Str} {l ms : List (Str × Str)} :
    webModules fetch l = some ms ↔ List.Forall₂ (fun a m => dropDk a.1 = some m.1 ∧ fetch a.2 = some m.2) l ms := by
  induction l generalizing ms with
  | nil =>
    rw [webModules]
    constructor
    · intro h; cases h; exact .nil
    · intro h; cases h; rfl
  | cons a l ih =>
    obtain ⟨f, u⟩ := a
    rw [webModules]
    constructor
    · intro h
      split at h
      · cases h
      · next name hn =>
        split at h
        · cases h
        · next text ht =>
          obtain ⟨ms', h1, rfl⟩ := Option.map_eq_some_iff.1 h
          exact .cons ⟨hn, ht⟩ (ih.1 h1)
    · intro h
      cases h with
      | @cons _ m _ ms h1 h2 =>
        rw [h1.1]
        simp only
        rw [h1.2]
        simp only
        rw [ih.2 h2]
        rfl

end Kontroli
