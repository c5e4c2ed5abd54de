import Verif.Proofs.CorrectProgram
import Verif.Proofs.StaticProgram

/-!
# The commands that are delivered to the kernel before something fails
-/

namespace Kontroli

/-! ## The commands of a text before a syntax error -/

/-- the tokens that were read make the commands -/
theorem lazyRun_tokens (lines : List Str) (n : Nat) (st : PState PSymb) (ctx : PCtx PSymb) :
    ∃ ts st' ctx', pRun scopeSymb st ctx ts = ((lazyRun scopeSymb lines n st ctx).1, .more st' ctx') ∧ ∀ t ∈ ts, ∃ l ∈ lines, ∃ m, t ∈ lexFrom m l := by
  induction lines generalizing n st ctx with
  | nil => exact ⟨[], st, ctx, rfl, nofun⟩
  | cons l lines ih =>
    unfold lazyRun
    split
    · exact ⟨[], st, ctx, rfl, nofun⟩
    · exact ⟨[], st, ctx, rfl, nofun⟩
    · next cs st1 ctx1 he =>
      obtain ⟨ts, st', ctx', h1, h2⟩ := ih (openOf (lexFrom n l)) st1 ctx1
      refine ⟨lexFrom n l ++ ts, st', ctx', ?_, ?_⟩
      · rw [pRun_append, he]
        simp only [PEnd.andThen, h1]
      · intro t ht
        rcases List.mem_append.1 ht with ht | ht
        · exact ⟨l, List.mem_cons_self, n, ht⟩
        · obtain ⟨l', h3, h4⟩ := h2 t ht
          exact ⟨l', List.mem_cons_of_mem _ h3, h4⟩

/-- the commands of a text, up to the first syntax error -/
def textCmds (text : Str) : List (PCmd (PTerm PSymb)) := (lazyRun scopeSymb (splitLines [] text) 0 PState.new PCtx.new).1

theorem parseText_split (text : Str) : ∃ rest : List (Out Scoped), parseText text = (textCmds text).map (fun c => .ok c.scope) ++ rest ∧
    (rest = [] ∨ ∃ x l, rest = x :: l ∧ x.isOk = false) := by
  have hlen := lazyRun_length scopeSymb (splitLines [] text) 0 PState.new PCtx.new
  have hlen' := splitLines_length [] text
  have h3 := lazyRun_scope (splitLines [] text) 0 PState.new PCtx.new PState.new_clean
  rw [show (PState.new : PState PSymb).scope PCtx.new = PState.new from rfl, show (PCtx.new : PCtx PSymb).scope = PCtx.new from rfl] at h3
  have h1 := items_run scopeAtom (splitLines [] text) (text.length + 3) 0 PState.new PCtx.new PState.new_open
  unfold textCmds
  cases hr : lazyRun scopeSymb (splitLines [] text) 0 PState.new PCtx.new with
  | mk cs e =>
    rw [hr] at h3 hlen
    rw [h3] at h1
    simp only [List.length_nil, Nat.zero_add] at hlen hlen'
    cases e with
    | none =>
      refine ⟨[], ?_, .inl rfl⟩
      simp only at h1
      have h1 : (LazyP.new (splitLines [] text)).items scopeAtom (text.length + 3) = _ := h1
      unfold parseText
      rw [h1, List.take_of_length_le (by simp; omega)]
      simp
    | some e =>
      simp only at h1
      have h1 : ((LazyP.new (splitLines [] text)).items scopeAtom (text.length + 3)).take _ = _ := h1
      rw [List.take_of_length_le (l := _ ++ _) (by simp; omega)] at h1
      have h4 := List.take_append_drop ((cs.map PCmd.scope).length + 1) ((LazyP.new (splitLines [] text)).items scopeAtom (text.length + 3))
      rw [h1] at h4
      unfold parseText
      rw [← h4]
      simp only [List.map_append, List.map_map, List.map_cons, List.map_nil, List.append_assoc, List.singleton_append, List.cons_append, List.nil_append]
      refine ⟨_, rfl, .inr ⟨_, _, rfl, ?_⟩⟩
      cases e <;> rfl

theorem parseText_timeout (text : Str) : .timeout ∉ parseText text := by
  intro h
  obtain ⟨i, -, h⟩ := List.mem_map.1 h
  cases i <;> cases h

/-! ## Texts without arrows for rules -/

theorem longArrow_lexStep {s r : Str} (h : lexStep s = some (some .longArrow, r)) : ∃ r', s = str "-->" ++ r' := by
  have hs : ∀ name rest, (lexSymb name rest).1 ≠ .longArrow := by
    intro name rest
    unfold lexSymb
    split <;> simp
  unfold lexStep at h
  split at h
  case h_10 s => exact ⟨s, rfl⟩
  case h_5 =>
    unfold comment1 at h
    split at h <;> simp at h
  case h_15 =>
    unfold moustache at h
    split at h
    · simp at h
    · simp only [Option.some.injEq, Prod.mk.injEq] at h
      exact absurd h.1 (hs _ _)
  case h_16 =>
    unfold lexOther at h
    split at h
    · simp at h
    · split at h
      · simp only [Option.some.injEq, Prod.mk.injEq] at h
        refine absurd h.1 ?_
        unfold lexIdent
        split
        · simp
        · split
          · simp
          · split
            · simp
            · exact hs _ _
      · simp at h
  all_goals simp at h

theorem longArrow_lexN {n : Nat} {s : Str} (h : .longArrow ∈ lexN n s) : str "-->" <:+: s := by
  induction n generalizing s with
  | zero => simp [lexN] at h
  | succ n ih =>
    unfold lexN at h
    split at h
    · simp at h
    · next r hr => exact (ih h).trans (lexStep_suffix hr).isInfix
    · next t r hr =>
      rcases List.mem_cons.1 h with rfl | h
      · obtain ⟨r', rfl⟩ := longArrow_lexStep hr
        exact (List.prefix_append _ _).isInfix
      · exact (ih h).trans (lexStep_suffix hr).isInfix

theorem longArrow_lexFrom {n : Nat} {s : Str} (h : .longArrow ∈ lexFrom n s) : str "-->" <:+: s := by
  unfold lexFrom at h
  split at h
  · next r hr =>
    have := comment_suffix n s
    rw [hr] at this
    exact (longArrow_lexN h).trans this.isInfix
  · simp at h

theorem splitLines_infix (acc s l : Str) (h : l ∈ splitLines acc s) : l <:+: acc ++ s := by
  fun_induction splitLines acc s with
  | case1 => simp at h
  | case2 acc hn => simp at h; subst h; simp
  | case3 acc s ih =>
    rcases List.mem_cons.1 h with rfl | h
    · refine List.IsInfix.trans ?_ (List.prefix_append acc _).isInfix
      split
      · exact (List.dropLast_prefix acc).isInfix
      · exact List.infix_refl _
    · refine (ih h).trans ?_
      exact ⟨acc ++ ['\n'], [], by simp⟩
  | case4 acc c s hn ih => simpa using ih h

theorem GRules.arrow {ts : List Token} {rs : List (PRule (PTerm PSymb))} (h : GRules ts rs) (hn : rs ≠ []) : .longArrow ∈ ts := by
  cases h with
  | nil => exact absurd rfl hn
  | cons => simp

theorem GText.arrow {ts : List Token} {cs : List (PCmd (PTerm PSymb))} (h : GText ts cs) {rs : List (PRule (PTerm PSymb))} (hr : .rules rs ∈ cs) :
    .longArrow ∈ ts := by
  induction h with
  | nil => simp at hr
  | cmd hc _ ih =>
    rcases List.mem_cons.1 hr with e | hr
    · subst e
      cases hc with
      | rules hn h => exact List.mem_append_left _ (h.arrow hn)
    · exact List.mem_append_right _ (List.mem_cons_of_mem _ (ih hr))
  | pragma _ _ ih => exact List.mem_append_right _ (List.mem_cons_of_mem _ (ih hr))

/-- a text with rules has the arrow of rules -/
theorem textCmds_arrow {text : Str} {rs : List (PRule (PTerm PSymb))} (h : .rules rs ∈ textCmds text) : str "-->" <:+: text := by
  obtain ⟨ts, st, ctx, h1, h2⟩ := lazyRun_tokens (splitLines [] text) 0 PState.new PCtx.new
  obtain ⟨as, bs, h3, h4, -⟩ := pRun_sound ts [] .start h1
  have h5 : .longArrow ∈ ts := by
    have : .longArrow ∈ [] ++ ts.filter Token.plain := h3 ▸ List.mem_append_left _ (h4.arrow h)
    exact List.mem_of_mem_filter (by simpa using this)
  obtain ⟨l, hl, m, hm⟩ := h2 _ h5
  exact (longArrow_lexFrom hm).trans (splitLines_infix [] text l hl)

/-! ## The commands of some files before a failure -/

/-- the commands of some files, up to the first file that cannot be opened -/
def delivered (opt : Opt) : ShState → List (Out ParsedFile) → List (Out Cmd)
  | _, [] => []
  | st, .ok f :: fs => (fileCmds opt st f).2 ++ delivered opt (fileCmds opt st f).1 fs
  | _, .err e :: _ => [.err e]
  | _, .panic :: _ => [.panic]
  | _, .timeout :: _ => [.timeout]

theorem keepShare_none {opt : Opt} (ho : opt.omitted = none) {α : Type} (cs : List (Out α)) : cs.filter (keepShare opt) = cs := by
  rw [List.filter_eq_self]
  intro c _
  simp [keepShare, Opt.omits, ho]

theorem keepInfer_all {opt : Opt} (ho : opt.omitted = none) (cs : List (Out Cmd)) : cs.filter (keepInfer opt) = cs := by
  rw [List.filter_eq_self]
  intro c _
  simp [keepInfer, Opt.omits, ho]

theorem runFiles_iff {k : Kern} {opt : Opt} (ho : opt.omitted = none) (hj : opt.jobs = false) {st : ShState} {gc gc' : GCtx}
    {files : List (Out ParsedFile)} {res : Out Unit} :
    RunFiles k opt st gc files gc' res ↔ seqLoop k opt gc (delivered opt st files) = (gc', res) := by
  have hseq : ∀ gc cs gc' res, InferChecks k opt gc cs gc' res ↔ seqLoop k opt gc cs = (gc', res) := by
    intro gc cs gc' res
    unfold InferChecks inferChecksSeq
    rw [hj, keepInfer_all ho]
    simp
  constructor
  · intro h
    induction h with
    | nil => rfl
    | next h1 _ ih =>
      rw [hseq] at h1
      rw [delivered, seqLoop_append, h1]
      exact ih
    | fail h1 h2 =>
      rw [hseq] at h1
      rw [delivered, seqLoop_append, h1]
      split
      · next e => cases e; cases h2
      · rfl
    | openErr => rfl
    | openPanic => rfl
    | openTimeout => rfl
  · intro h
    induction files generalizing st gc with
    | nil => cases h; exact .nil
    | cons f fs ih =>
      cases f with
      | ok f =>
        rw [delivered, seqLoop_append] at h
        split at h
        · next gc1 e => exact .next ((hseq _ _ _ _).2 e) (ih h)
        · next hn =>
          refine .fail ((hseq _ _ _ _).2 h) ?_
          cases res with
          | ok u => exact absurd h (hn gc')
          | _ => rfl
      | err e => cases h; exact .openErr
      | panic => cases h; exact .openPanic
      | timeout => cases h; exact .openTimeout

theorem shareAll_append (st : ShState) (as bs : List (Out Scoped)) :
    shareAll st (as ++ bs) = ((shareAll (shareAll st as).1 bs).1, (shareAll st as).2 ++ (shareAll (shareAll st as).1 bs).2) := by
  induction as generalizing st with
  | nil => rfl
  | cons a as ih => simp only [List.cons_append, shareAll, ih]

theorem shareAll_length (st : ShState) (as : List (Out Scoped)) : (shareAll st as).2.length = as.length := by
  induction as generalizing st with
  | nil => rfl
  | cons a as ih => simp [shareAll, ih]

theorem shareAll_take (st : ShState) (as : List (Out Scoped)) (n : Nat) : (shareAll st (as.take n)).2 = (shareAll st as).2.take n := by
  induction as generalizing st n with
  | nil => simp [shareAll]
  | cons a as ih =>
    cases n with
    | zero => rfl
    | succ n => simp only [List.take_succ_cons, shareAll, ih]

theorem shareCmd_timeout (st : ShState) (c : Scoped) : (shareCmd st c).2 ≠ .timeout := by
  unfold shareCmd
  split
  · simp
  · split <;> simp
  · simp

theorem shareAll_timeout {st : ShState} {as : List (Out Scoped)} (h : .timeout ∉ as) : .timeout ∉ (shareAll st as).2 := by
  induction as generalizing st with
  | nil => simp [shareAll]
  | cons a as ih =>
    rw [List.mem_cons, not_or] at h
    simp only [shareAll, List.mem_cons, not_or]
    refine ⟨?_, ih h.2⟩
    cases a with
    | ok c => exact fun e => shareCmd_timeout st c e.symm
    | timeout => exact absurd rfl h.1
    | _ => simp [shareStep]

/-- the texts that can be read -/
def Readable (fs : FileSystem) (stdin : Str) (paths : List Str) (text : Str) : Prop := text = stdin ∨ text = [] ∨ ∃ p ∈ paths, fs p = some text

theorem openFiles_readable {fs : FileSystem} {stdin : Str} {paths : List Str} {f : ParsedFile} (h : .ok f ∈ openFiles fs stdin paths) :
    ∃ text, Readable fs stdin paths text ∧ f.cmds = parseText text := by
  induction paths generalizing stdin with
  | nil => simp [openFiles] at h
  | cons p ps ih =>
    have later : ∀ {stdin'}, (stdin' = stdin ∨ stdin' = []) → .ok f ∈ openFiles fs stdin' ps → ∃ text, Readable fs stdin (p :: ps) text ∧ f.cmds = parseText text := by
      intro stdin' hs h
      obtain ⟨text, h1, h2⟩ := ih h
      refine ⟨text, ?_, h2⟩
      rcases h1 with rfl | rfl | ⟨q, hq, h1⟩
      · exact hs.imp_right .inl
      · exact .inr (.inl rfl)
      · exact .inr (.inr ⟨q, List.mem_cons_of_mem _ hq, h1⟩)
    unfold openFiles at h
    split at h
    · simp only [List.mem_cons, reduceCtorEq, false_or] at h
      exact later (.inl rfl) h
    · split at h
      · rcases List.mem_cons.1 h with e | h
        · cases e; exact ⟨stdin, .inl rfl, rfl⟩
        · exact later (.inr rfl) h
      · split at h
        · simp only [List.mem_cons, reduceCtorEq, false_or] at h
          exact later (.inl rfl) h
        · next text ht =>
          rcases List.mem_cons.1 h with e | h
          · cases e; exact ⟨text, .inr (.inr ⟨p, List.mem_cons_self, ht⟩), rfl⟩
          · exact later (.inl rfl) h

theorem openFiles_timeout (fs : FileSystem) (stdin : Str) (paths : List Str) : .timeout ∉ openFiles fs stdin paths := by
  induction paths generalizing stdin with
  | nil => simp [openFiles]
  | cons p ps ih =>
    unfold openFiles
    split
    · simp [ih]
    · split
      · simp [ih]
      · split <;> simp [ih]

theorem delivered_timeout {opt : Opt} (ho : opt.omitted = none) {st : ShState} {files : List (Out ParsedFile)} (h1 : .timeout ∉ files)
    (h2 : ∀ f, .ok f ∈ files → .timeout ∉ f.cmds) : .timeout ∉ delivered opt st files := by
  induction files generalizing st with
  | nil => simp [delivered]
  | cons f fs ih =>
    rw [List.mem_cons, not_or] at h1
    cases f with
    | ok f =>
      rw [delivered, List.mem_append, not_or]
      refine ⟨?_, ih h1.2 fun f hf => h2 f (List.mem_cons_of_mem _ hf)⟩
      unfold fileCmds
      rw [keepShare_none ho]
      exact shareAll_timeout (h2 f List.mem_cons_self)
    | timeout => exact absurd rfl h1.1
    | _ => simp [delivered]

/-- the commands before a failure are those of a program -/
theorem delivered_shared {P : Str → Prop} {opt : Opt} (ho : opt.omitted = none) {files : List (Out ParsedFile)} {st : ShState} {ns : List (List Str × Str)}
    (hi : SymInv st ns) (hf : ∀ f, .ok f ∈ files → ∃ text, P text ∧ f.cmds = parseText text) {pre : List Cmd} {post : List (Out Cmd)}
    (h : delivered opt st files = pre.map .ok ++ post) :
    ∃ es, Shared ns es pre ∧ ∀ e ∈ es, ∃ text, P text ∧ e.cmd ∈ textCmds text := by
  induction files generalizing st ns pre with
  | nil =>
    cases pre with
    | nil => exact ⟨[], .nil, nofun⟩
    | cons => simp [delivered] at h
  | cons f fs ih =>
    have bad : ∀ x : Out Cmd, x.isOk = false → [x] = pre.map .ok ++ post → pre = [] := by
      intro x hx e
      cases pre with
      | nil => rfl
      | cons c pre => simp at e; rw [e.1] at hx; cases hx
    cases f with
    | ok f =>
      obtain ⟨text, hP, ht⟩ := hf f List.mem_cons_self
      obtain ⟨rest, hs, hr⟩ := parseText_split text
      rw [delivered] at h
      have hfc : fileCmds opt st f = shareAll { st with syms := st.syms.setPath f.path } ((textCmds text).map (fun c => .ok c.scope) ++ rest) := by
        unfold fileCmds
        rw [keepShare_none ho, ht, hs]
      have hinv := hi.setPath f.path
      have hpath : (st.syms.setPath f.path).path = f.path := Symbols.setPath_path
      -- a beginning of the first file
      have first : ∀ {pre : List Cmd} {post : List (Out Cmd)}, (fileCmds opt st f).2 = pre.map .ok ++ post →
          ∃ cs, cs <+: textCmds text ∧ pre.length = cs.length ∧ (shareAll { st with syms := st.syms.setPath f.path } (cs.map fun c => .ok c.scope)).2 = pre.map .ok := by
        intro pre post h
        rw [hfc] at h
        have hle : pre.length ≤ (textCmds text).length := by
          by_contra hgt
          rw [shareAll_append] at h
          rcases hr with rfl | ⟨x, l, rfl, hx⟩
          · have := congrArg List.length h
            simp [shareAll_length] at this
            simp [shareAll] at h
            have := congrArg List.length h
            simp [shareAll_length] at this
            omega
          · have h1 := congrArg (·[(textCmds text).length]?) h
            simp only [shareAll] at h1
            rw [List.getElem?_append_right (by simp [shareAll_length]), List.getElem?_append_left (by simp; omega)] at h1
            simp [shareAll_length] at h1
            rw [List.getElem?_eq_getElem (by omega)] at h1
            cases x with
            | ok => cases hx
            | _ => simp [shareStep] at h1
        refine ⟨(textCmds text).take pre.length, List.take_prefix _ _, by simp [hle], ?_⟩
        have h1 := congrArg (List.take pre.length) h
        rw [← shareAll_take, List.take_append_of_le_length (by simp [hle]), List.take_append_of_le_length (by simp),
          List.take_of_length_le (l := pre.map _) (by simp)] at h1
        rw [List.map_take]
        exact h1
      have okOf : ∀ (l : List Cmd), ∀ c ∈ l.map (Out.ok : Cmd → Out Cmd), c.isOk = true := by
        intro l c hc
        obtain ⟨_, -, rfl⟩ := List.mem_map.1 hc
        rfl
      have mem : ∀ cs, cs <+: textCmds text → ∀ e ∈ cs.map (Entry.mk f.path), ∃ text, P text ∧ e.cmd ∈ textCmds text := by
        intro cs hcs e he
        obtain ⟨c, hc, rfl⟩ := List.mem_map.1 he
        exact ⟨text, hP, hcs.subset hc⟩
      rcases List.append_eq_append_iff.1 h with ⟨a', h1, h2⟩ | ⟨c', h1, h2⟩
      · -- the whole first file
        obtain ⟨p1, p2, hp, h3, h4⟩ : ∃ p1 p2, pre = p1 ++ p2 ∧ (fileCmds opt st f).2 = p1.map .ok ∧ a' = p2.map .ok := by
          obtain ⟨p1, p2, hp, h3, h4⟩ := List.map_eq_append_iff.1 h1
          exact ⟨p1, p2, hp, h3.symm, h4.symm⟩
        subst hp h4
        obtain ⟨cs, h5, h6, h7⟩ := first (post := []) (by rw [h3, List.append_nil])
        have hcs : (textCmds text).map (fun c => Out.ok c.scope) ++ rest = cs.map (fun c => Out.ok c.scope) := by
          have hl := congrArg List.length h3
          rw [hfc, shareAll_length] at hl
          simp at hl
          have h8 := h5.length_le
          have : rest = [] := List.length_eq_zero_iff.1 (by omega)
          subst this
          rw [h5.eq_of_length (by simp at hl; omega)]
          simp
        rw [hcs] at hfc
        obtain ⟨cmds, h8, h9, h10⟩ := shareAll_spec hinv cs (by rw [h7]; exact okOf _)
        rw [h7] at h8
        have : p1 = cmds := List.map_injective_iff.2 (fun a b h => by cases h; rfl) h8
        subst this
        simp only [hpath] at h9 h10
        rw [hfc] at h2
        obtain ⟨es, h11, h12⟩ := ih h9 (fun f hm => hf f (List.mem_cons_of_mem _ hm)) h2
        refine ⟨_, h10 es p2 h11, ?_⟩
        intro e he
        rcases List.mem_append.1 he with he | he
        · exact mem cs h5 e he
        · exact h12 e he
      · obtain ⟨cs, h5, h6, h7⟩ := first h1
        obtain ⟨cmds, h8, h9, h10⟩ := shareAll_spec hinv cs (by rw [h7]; exact okOf _)
        rw [h7] at h8
        have : pre = cmds := List.map_injective_iff.2 (fun a b h => by cases h; rfl) h8
        subst this
        simp only [hpath] at h9 h10
        have := h10 [] [] .nil
        simp only [List.append_nil] at this
        exact ⟨_, this, mem cs h5⟩
    | err e => rw [delivered] at h; rw [bad _ rfl h]; exact ⟨[], .nil, nofun⟩
    | panic => rw [delivered] at h; rw [bad _ rfl h]; exact ⟨[], .nil, nofun⟩
    | timeout => rw [delivered] at h; rw [bad _ rfl h]; exact ⟨[], .nil, nofun⟩

end Kontroli
