import Verif.Spec.Raw
import Verif.Proofs.ParseLines
import Verif.Proofs.Program
import Verif.Props.Panic

/-!
# Files as bytes
-/

namespace Kontroli

/-! ## UTF-8 -/

theorem utf8_append (s t : Str) : utf8 (s ++ t) = utf8 s ++ utf8 t := List.flatMap_append

theorem utf8_mk (t : Str) : (⟨(utf8 t).toArray⟩ : ByteArray) = t.utf8Encode := by
  unfold utf8 List.utf8Encode
  ext1
  simp

theorem fromUtf8_utf8 (t : Str) : fromUtf8 (utf8 t) = some t := by
  unfold fromUtf8
  rw [utf8_mk, List.utf8Decode?_utf8Encode]
  rfl

theorem fromUtf8_some {b : List UInt8} {t : Str} (h : fromUtf8 b = some t) : b = utf8 t := by
  unfold fromUtf8 at h
  rw [Option.map_eq_some_iff] at h
  obtain ⟨a, h1, rfl⟩ := h
  have h2 := ByteArray.utf8Encode_get_utf8Decode? (b := ⟨b.toArray⟩) (h := by rw [h1]; rfl)
  simp only [h1, Option.get_some] at h2
  rw [← utf8_mk] at h2
  have h3 := congrArg (fun x : ByteArray => x.data.toList) h2
  simpa using h3.symm

/-- the decoder accepts exactly the encodings of texts -/
theorem fromUtf8_iff {b : List UInt8} {t : Str} : fromUtf8 b = some t ↔ b = utf8 t :=
  ⟨fromUtf8_some, fun h => h ▸ fromUtf8_utf8 t⟩

theorem utf8_inj {s t : Str} (h : utf8 s = utf8 t) : s = t := by
  have := fromUtf8_utf8 s
  rw [h, fromUtf8_utf8] at this
  exact (Option.some.inj this).symm

theorem newline_byte {c : Char} (hc : c ≠ '\n') : (10 : UInt8) ∉ String.utf8EncodeChar c := by
  intro h
  have key : ∀ n : Nat, n < 256 → (10 : UInt8) = UInt8.ofNat n → n = 10 := by
    intro n hn e
    have := congrArg UInt8.toNat e
    rw [UInt8.toNat_ofNat_of_lt' hn] at this
    exact this.symm
  unfold String.utf8EncodeChar at h
  simp only at h
  split at h
  · next hv =>
    have := key _ (by omega) (List.mem_singleton.1 h)
    apply hc
    apply Char.ext
    apply UInt32.toNat.inj
    exact this
  · split at h
    · simp only [List.mem_cons, List.not_mem_nil, or_false] at h
      rcases h with h | h <;> have := key _ (by omega) h <;> omega
    · split at h
      · simp only [List.mem_cons, List.not_mem_nil, or_false] at h
        rcases h with h | h | h <;> have := key _ (by omega) h <;> omega
      · simp only [List.mem_cons, List.not_mem_nil, or_false] at h
        rcases h with h | h | h | h <;> have := key _ (by omega) h <;> omega

theorem utf8_newline {t : Str} {acc : List UInt8} (h : utf8 t = acc ++ [10]) : ∃ s, t = s ++ ['\n'] ∧ acc = utf8 s := by
  rcases List.eq_nil_or_concat t with rfl | ⟨s, c, rfl⟩
  · cases acc <;> cases h
  · rw [List.concat_eq_append, utf8_append] at h
    by_cases hc : c = '\n'
    · subst hc
      refine ⟨s, by simp, ?_⟩
      exact (List.append_inj_left' h rfl).symm
    · exfalso
      have h1 : utf8 [c] = String.utf8EncodeChar c := by simp [utf8]
      rw [h1] at h
      have h2 := congrArg List.getLast? h
      rw [List.getLast?_append, List.getLast?_concat] at h2
      cases h3 : (String.utf8EncodeChar c).getLast? with
      | none =>
        rw [List.getLast?_eq_none_iff] at h3
        exact String.utf8EncodeChar_ne_nil h3
      | some b =>
        rw [h3] at h2
        simp only [Option.some_or, Option.some.injEq] at h2
        subst h2
        exact newline_byte hc (List.mem_of_getLast? h3)

theorem rawLines_skip (br : Bool) {l : List UInt8} (hl : (10 : UInt8) ∉ l) (acc bs : List UInt8) :
    rawLines br acc (l ++ bs) = rawLines br (acc ++ l) bs := by
  induction l generalizing acc with
  | nil => simp
  | cons b l ih =>
    have hb : b ≠ 10 := fun e => hl (e ▸ List.mem_cons_self)
    rw [List.cons_append, rawLines, if_neg hb, ih fun h => hl (List.mem_cons_of_mem _ h)]
    simp

theorem utf8_nil_iff (t : Str) : (utf8 t).isEmpty = t.isEmpty := by
  cases t with
  | nil => rfl
  | cons c t =>
    unfold utf8
    rw [List.flatMap_cons]
    cases h : String.utf8EncodeChar c with
    | nil => exact absurd h (String.utf8EncodeChar_ne_nil)
    | cons a l => rfl

theorem rawLines_utf8 (acc s : Str) (ha : '\n' ∉ acc) : rawLines false (utf8 acc) (utf8 s) = (splitLines acc s).map some := by
  induction s generalizing acc with
  | nil =>
    rw [show utf8 [] = [] from rfl, rawLines, utf8_nil_iff]
    cases acc with
    | nil => rfl
    | cons c acc =>
      simp only [Bool.false_eq_true, if_false, List.isEmpty_cons, fromUtf8_utf8, Option.map_some, splitLines, List.map_cons, List.map_nil]
      congr 2
      unfold chomp
      rw [if_neg]
      intro h
      exact ha (List.mem_of_getLast? h)
  | cons c s ih =>
    by_cases hc : c = '\n'
    · subst hc
      have h1 : utf8 ('\n' :: s) = 10 :: utf8 s := rfl
      have h2 : utf8 acc ++ [10] = utf8 (acc ++ ['\n']) := (utf8_append acc ['\n']).symm
      have h3 : splitLines acc ('\n' :: s) = (if acc.getLast? = some '\r' then acc.dropLast else acc) :: splitLines [] s := by
        rw [splitLines]
      rw [h1, rawLines, if_pos rfl, h2, fromUtf8_utf8, h3, List.map_cons]
      congr 1
      · simp [chomp]
      · exact ih [] (by simp)
    · have h1 : utf8 (c :: s) = String.utf8EncodeChar c ++ utf8 s := rfl
      have h2 : utf8 acc ++ String.utf8EncodeChar c = utf8 (acc ++ [c]) := by
        rw [utf8_append]; simp [utf8]
      have h3 : splitLines acc (c :: s) = splitLines (acc ++ [c]) s := by
        rw [splitLines]
        intro e; exact hc e
      rw [h1, rawLines_skip _ (newline_byte hc), h2, h3]
      refine ih _ ?_
      rw [List.mem_append, not_or]
      exact ⟨ha, fun h => hc (List.mem_singleton.1 h).symm⟩

theorem rawLines_valid {br : Bool} {acc bs : List UInt8} (h : none ∉ rawLines br acc bs) : br = false ∧ ∃ t, acc ++ bs = utf8 t := by
  induction bs generalizing acc with
  | nil =>
    rw [rawLines] at h
    split at h
    · simp at h
    · next hb =>
      refine ⟨by simpa using hb, ?_⟩
      split at h
      · next ha => exact ⟨[], by simpa [utf8] using ha⟩
      · cases hf : fromUtf8 acc with
        | none => rw [hf] at h; simp at h
        | some t => exact ⟨t, by rw [List.append_nil]; exact fromUtf8_some hf⟩
  | cons b bs ih =>
    rw [rawLines] at h
    split at h
    · cases hf : fromUtf8 (acc ++ [b]) with
      | none => rw [hf] at h; simp at h
      | some t =>
        obtain ⟨h1, u, h2⟩ := ih fun h' => h (List.mem_cons_of_mem _ h')
        refine ⟨h1, t ++ u, ?_⟩
        rw [utf8_append, ← h2, ← fromUtf8_some hf]
        simp
    · obtain ⟨h1, u, h2⟩ := ih h
      exact ⟨h1, u, by rw [← h2]; simp⟩

theorem Raw.Encodes.lines {r : Raw} {t : Str} (h : r.Encodes t) : r.lines = (splitLines [] t).map some := by
  unfold Raw.lines
  rw [h.1, h.2]
  exact rawLines_utf8 [] t (by simp)

theorem Raw.encodes_of_lines {r : Raw} (h : none ∉ r.lines) : ∃ t, r.Encodes t := by
  obtain ⟨h1, t, h2⟩ := rawLines_valid h
  exact ⟨t, h1, h2⟩

/-! ## The parser on lines that may fail -/

section
variable {A : Type} (sc : ScopeFn A)

/-- a parser of texts as a parser of files -/
def LazyP.raw (p : LazyP A) : LazyR A := ⟨p.lines.map some, p.openComments, p.state, p.ctx, p.buf⟩

theorem lazyLinesR_some (lines : List Str) (o : Nat) (st : PState A) (ctx : PCtx A) (buf : List (PCmd (PTerm A))) :
    lazyLinesR sc (lines.map some) o st ctx buf = ((lazyLines sc lines o st ctx buf).1, (lazyLines sc lines o st ctx buf).2.raw) := by
  induction lines generalizing o st ctx buf with
  | nil => rfl
  | cons l lines ih =>
    rw [List.map_cons, lazyLinesR, lazyLines]
    rcases comment o l with ⟨o', rest⟩
    cases o' with
    | succ o' => exact ih _ _ _ _
    | zero =>
      simp only
      rcases lazyLine sc ((lex rest).length + 1) st ctx buf 0 (lex rest) with ⟨r, ctx', buf', o''⟩
      cases r with
      | err e => rfl
      | panic => rfl
      | ok st' =>
        cases buf' with
        | nil => exact ih _ _ _ _
        | cons c cs => rfl

theorem items_raw (n : Nat) (p : LazyP A) : p.raw.items sc n = p.items sc n := by
  induction n generalizing p with
  | zero => rfl
  | succ n ih =>
    have hn : p.raw.next sc = ((p.next sc).1, (p.next sc).2.raw) := by
      unfold LazyR.next LazyP.next
      show (match p.buf.getLast? with | some c => _ | none => _) = _
      cases p.buf.getLast? with
      | some c => rfl
      | none => exact lazyLinesR_some sc _ _ _ _ _
    rw [LazyR.items, LazyP.items, hn]
    rcases p.next sc with ⟨i, q⟩
    cases i with
    | none => rfl
    | some i => simp only [ih]

end

theorem Raw.Encodes.parse {r : Raw} {t : Str} (h : r.Encodes t) : parseRaw r = parseText t := by
  unfold parseRaw parseText
  have h1 : r.size = t.length := by
    unfold Raw.size
    rw [h.1, h.2, fromUtf8_utf8]
    rfl
  rw [h1, h.lines]
  exact congrArg _ (items_raw scopeAtom _ (LazyP.new (splitLines [] t)))

/-! ## What happens at a line that fails -/

section
variable {A : Type} (sc : ScopeFn A)

/-- a parser of texts as a parser of files that fail after some lines -/
def LazyP.failing (rest : List (Option Str)) (p : LazyP A) : LazyR A :=
  ⟨p.lines.map some ++ none :: rest, p.openComments, p.state, p.ctx, p.buf⟩

theorem lazyLinesR_failing (rest : List (Option Str)) (lines : List Str) (o : Nat) (st : PState A) (ctx : PCtx A)
    (buf : List (PCmd (PTerm A))) :
    (∃ i p, lazyLines sc lines o st ctx buf = (some i, p) ∧
        lazyLinesR sc (lines.map some ++ none :: rest) o st ctx buf = (some i, p.failing rest)) ∨
      ((lazyLinesR sc (lines.map some ++ none :: rest) o st ctx buf).1 = some .panic ∧ ∀ c, (lazyLines sc lines o st ctx buf).1 ≠ some (.ok c)) := by
  induction lines generalizing o st ctx buf with
  | nil =>
    right
    refine ⟨rfl, fun c => ?_⟩
    simp only [lazyLines]
    cases st.cmd with
    | init => simp only; split <;> simp
    | _ => simp
  | cons l lines ih =>
    rw [List.map_cons, List.cons_append, lazyLinesR, lazyLines]
    rcases comment o l with ⟨o', s⟩
    cases o' with
    | succ o' => exact ih _ _ _ _
    | zero =>
      simp only
      rcases lazyLine sc ((lex s).length + 1) st ctx buf 0 (lex s) with ⟨r, ctx', buf', o''⟩
      cases r with
      | err e => exact .inl ⟨_, _, rfl, rfl⟩
      | panic => exact .inl ⟨_, _, rfl, rfl⟩
      | ok st' =>
        cases buf' with
        | nil => exact ih _ _ _ _
        | cons c cs => exact .inl ⟨_, _, rfl, rfl⟩

theorem items_failing (rest : List (Option Str)) (n : Nat) (p : LazyP A) :
    ∃ l js js', (p.failing rest).items sc n = l ++ js ∧ p.items sc n = l ++ js' ∧
      ((js = [] ∧ js' = [] ∧ l.length = n) ∨ (js.head? = some .panic ∧ ∀ c, js'.head? ≠ some (.ok c))) := by
  induction n generalizing p with
  | zero => exact ⟨[], [], [], rfl, rfl, .inl ⟨rfl, rfl, rfl⟩⟩
  | succ n ih =>
    have hn : (∃ i q, p.next sc = (some i, q) ∧ (p.failing rest).next sc = (some i, q.failing rest)) ∨
        (((p.failing rest).next sc).1 = some .panic ∧ ∀ c, (p.next sc).1 ≠ some (.ok c)) := by
      unfold LazyR.next LazyP.next
      simp only [LazyP.failing]
      cases p.buf.getLast? with
      | some c => exact .inl ⟨_, _, rfl, rfl⟩
      | none => exact lazyLinesR_failing sc rest _ _ _ _ _
    rw [LazyR.items, LazyP.items]
    rcases hn with ⟨i, q, h1, h2⟩ | ⟨h1, h2⟩
    · obtain ⟨l, js, js', h3, h4, h5⟩ := ih q
      rw [h1, h2]
      refine ⟨i :: l, js, js', by simp [h3], by simp [h4], ?_⟩
      simpa using h5
    · refine ⟨[], _, _, rfl, rfl, .inr ⟨?_, fun c => ?_⟩⟩
      · rcases hq : (p.failing rest).next sc with ⟨i, q⟩
        rw [hq] at h1
        cases h1
        rfl
      · rcases hp : p.next sc with ⟨i, q⟩
        rw [hp] at h2
        cases i with
        | none => simp
        | some i =>
          simp only [List.head?_cons, ne_eq, Option.some.injEq]
          intro e
          exact h2 c (congrArg some e)

end

theorem exists_failing {l : List (Option Str)} (h : none ∈ l) : ∃ (good : List Str) (rest : List (Option Str)), l = good.map some ++ none :: rest := by
  induction l with
  | nil => cases h
  | cons a l ih =>
    cases a with
    | none => exact ⟨[], l, rfl⟩
    | some a =>
      obtain ⟨good, rest, e⟩ := ih ((List.mem_cons.1 h).resolve_left (by simp))
      exact ⟨a :: good, rest, by simp [e]⟩

theorem utf8_length (t : Str) : t.length ≤ (utf8 t).length := by
  induction t with
  | nil => simp
  | cons c t ih =>
    rw [show utf8 (c :: t) = String.utf8EncodeChar c ++ utf8 t from rfl, List.length_append, List.length_cons]
    have := List.length_pos_of_ne_nil (String.utf8EncodeChar_ne_nil (c := c))
    omega

theorem chomp_length (t : Str) : (chomp t).length ≤ t.length ∧ ('\n' ∈ t.getLast? → (chomp t).length + 1 ≤ t.length) := by
  unfold chomp
  split
  · next h =>
    have : t ≠ [] := by rintro rfl; cases h
    have := List.length_pos_of_ne_nil this
    split <;> simp <;> omega
  · next h => exact ⟨le_rfl, fun h' => absurd h' h⟩

theorem rawLines_length (br : Bool) (acc bs : List UInt8) (good : List Str) (rest : List (Option Str))
    (h : rawLines br acc bs = good.map some ++ rest) : (good.map fun l => l.length + 1).sum ≤ acc.length + bs.length + 1 := by
  induction bs generalizing acc good with
  | nil =>
    rw [rawLines] at h
    cases good with
    | nil => simp
    | cons g good =>
      split at h
      · simp at h
      · split at h
        · simp at h
        · simp only [List.map_cons, List.cons_append, List.cons.injEq] at h
          obtain ⟨h1, h2⟩ := h
          have h3 := List.append_eq_nil_iff.1 h2.symm
          rw [List.map_eq_nil_iff] at h3
          obtain ⟨t, h4, rfl⟩ := Option.map_eq_some_iff.1 h1
          have h5 := utf8_length t
          rw [← fromUtf8_some h4] at h5
          have h6 := (chomp_length t).1
          simp [h3.1]
          omega
  | cons b bs ih =>
    rw [rawLines] at h
    split at h
    · next hb =>
      cases good with
      | nil => simp
      | cons g good =>
        simp only [List.map_cons, List.cons_append, List.cons.injEq] at h
        obtain ⟨h1, h2⟩ := h
        obtain ⟨t, h4, rfl⟩ := Option.map_eq_some_iff.1 h1
        have h5 := utf8_length t
        rw [← fromUtf8_some h4] at h5
        have h6 := (chomp_length t).1
        have h7 := ih [] good h2
        simp only [List.length_append, List.length_cons, List.length_nil, List.map_cons, List.sum_cons] at h5 h7 ⊢
        have h8 : '\n' ∈ t.getLast? := by
          subst hb
          obtain ⟨s, rfl, -⟩ := utf8_newline (fromUtf8_some h4).symm
          simp
        have h9 := (chomp_length t).2 h8
        omega
    · have := ih _ _ h
      simp only [List.length_append, List.length_cons, List.length_nil] at this ⊢
      omega

theorem Raw.size_failing {r : Raw} (h : none ∈ r.lines) : r.size = r.bytes.length := by
  unfold Raw.size
  cases hb : r.broken with
  | true => rfl
  | false =>
    cases hf : fromUtf8 r.bytes with
    | none => rfl
    | some t =>
      have : r.Encodes t := ⟨hb, fromUtf8_some hf⟩
      rw [this.lines] at h
      simp at h

theorem items_fail {r : Raw} {good : List Str} {rest : List (Option Str)} (h : r.lines = good.map some ++ none :: rest) :
    (∃ c ∈ (LazyR.new r.lines).items scopeAtom (r.size + 3), ∀ d, c ≠ .ok d) ∧
      ∀ cs, lazyRun scopeAtom good 0 PState.new PCtx.new = (cs, none) →
        ∃ js, (LazyR.new r.lines).items scopeAtom (r.size + 3) = cs.map .ok ++ .panic :: js := by
  have hs : r.size = r.bytes.length := Raw.size_failing (by rw [h]; simp)
  have h1 := items_run scopeAtom good (r.size + 3) 0 PState.new PCtx.new PState.new_open
  have h2 := lazyRun_length scopeAtom good 0 PState.new PCtx.new
  have h3 := rawLines_length _ _ _ _ _ h
  obtain ⟨l, js, js', h4, h5, h6⟩ := items_failing scopeAtom rest (r.size + 3) (LazyP.new good)
  have h7 : (LazyR.new r.lines).items scopeAtom (r.size + 3) = l ++ js := by
    rw [h]; exact h4
  have h5 : LazyP.items scopeAtom (r.size + 3) ⟨good, 0, PState.new, PCtx.new, []⟩ = l ++ js' := h5
  rw [h7]
  simp only [List.length_nil, Nat.zero_add] at h3
  rcases hr : lazyRun scopeAtom good 0 PState.new PCtx.new with ⟨cs, e⟩
  rw [hr] at h1 h2
  simp only at h2
  cases e with
  | none =>
    simp only at h1
    rw [h5, List.take_of_length_le (by simp; omega)] at h1
    have h8 : js.head? = some .panic ∧ ∀ c, js'.head? ≠ some (.ok c) := by
      refine h6.resolve_left fun h9 => ?_
      have := congrArg List.length h1
      simp [h9.2.1, h9.2.2] at this
      omega
    have h9 : js' = [] := by
      cases js' with
      | nil => rfl
      | cons x js' =>
        have : x ∈ cs.map POut.ok := by rw [← h1]; simp
        obtain ⟨c, -, rfl⟩ := List.mem_map.1 this
        exact absurd rfl (h8.2 c)
    rw [h9, List.append_nil] at h1
    obtain ⟨ks, rfl⟩ := List.head?_eq_some_iff.1 h8.1
    refine ⟨⟨.panic, by simp, by simp⟩, ?_⟩
    intro cs' e
    cases e
    exact ⟨ks, by rw [h1]⟩
  | some e =>
    refine ⟨?_, fun cs' e' => by cases e'⟩
    rcases h6 with ⟨rfl, rfl, h6⟩ | ⟨h6, -⟩
    · simp only at h1
      rw [h5, List.append_nil] at h1
      have h8 : failOut e ∈ List.take (r.size + 3) (cs.map POut.ok ++ [failOut e]) := by
        rw [List.take_of_length_le (by simp; omega)]
        simp
      rw [← h1] at h8
      refine ⟨failOut e, ?_, ?_⟩
      · rw [List.append_nil]; exact List.mem_of_mem_take h8
      · intro d; cases e <;> simp [failOut]
    · obtain ⟨ks, rfl⟩ := List.head?_eq_some_iff.1 h6
      exact ⟨.panic, by simp, by simp⟩

/-- a file with a line that fails does not parse -/
theorem parseRaw_failing {r : Raw} (h : none ∈ r.lines) : ∃ c ∈ parseRaw r, c.isOk = false := by
  obtain ⟨good, rest, e⟩ := exists_failing h
  obtain ⟨c, h1, h2⟩ := (items_fail e).1
  refine ⟨_, List.mem_map_of_mem h1, ?_⟩
  cases c with
  | ok d => exact absurd rfl (h2 d)
  | err e => rfl
  | panic => rfl

theorem Raw.encodes_of_ok {r : Raw} (h : ∀ c ∈ parseRaw r, c.isOk = true) : ∃ t, r.Encodes t := by
  apply Raw.encodes_of_lines
  intro hn
  obtain ⟨c, h1, h2⟩ := parseRaw_failing hn
  rw [h c h1] at h2
  cases h2

/-! ## Files -/

theorem Texts.open {fs : Str → Option Raw} {stdin : Raw} {paths : List Str} {fs' : FileSystem} {stdin' : Str}
    (h : Texts fs stdin paths fs' stdin') : openRaw fs stdin paths = openFiles fs' stdin' paths := by
  induction paths generalizing stdin stdin' with
  | nil => rfl
  | cons p ps ih =>
    have ih' := ih (stdin := stdin) (stdin' := stdin')
      ⟨fun q hq => h.none q (List.mem_cons_of_mem _ hq), fun q hq => h.some q (List.mem_cons_of_mem _ hq),
        fun q hq => h.stdin q (List.mem_cons_of_mem _ hq)⟩
    have ih0 := ih (stdin := Raw.empty) (stdin' := [])
      ⟨fun q hq => h.none q (List.mem_cons_of_mem _ hq), fun q hq => h.some q (List.mem_cons_of_mem _ hq), fun _ _ _ => ⟨rfl, rfl⟩⟩
    rw [openRaw, openFiles]
    cases modulePath p with
    | none => simp only [ih']
    | some path =>
      simp only
      cases hd : isDash p with
      | true =>
        simp only [if_true]
        rw [ih0, (h.stdin p List.mem_cons_self hd).parse]
      | false =>
        simp only [Bool.false_eq_true, if_false]
        cases hp : fs p with
        | none => rw [h.none p List.mem_cons_self hd hp, ih']
        | some r =>
          obtain ⟨t, h1, h2⟩ := h.some p List.mem_cons_self hd r hp
          rw [h1]
          simp only
          rw [ih', h2.parse]

theorem texts_of_ok {fs : Str → Option Raw} {stdin : Raw} {paths : List Str} {files : List ParsedFile}
    (h : openRaw fs stdin paths = files.map .ok) (hf : ∀ f ∈ files, ∀ c ∈ f.cmds, c.isOk = true) :
    ∃ fs' stdin', Texts fs stdin paths fs' stdin' := by
  have key : (∀ p ∈ paths, isDash p = false → ∃ r t, fs p = some r ∧ r.Encodes t) ∧ ((∃ p ∈ paths, isDash p = true) → ∃ t, stdin.Encodes t) := by
    induction paths generalizing stdin files with
    | nil => simp
    | cons p ps ih =>
      rw [openRaw] at h
      cases hm : modulePath p with
      | none => rw [hm] at h; cases files <;> simp at h
      | some path =>
        rw [hm] at h
        simp only at h
        cases hd : isDash p with
        | true =>
          rw [hd] at h
          simp only [if_true] at h
          cases files with
          | nil => simp at h
          | cons f files =>
            simp only [List.map_cons, List.cons.injEq, Out.ok.injEq] at h
            obtain ⟨rfl, h⟩ := h
            have h1 := (ih h fun f hf' => hf f (List.mem_cons_of_mem _ hf')).1
            refine ⟨fun q hq hq' => ?_, fun _ => Raw.encodes_of_ok (hf _ List.mem_cons_self)⟩
            rcases List.mem_cons.1 hq with rfl | hq
            · rw [hd] at hq'; cases hq'
            · exact h1 q hq hq'
        | false =>
          rw [hd] at h
          simp only [Bool.false_eq_true, if_false] at h
          cases hp : fs p with
          | none => rw [hp] at h; cases files <;> simp at h
          | some r =>
            rw [hp] at h
            cases files with
            | nil => simp at h
            | cons f files =>
              simp only [List.map_cons, List.cons.injEq, Out.ok.injEq] at h
              obtain ⟨rfl, h⟩ := h
              obtain ⟨h1, h2⟩ := ih h fun f hf' => hf f (List.mem_cons_of_mem _ hf')
              refine ⟨fun q hq hq' => ?_, fun ⟨q, hq, hq'⟩ => ?_⟩
              · rcases List.mem_cons.1 hq with rfl | hq
                · obtain ⟨t, ht⟩ := Raw.encodes_of_ok (hf _ List.mem_cons_self)
                  exact ⟨r, t, hp, ht⟩
                · exact h1 q hq hq'
              · rcases List.mem_cons.1 hq with rfl | hq
                · rw [hd] at hq'; cases hq'
                · exact h2 ⟨q, hq, hq'⟩
  refine ⟨fun p => (fs p).bind fun r => fromUtf8 r.bytes, (fromUtf8 stdin.bytes).getD [], ?_, ?_, ?_⟩
  · intro p _ _ h
    simp [h]
  · intro p hp hd r hr
    obtain ⟨r', t, h1, h2⟩ := key.1 p hp hd
    rw [hr] at h1
    cases h1
    exact ⟨t, by simp [hr, h2.2, fromUtf8_utf8], h2⟩
  · intro p hp hd
    obtain ⟨t, ht⟩ := key.2 ⟨p, hp, hd⟩
    rw [ht.2, fromUtf8_utf8]
    exact ht

/-! ## The channel -/

/-- the producer will crash, or the consumer has failed -/
def Doomed (a : Net) : Prop :=
  a.verdict ≠ some (.ok ()) ∧
    ((a.verdict = none → (∃ e ∈ a.todo, e.sendable = false) ∧ a.sender = true ∧ ∃ c, a.consumer = .inl c ∧ ∀ r ∈ c.failed, r.isOk = false) ∨
      ∃ r, a.consumer = .inr r ∧ r.isOk = false)

theorem Consumer.take_failed {k : Kern} {opt : Opt} {c : Consumer} (h : ∀ r ∈ c.failed, r.isOk = false) (e : Out Event) :
    ∀ r ∈ (c.take k opt e).failed, r.isOk = false := by
  unfold Consumer.take
  split
  · exact h
  · unfold Consumer.process
    split
    · exact h
    · split
      · exact h
      · next gc e hne heq =>
        intro r hr
        rcases List.mem_append.1 hr with hr | hr
        · exact h r hr
        · rw [List.mem_singleton.1 hr]
          cases e with
          | ok u => exact (hne rfl).elim
          | _ => rfl

theorem Doomed.step {k : Kern} {opt : Opt} {cap : Option Nat} {a b : Net} (h : Doomed a) (hs : NetStep k opt cap a b) : Doomed b := by
  obtain ⟨h0, h⟩ := h
  cases hs with
  | send he _ =>
    refine ⟨by simp, ?_⟩
    rcases h with h | ⟨r, h, -⟩
    · left
      intro _
      obtain ⟨⟨e, h1, h2⟩, h3, h4⟩ := h rfl
      refine ⟨⟨e, (List.mem_cons.1 h1).resolve_left ?_, h2⟩, h3, h4⟩
      rintro rfl
      rw [he] at h2; cases h2
    · cases h
  | handover he _ _ =>
    refine ⟨by simp, ?_⟩
    rcases h with h | ⟨r, h, -⟩
    · left
      intro _
      obtain ⟨⟨e, h1, h2⟩, h3, c, h4, h5⟩ := h rfl
      cases h4
      refine ⟨⟨e, (List.mem_cons.1 h1).resolve_left ?_, h2⟩, h3, _, rfl, Consumer.take_failed h5 _⟩
      rintro rfl
      rw [he] at h2; cases h2
    · cases h
  | refused he =>
    refine ⟨by simp, ?_⟩
    rcases h with h | h
    · obtain ⟨-, -, c, h, -⟩ := h rfl
      cases h
    · exact .inr h
  | crash he =>
    refine ⟨?_, .inl (fun h => by cases h)⟩
    rename_i e _ _ _ _
    cases e <;> simp_all [Out.sendable, Out.void, Out.bind]
  | error ho =>
    refine ⟨?_, .inl (fun h => by cases h)⟩
    simp only [ne_eq, Option.some.injEq]
    rintro rfl
    simp [Out.isOk] at ho
  | close ho =>
    refine ⟨by simp, ?_⟩
    rcases h with h | h
    · obtain ⟨⟨e, h, -⟩, -⟩ := h rfl
      cases h
    · exact .inr h
  | receive _ =>
    refine ⟨by simp, ?_⟩
    rcases h with h | ⟨r, h, -⟩
    · left
      intro _
      obtain ⟨h1, h3, c, h4, h5⟩ := h rfl
      cases h4
      exact ⟨h1, h3, _, rfl, Consumer.take_failed h5 _⟩
    · cases h
  | check =>
    refine ⟨by simp, ?_⟩
    rcases h with h | ⟨r, h, -⟩
    · left
      intro _
      obtain ⟨h1, h3, c, h4, h5⟩ := h rfl
      cases h4
      refine ⟨h1, h3, _, rfl, ?_⟩
      simp only
      split
      · exact h5
      · next hn =>
        intro r hr
        rcases List.mem_append.1 hr with hr | hr
        · exact h5 r hr
        · rw [List.mem_singleton.1 hr]; simpa using hn
    · cases h
  | stop hr =>
    refine ⟨by simp, .inr ⟨_, rfl, ?_⟩⟩
    rcases h with h | ⟨r, h, -⟩
    · obtain ⟨h1, h3, c, h4, h5⟩ := h rfl
      cases h4
      exact h5 _ hr
    · cases h
  | finish =>
    rcases h with h | ⟨r, h, -⟩
    · obtain ⟨⟨e, h, -⟩, -⟩ := h rfl
      cases h
    · cases h
  | join =>
    rcases h with h | ⟨r, h, hr⟩
    · obtain ⟨⟨e, h, -⟩, -⟩ := h rfl
      cases h
    · cases h
      refine ⟨?_, .inr ⟨_, rfl, hr⟩⟩
      simp only [ne_eq, Option.some.injEq]
      rintro rfl
      simp [Out.isOk] at hr

/-- with a channel, a program is not accepted if the parser panics somewhere -/
theorem channel_sendable {k : Kern} {opt : Opt} {cap : Option Nat} {files : List (Out ParsedFile)} (h : Channel k opt cap files (.ok ())) :
    ∀ e ∈ (produce files).1, e.sendable = true := by
  intro e he
  by_contra hs
  obtain ⟨a, h1, h2⟩ := h
  have h0 : Doomed (Net.start opt files) := ⟨by simp [Net.start], .inl fun _ => ⟨⟨e, he, by simpa using hs⟩, rfl, _, rfl, by simp [Consumer.new]⟩⟩
  have h3 : Doomed a := by
    clear h2
    generalize Net.start opt files = b at h1 h0
    induction h1 with
    | refl => exact h0
    | step hs _ ih => exact ih (h0.step hs)
  exact h3.1 h2

/-! ## A text followed by a line that cannot be read -/

theorem Unreadable.lines {r : Raw} (h : Unreadable r) : ∃ rest, r.lines = none :: rest := by
  unfold Raw.lines
  cases h with
  | @broken bs h =>
    have := rawLines_skip true h [] []
    rw [List.append_nil] at this
    exact ⟨[], by simp only; rw [this, rawLines]; rfl⟩
  | @last bs h h2 =>
    have h1 := rawLines_skip false h [] []
    rw [List.append_nil, List.nil_append] at h1
    have h3 : fromUtf8 bs = none := by
      cases hf : fromUtf8 bs with
      | none => rfl
      | some t => exact absurd (fromUtf8_some hf) (h2 t)
    have h4 : bs ≠ [] := h2 []
    refine ⟨[], ?_⟩
    simp only
    rw [h1, rawLines, h3]
    simp [h4]
  | @line bs rest br h h2 =>
    have h3 : fromUtf8 (bs ++ [10]) = none := by
      cases hf : fromUtf8 (bs ++ [10]) with
      | none => rfl
      | some t =>
        obtain ⟨s, -, h5⟩ := utf8_newline (fromUtf8_some hf).symm
        exact absurd h5 (h2 s)
    refine ⟨rawLines br [] rest, ?_⟩
    simp only
    rw [rawLines_skip br h, List.nil_append, rawLines]
    simp [h3]

theorem rawLines_append (br : Bool) (acc xs bs : List UInt8) :
    rawLines br acc (xs ++ [10] ++ bs) = rawLines false acc (xs ++ [10]) ++ rawLines br [] bs := by
  induction xs generalizing acc with
  | nil => simp [rawLines]
  | cons x xs ih =>
    simp only [List.cons_append, rawLines]
    split
    · rw [ih, List.cons_append]
    · rw [ih]

theorem rawLines_text (br : Bool) {text : Str} (ht : text = [] ∨ text.getLast? = some '\n') (bs : List UInt8) :
    rawLines br [] (utf8 text ++ bs) = (splitLines [] text).map some ++ rawLines br [] bs := by
  rcases ht with rfl | ht
  · simp [utf8, splitLines]
  · obtain ⟨s, rfl⟩ := List.getLast?_eq_some_iff.1 ht
    rw [← rawLines_utf8 [] (s ++ ['\n']) (by simp), utf8_append]
    exact rawLines_append br [] (utf8 s) bs

theorem lazyRun_of_ok {text : Str} (h : ∀ c ∈ parseText text, c.isOk = true) :
    ∃ cs, lazyRun scopeAtom (splitLines [] text) 0 PState.new PCtx.new = (cs, none) ∧ parseText text = cs.map .ok := by
  have h1 := items_run scopeAtom (splitLines [] text) (text.length + 3) 0 PState.new PCtx.new PState.new_open
  have h2 := lazyRun_length scopeAtom (splitLines [] text) 0 PState.new PCtx.new
  have h3 := splitLines_length [] text
  rcases hr : lazyRun scopeAtom (splitLines [] text) 0 PState.new PCtx.new with ⟨cs, e⟩
  rw [hr] at h1 h2
  simp only [List.length_nil] at h2 h3
  cases e with
  | none =>
    refine ⟨cs, rfl, ?_⟩
    simp only at h1
    rw [List.take_of_length_le (by simp; omega)] at h1
    unfold parseText
    rw [show LazyP.new (splitLines [] text) = ⟨splitLines [] text, 0, PState.new, PCtx.new, []⟩ from rfl, h1, List.map_map]
    rfl
  | some e =>
    simp only at h1
    rw [List.take_of_length_le (l := cs.map POut.ok ++ [failOut e]) (by simp; omega)] at h1
    have h4 : failOut e ∈ (LazyP.new (splitLines [] text)).items scopeAtom (text.length + 3) := by
      have : failOut e ∈ cs.map POut.ok ++ [failOut e] := by simp
      rw [← h1] at this
      exact List.mem_of_mem_take this
    have h5 := h _ (List.mem_map_of_mem h4)
    cases e <;> simp [failOut, Out.isOk] at h5

theorem parseRaw_panics {r : Raw} {text : Str} {bad : List UInt8} (hb : r.bytes = utf8 text ++ bad) (ht : text = [] ∨ text.getLast? = some '\n')
    (hu : Unreadable ⟨bad, r.broken⟩) (h : ∀ c ∈ parseText text, c.isOk = true) : ∃ js, parseRaw r = parseText text ++ .panic :: js := by
  obtain ⟨rest, h1⟩ := hu.lines
  have h2 : r.lines = (splitLines [] text).map some ++ none :: rest := by
    rw [← h1]
    unfold Raw.lines
    rw [hb]
    exact rawLines_text r.broken ht bad
  obtain ⟨cs, h3, h4⟩ := lazyRun_of_ok h
  obtain ⟨js, h5⟩ := (items_fail h2).2 cs h3
  unfold parseRaw
  rw [h5, h4, List.map_append, List.map_cons, List.map_map]
  exact ⟨_, rfl⟩

theorem run_panics {k : Kern} {opt : Opt} {path : List Str} {cs js : List (Out Scoped)} {st : ShState} {gc gc' : GCtx}
    (h : inferChecksSeq k opt gc (fileCmds opt st ⟨path, cs⟩).2 = (gc', .ok ())) :
    inferChecksSeq k opt gc (fileCmds opt st ⟨path, cs ++ .panic :: js⟩).2 = (gc', .panic) := by
  unfold fileCmds at h ⊢
  simp only [List.filter_append] at h ⊢
  rw [List.filter_cons_of_pos (by simp [keepShare, Out.isOk]), shareAll_append, inferChecksSeq_append, h]
  simp only [shareAll, shareStep]
  unfold inferChecksSeq
  rw [List.filter_cons_of_pos (by simp [keepInfer, Out.isOk]), seqLoop]

end Kontroli
