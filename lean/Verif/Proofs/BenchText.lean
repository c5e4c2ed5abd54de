import Verif.Proofs.Bench

/-!
# The texts of the benchmarks
-/

namespace Kontroli

attribute [local irreducible] decimal

/-- no characters that end a line or begin a moustache -/
def PlainChars (s : Str) : Prop := ∀ x ∈ s, x ≠ '\n' ∧ x ≠ '{' ∧ x ≠ '\r'

instance (s : Str) : Decidable (PlainChars s) := List.decidableBAll _ _

theorem PlainChars.append {s u : Str} (h : PlainChars s) (h' : PlainChars u) : PlainChars (s ++ u) := by
  intro x hx
  rcases List.mem_append.1 hx with hx | hx
  · exact h x hx
  · exact h' x hx

/-- A text holds tokens, whatever follows. -/
structure TokText (G : List Token → PTerm PSymb → Prop) (s : Str) (t : PTerm PSymb) : Prop where
  chars : PlainChars s
  first : ∃ a r, s = a :: r ∧ a ≠ ';'
  toks : ∃ ts, G ts t ∧ ∀ u, EndsSymb u → lex (s ++ u) = ts ++ lex u

theorem TokText.term {s : Str} {t : PTerm PSymb} (h : TokText GApp s t) : TokText GTerm s t := by
  obtain ⟨ts, h1, h2⟩ := h.toks
  exact ⟨h.chars, h.first, ts, .app h1, h2⟩

/-- a name and its characters -/
structure NameText (x : Str) : Prop where
  valid : ValidName x
  chars : PlainChars x
  first : ∃ a r, x = a :: r ∧ a ≠ ';'

theorem NameText.lex {x : Str} (h : NameText x) {u : Str} (hu : EndsSymb u) : lex (x ++ u) = nameTok x :: lex u := lex_name h.valid hu

theorem NameText.text {x : Str} (h : NameText x) : TokText GApp x (named x) := ⟨h.chars, h.first, [nameTok x], .symb, fun _ hu => h.lex hu⟩

theorem TokText.arg {s x : Str} {h : PHead PSymb} {as : List (PTerm PSymb)} (hs : TokText GApp s (.app h as)) (hx : NameText x) :
    TokText GApp (s ++ str " " ++ x) (.app h (as ++ [named x])) := by
  obtain ⟨ts, h1, h2⟩ := hs.toks
  refine ⟨(hs.chars.append (by decide)).append hx.chars, ?_, ts ++ [nameTok x], .symbArg h1, fun u hu => ?_⟩
  · rw [List.append_assoc]; exact head_append hs.first
  · rw [List.append_assoc, List.append_assoc, show str " " ++ (x ++ u) = ' ' :: (x ++ u) from rfl, h2 _ (endsSymb_space _), lex_sp, hx.lex hu, List.append_assoc]
    rfl

theorem TokText.par {s : Str} {t : PTerm PSymb} (hs : TokText GTerm s t) : TokText GApp (str "(" ++ s ++ str ")") t := by
  obtain ⟨ts, h1, h2⟩ := hs.toks
  refine ⟨(PlainChars.append (by decide) hs.chars).append (by decide), ⟨'(', s ++ str ")", rfl, by decide⟩, .lpar :: ts ++ [.rpar], .par h1, fun u hu => ?_⟩
  rw [List.append_assoc, List.append_assoc, show str "(" ++ (s ++ (str ")" ++ u)) = '(' :: (s ++ (')' :: u)) from rfl, lex_lpar (head_append hs.first),
    h2 _ (endsSymb_rpar _), lex_rpar]
  simp

theorem TokText.parArg {s v : Str} {h : PHead PSymb} {as : List (PTerm PSymb)} {t : PTerm PSymb} (hs : TokText GApp s (.app h as)) (hv : TokText GTerm v t) :
    TokText GApp (s ++ str " (" ++ v ++ str ")") (.app h (as ++ [t])) := by
  obtain ⟨ts, h1, h2⟩ := hs.toks
  obtain ⟨us, h3, h4⟩ := hv.toks
  refine ⟨((hs.chars.append (by decide)).append hv.chars).append (by decide), ?_, ts ++ .lpar :: us ++ [.rpar], .parArg h1 h3, fun u hu => ?_⟩
  · rw [List.append_assoc, List.append_assoc]; exact head_append hs.first
  · rw [List.append_assoc, List.append_assoc, List.append_assoc, show str " (" ++ (v ++ (str ")" ++ u)) = ' ' :: '(' :: (v ++ (')' :: u)) from rfl,
      h2 _ (endsSymb_space _), lex_sp, lex_lpar (head_append hv.first), h4 _ (endsSymb_rpar _), lex_rpar]
    simp

theorem TokText.arrow {s v : Str} {t t' : PTerm PSymb} (hs : TokText GApp s t) (hv : TokText GTerm v t') :
    TokText GTerm (s ++ str " -> " ++ v) (arrowOf t t') := by
  obtain ⟨ts, h1, h2⟩ := hs.toks
  obtain ⟨us, h3, h4⟩ := hv.toks
  refine ⟨(hs.chars.append (by decide)).append hv.chars, ?_, ts ++ .arrow :: us, .arrow h1 h3, fun u hu => ?_⟩
  · rw [List.append_assoc]; exact head_append hs.first
  · rw [List.append_assoc, List.append_assoc, show str " -> " ++ (v ++ u) = ' ' :: '-' :: '>' :: ' ' :: (v ++ u) from rfl,
      h2 _ (endsSymb_space _), lex_sp, lex_arrow, lex_sp, h4 _ hu]
    simp

theorem TokText.abst {x s v : Str} {t t' : PTerm PSymb} (hx : NameText x) (hs : TokText GApp s t) (hv : TokText GTerm v t') :
    TokText GTerm (x ++ str " : " ++ s ++ str " => " ++ v) (.app (.abst x (some t) t') []) := by
  obtain ⟨ts, h1, h2⟩ := hs.toks
  obtain ⟨us, h3, h4⟩ := hv.toks
  refine ⟨(((hx.chars.append (by decide)).append hs.chars).append (by decide)).append hv.chars, ?_, nameTok x :: .colon :: ts ++ .fatArrow :: us,
    .abstTy h1 h3, fun u hu => ?_⟩
  · rw [List.append_assoc, List.append_assoc, List.append_assoc]; exact head_append hx.first
  · rw [List.append_assoc, List.append_assoc, List.append_assoc, List.append_assoc, show str " : " ++ (s ++ (str " => " ++ (v ++ u))) =
      ' ' :: ':' :: ' ' :: (s ++ (' ' :: '=' :: '>' :: ' ' :: (v ++ u))) from rfl, hx.lex (endsSymb_space _), lex_sp, lex_colon, h2 _ (endsSymb_space _),
      lex_sp, lex_fatArrow, lex_sp, h4 _ hu]
    simp

/-- the same for arguments -/
def ArgsText (s : Str) (as : List (Str × PTerm PSymb)) : Prop :=
  PlainChars s ∧ ∃ ts, GArgs ts as ∧ ∀ u, lex (s ++ ' ' :: u) = ts ++ lex u ∧ EndsSymb (s ++ ' ' :: u)

theorem ArgsText.nil : ArgsText [] [] := ⟨by decide, [], .nil, fun u => ⟨lex_sp u, endsSymb_space u⟩⟩

theorem ArgsText.cons {x s v : Str} {t : PTerm PSymb} {as : List (Str × PTerm PSymb)} (hx : NameText x) (hs : TokText GTerm s t) (hv : ArgsText v as) :
    ArgsText (str " (" ++ x ++ str " : " ++ s ++ str ")" ++ v) ((x, t) :: as) := by
  obtain ⟨ts, h1, h2⟩ := hs.toks
  obtain ⟨hc, us, h3, h4⟩ := hv
  refine ⟨?_, .lpar :: nameTok x :: .colon :: ts ++ .rpar :: us, .cons h1 h3, fun u => ⟨?_, endsSymb_space _⟩⟩
  · exact (((((PlainChars.append (by decide) hx.chars).append (by decide)).append hs.chars).append (by decide)).append hc)
  · rw [show str " (" ++ x ++ str " : " ++ s ++ str ")" ++ v ++ ' ' :: u = ' ' :: '(' :: (x ++ (' ' :: ':' :: ' ' :: (s ++ (')' :: (v ++ ' ' :: u))))) from by
      simp [str], lex_sp, lex_lpar (head_append hx.first), hx.lex (endsSymb_space _), lex_sp, lex_colon, h2 _ (endsSymb_rpar _), lex_rpar, (h4 u).1]
    simp

theorem lex_lastDot : lex ['.'] = [.dot] := by decide

theorem LineOf.decl {x s : Str} {t : PTerm PSymb} (hx : NameText x) (hs : TokText GTerm s t) :
    LineOf (x ++ str " : " ++ s ++ str ".") (.intro x [] (.declaration false t)) := by
  obtain ⟨ts, h1, h2⟩ := hs.toks
  refine ⟨((hx.chars.append (by decide)).append hs.chars).append (by decide), nameTok x :: [] ++ .colon :: ts, .decl .nil h1, ?_⟩
  rw [show x ++ str " : " ++ s ++ str "." = x ++ (' ' :: ':' :: ' ' :: (s ++ ['.'])) from by simp [str], hx.lex (endsSymb_space _), lex_sp, lex_colon,
    h2 _ (by trivial), lex_lastDot]
  simp

theorem LineOf.defTm {x a s : Str} {as : List (Str × PTerm PSymb)} {t : PTerm PSymb} (hx : NameText x) (ha : ArgsText a as) (hs : TokText GTerm s t) :
    LineOf (str "def " ++ x ++ a ++ str " := " ++ s ++ str ".") (.intro x as (.definition none (some t))) := by
  obtain ⟨ts, h1, h2⟩ := hs.toks
  obtain ⟨hc, us, h3, h4⟩ := ha
  refine ⟨((((PlainChars.append (by decide) hx.chars).append hc).append (by decide)).append hs.chars).append (by decide),
    .def_ :: nameTok x :: us ++ .colonEq :: ts, .defTm h3 h1, ?_⟩
  rw [show str "def " ++ x ++ a ++ str " := " ++ s ++ str "." = str "def" ++ (' ' :: (x ++ (a ++ ' ' :: (':' :: '=' :: ' ' :: (s ++ ['.']))))) from by simp [str],
    lex_keyword (t := .def_) (by simp) (by exact (rfl : identTail ' ' = false)), lex_sp, hx.lex (h4 _).2, (h4 _).1, lex_colonEq, lex_sp, h2 _ (by trivial), lex_lastDot]
  simp

/-! ## Names -/

theorem NameText.of {c : Char} {t : Str} (h : IdentStart c) (ht : ∀ d ∈ t, IdentStart d) (hk : c :: t ∉ keywords) (hc : c ≠ ';')
    (hp : PlainChars (c :: t)) : NameText (c :: t) := ⟨⟨.inl ⟨c, t, rfl, h, fun d hd => .inl (ht d hd)⟩, hk⟩, hp, c, t, rfl, hc⟩

theorem NameText.num {x : Str} (h : NameText x) (hx : IsIdent x) (n : Nat) : NameText (x ++ decimal n) := by
  refine ⟨⟨.inl (ident_decimal hx n), fun hm => ?_⟩, h.chars.append digit_plain, head_append h.first⟩
  obtain ⟨d, ds, hd⟩ := List.exists_cons_of_ne_nil (decimal_ne n)
  have h1 : d.isDigit = true := decimal_digit (n := n) (by rw [hd]; simp)
  have h2 : ∀ k ∈ keywords, ∀ c ∈ k, c.isDigit = false := by decide
  have := h2 _ hm d (by rw [hd]; simp)
  rw [h1] at this
  cases this

/-- the names of the benchmarks -/
theorem benchNames : ∀ x ∈ [str "a", str "x", str "y", str "0", str "p", str "f", str "fs", str "fst", str "snd", str "A", str "id", str "Type"],
    NameText x ∧ IsIdent x := by
  have key : ∀ x ∈ [str "a", str "x", str "y", str "0", str "p", str "f", str "fs", str "fst", str "snd", str "A", str "id", str "Type"],
      x ≠ [] ∧ (∀ c ∈ x, c.isAlphanum = true) ∧ x ∉ keywords ∧ PlainChars x := by decide
  intro x hx
  obtain ⟨h1, h2, h3, h4⟩ := key x hx
  cases x with
  | nil => exact absurd rfl h1
  | cons c t =>
    have hs : ∀ d ∈ c :: t, IdentStart d := fun d hd => .inl (h2 d hd)
    refine ⟨.of (hs c List.mem_cons_self) (fun d hd => hs d (List.mem_cons_of_mem _ hd)) h3 ?_ h4, c, t, rfl, hs c List.mem_cons_self,
      fun d hd => .inl (hs d (List.mem_cons_of_mem _ hd))⟩
    rintro rfl
    exact absurd (h2 ';' List.mem_cons_self) (by decide)

/-! ## Terms -/

theorem abstChain_text (n : Nat) : TokText GTerm ((List.replicate n (str "x : a => ")).flatten ++ str "x") (abstChainTm n) := by
  have hx := (benchNames (str "x") (by decide)).1
  have ha := (benchNames (str "a") (by decide)).1
  induction n with
  | zero => exact hx.text.term
  | succ n ih =>
    have := TokText.abst hx ha.text ih
    rw [List.replicate_succ, List.flatten_cons, List.append_assoc]
    exact this

theorem prodChain_text (n : Nat) : TokText GTerm (str "a" ++ (List.replicate n (str " -> a")).flatten) (prodChainTy n) := by
  have ha := (benchNames (str "a") (by decide)).1
  induction n with
  | zero => exact ha.text.term
  | succ n ih => exact TokText.arrow ha.text ih

theorem btree_text (n : Nat) : ∀ {s : Str} {h : PHead PSymb} {as : List (PTerm PSymb)}, TokText GApp s (.app h as) →
    TokText GApp (s ++ btreeApp n) (.app h (as ++ [btreeTm n])) := by
  have h0 := (benchNames (str "0") (by decide)).1
  have hf := (benchNames (str "f") (by decide)).1
  induction n with
  | zero =>
    intro s h as hs
    have := hs.arg h0
    rw [List.append_assoc] at this
    exact this
  | succ n ih =>
    intro s h as hs
    have := hs.parArg (ih (ih hf.text)).term
    have e : s ++ str " (" ++ (str "f" ++ btreeApp n ++ btreeApp n) ++ str ")" = s ++ btreeApp (n + 1) := by simp [btreeApp, str]
    rw [e] at this
    exact this

theorem fsText_text (n : Nat) : ∀ {f : Str}, NameText f → TokText GApp (fsText f n) (fsTm f n) := by
  have hx := (benchNames (str "x") (by decide)).1
  have hy := (benchNames (str "y") (by decide)).1
  have hf := (benchNames (str "fst") (by decide)).1
  have hs := (benchNames (str "snd") (by decide)).1
  induction n with
  | zero =>
    intro f h
    have := (h.text.arg hx).arg hy
    have e : f ++ str " " ++ str "x" ++ str " " ++ str "y" = fsText f 0 := by simp [fsText, str]
    rw [e] at this
    exact this
  | succ n ih =>
    intro f h
    have := (h.text.parArg (ih hf).term).parArg (ih hs).term
    have e : f ++ str " (" ++ fsText (str "fst") n ++ str ")" ++ str " (" ++ fsText (str "snd") n ++ str ")" = fsText f (n + 1) := by simp [fsText, str]
    rw [e] at this
    exact this

theorem idText_text (n : Nat) : ∀ {s : Str} {h : PHead PSymb} {as : List (PTerm PSymb)}, TokText GApp s (.app h as) →
    TokText GApp (s ++ str " " ++ idText n) (.app h (as ++ [idTm n])) := by
  have hx := (benchNames (str "x") (by decide)).1
  have hi := (benchNames (str "id") (by decide)).1
  induction n with
  | zero => exact fun hs => hs.arg hx
  | succ n ih =>
    intro s h as hs
    have := hs.parArg (ih hi.text).term
    have e : s ++ str " (" ++ (str "id" ++ str " " ++ idText n) ++ str ")" = s ++ str " " ++ idText (n + 1) := by simp [idText, str]
    rw [e] at this
    exact this

theorem idText_term (n : Nat) : TokText GTerm (idText (n + 1)) (idTm (n + 1)) := by
  have hi := (benchNames (str "id") (by decide)).1
  have := (idText_text n hi.text).term.par.term
  have e : str "(" ++ (str "id" ++ str " " ++ idText n) ++ str ")" = idText (n + 1) := by simp [idText, str]
  rw [e] at this
  exact this

/-! ## Lines -/

/-- the lines that are printed by `main` of `abst_chain.rs` -/
def abstChainLine : Nat → Str
  | 0 => str "a : Type."
  | n + 1 => str "def a" ++ decimal (n + 1) ++ str " := " ++ (List.replicate (n + 1) (str "x : a => ")).flatten ++ str "x."

theorem abstChainLine_round (n : Nat) : abstChainLine (n + 1) = str "def a" ++ decimal (n + 1) ++ str " := " ++ (List.replicate (n + 1) (str "x : a => ")).flatten ++ str "x." := by delta abstChainLine; rfl

def prodChainLine : Nat → Str
  | 0 => str "a : Type."
  | n + 1 => str "a" ++ decimal (n + 1) ++ str " : a" ++ (List.replicate n (str " -> a")).flatten ++ str "."

theorem prodChainLine_round (n : Nat) : prodChainLine (n + 1) = str "a" ++ decimal (n + 1) ++ str " : a" ++ (List.replicate n (str " -> a")).flatten ++ str "." := by delta prodChainLine; rfl

def btreeLine : Nat → Str
  | 0 => str "a : Type."
  | 1 => str "0 : a."
  | 2 => str "p : a -> Type."
  | 3 => str "f : a -> a -> a."
  | n + 4 => str "a" ++ decimal n ++ str " : p" ++ btreeApp (n + 1) ++ str "."

theorem btreeLine_round (n : Nat) : btreeLine (n + 4) = str "a" ++ decimal n ++ str " : p" ++ btreeApp (n + 1) ++ str "." := by delta btreeLine; rfl

def fstSndLine : Nat → Str
  | 0 => str "A : Type."
  | 1 => str "def fst (x : A) (y : A) := x."
  | 2 => str "def snd (x : A) (y : A) := y."
  | n + 3 => str "def fs" ++ decimal (n + 1) ++ str " (x : A) (y : A) := " ++ fsText (str "fst") (n + 1) ++ str "."

theorem fstSndLine_round (n : Nat) : fstSndLine (n + 3) = str "def fs" ++ decimal (n + 1) ++ str " (x : A) (y : A) := " ++ fsText (str "fst") (n + 1) ++ str "." := by delta fstSndLine; rfl

def idLine : Nat → Str
  | 0 => str "A : Type."
  | 1 => str "def id (x : A) := x."
  | n + 2 => str "def id" ++ decimal (n + 1) ++ str " (x : A) := " ++ idText (n + 1) ++ str "."

theorem idLine_round (n : Nat) : idLine (n + 2) = str "def id" ++ decimal (n + 1) ++ str " (x : A) := " ++ idText (n + 1) ++ str "." := by delta idLine; rfl

theorem abstChain_line (n : Nat) : LineOf (abstChainLine n) (abstChainCmds n) := by
  have ha := benchNames (str "a") (by decide)
  match n with
  | 0 => exact .decl ha.1 (benchNames (str "Type") (by decide)).1.text.term
  | n + 1 =>
    have := LineOf.defTm (ha.1.num ha.2 (n + 1)) .nil (abstChain_text (n + 1))
    refine Eq.subst (motive := fun l => LineOf l _) ?_ this
    simp [abstChainLine_round, str]

theorem prodChain_line (n : Nat) : LineOf (prodChainLine n) (prodChainCmds n) := by
  have ha := benchNames (str "a") (by decide)
  match n with
  | 0 => exact .decl ha.1 (benchNames (str "Type") (by decide)).1.text.term
  | n + 1 =>
    have := LineOf.decl (ha.1.num ha.2 (n + 1)) (prodChain_text n)
    refine Eq.subst (motive := fun l => LineOf l _) ?_ this
    simp [prodChainLine_round, str]

theorem btree_line (n : Nat) : LineOf (btreeLine n) (btreeCmds n) := by
  have ha := benchNames (str "a") (by decide)
  have ht := (benchNames (str "Type") (by decide)).1
  match n with
  | 0 => exact .decl ha.1 ht.text.term
  | 1 => exact .decl (benchNames (str "0") (by decide)).1 ha.1.text.term
  | 2 => exact .decl (benchNames (str "p") (by decide)).1 (.arrow ha.1.text ht.text.term)
  | 3 => exact .decl (benchNames (str "f") (by decide)).1 (prodChain_text 2)
  | n + 4 =>
    have := LineOf.decl (ha.1.num ha.2 n) (btree_text (n + 1) (benchNames (str "p") (by decide)).1.text).term
    refine Eq.subst (motive := fun l => LineOf l _) ?_ this
    simp [btreeLine_round, str]

theorem fstSnd_line (n : Nat) : LineOf (fstSndLine n) (fstSndCmds n) := by
  have hA := (benchNames (str "A") (by decide)).1
  have hx := (benchNames (str "x") (by decide)).1
  have hy := (benchNames (str "y") (by decide)).1
  have hf := benchNames (str "fs") (by decide)
  have h1 := (benchNames (str "fst") (by decide)).1
  have h2 := (benchNames (str "snd") (by decide)).1
  have has := ArgsText.cons hx hA.text.term (.cons hy hA.text.term .nil)
  match n with
  | 0 => exact .decl hA (benchNames (str "Type") (by decide)).1.text.term
  | 1 => exact .defTm h1 has hx.text.term
  | 2 => exact .defTm h2 has hy.text.term
  | n + 3 =>
    have := LineOf.defTm (hf.1.num hf.2 (n + 1)) has (fsText_text (n + 1) h1).term
    refine Eq.subst (motive := fun l => LineOf l _) ?_ this
    simp [fstSndLine_round, str]

theorem id_line (n : Nat) : LineOf (idLine n) (idCmds n) := by
  have hA := (benchNames (str "A") (by decide)).1
  have hx := (benchNames (str "x") (by decide)).1
  have hf := benchNames (str "id") (by decide)
  have has := ArgsText.cons hx hA.text.term .nil
  match n with
  | 0 => exact .decl hA (benchNames (str "Type") (by decide)).1.text.term
  | 1 => exact .defTm hf.1 has hx.text.term
  | n + 2 =>
    have := LineOf.defTm (hf.1.num hf.2 (n + 1)) has (idText_term n)
    refine Eq.subst (motive := fun l => LineOf l _) ?_ this
    simp [idLine_round, str]

/-! ## Texts -/

theorem unlines_append (ls ls' : List Str) : unlines (ls ++ ls') = unlines ls ++ unlines ls' := by
  induction ls with
  | nil => rfl
  | cons l ls ih => simp [unlines]

theorem printed_lines {first : List Str} {loop line : Nat → Str} (h1 : first = (List.range first.length).map fun k => line k ++ ['\n'])
    (h2 : ∀ k, loop k = line (first.length + k) ++ ['\n']) (n : Nat) : printed first loop n = unlines ((List.range (first.length + n)).map line) := by
  have key : ∀ ls : List Str, unlines ls = (ls.map (· ++ ['\n'])).flatten := by
    intro ls
    induction ls with
    | nil => rfl
    | cons l ls ih => simp [unlines]
  rw [key, List.range_add, List.map_append, List.map_append, List.flatten_append, printed]
  congr 1
  · conv_lhs => rw [h1]
    rw [List.map_map]
    rfl
  · rw [List.map_map, List.map_map]
    congr 1
    exact List.map_congr_left fun k _ => h2 k

theorem abstChainRound_line (k : Nat) : abstChainRound (k + 1) = abstChainLine (1 + k) ++ ['\n'] := by
  rw [Nat.add_comm 1, abstChainLine_round]
  delta abstChainRound
  generalize (List.replicate (k + 1) (str "x : a => ")).flatten = w
  simp only [List.append_assoc]
  rfl

theorem abstChain_lines (n : Nat) : abstChain n = unlines ((List.range (1 + n)).map abstChainLine) := printed_lines (line := abstChainLine) rfl abstChainRound_line n

theorem prodChainRound_line (k : Nat) : prodChainRound (k + 1) = prodChainLine (1 + k) ++ ['\n'] := by
  rw [Nat.add_comm 1, prodChainLine_round]
  delta prodChainRound
  simp only [List.append_assoc]
  rfl

theorem prodChain_lines (n : Nat) : prodChain n = unlines ((List.range (1 + n)).map prodChainLine) := printed_lines (line := prodChainLine) rfl prodChainRound_line n

theorem btreeRound_line (k : Nat) : btreeRound k = btreeLine (4 + k) ++ ['\n'] := by
  rw [Nat.add_comm 4, btreeLine_round]
  delta btreeRound
  simp only [List.append_assoc]
  rfl

theorem btree_lines (n : Nat) : btree n = unlines ((List.range (4 + n)).map btreeLine) := printed_lines (line := btreeLine) rfl btreeRound_line n

theorem fstSndRound_line (k : Nat) : fstSndRound (k + 1) = fstSndLine (3 + k) ++ ['\n'] := by
  rw [Nat.add_comm 3, fstSndLine_round]
  delta fstSndRound
  generalize fsText (str "fst") (k + 1) = w
  simp only [List.append_assoc]
  rfl

theorem fstSnd_lines (n : Nat) : fstSnd n = unlines ((List.range (3 + n)).map fstSndLine) := printed_lines (line := fstSndLine) rfl fstSndRound_line n

theorem idRound_line (k : Nat) : idRound (k + 1) = idLine (2 + k) ++ ['\n'] := by
  rw [Nat.add_comm 2, idLine_round]
  delta idRound
  generalize idText (k + 1) = w
  simp only [List.append_assoc]
  rfl

theorem id_lines (n : Nat) : idChain n = unlines ((List.range (2 + n)).map idLine) := printed_lines (line := idLine) rfl idRound_line n

end Kontroli
