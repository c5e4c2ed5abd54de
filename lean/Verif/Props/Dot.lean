import Verif.Model.Dot
import Verif.Spec.Dot
import Verif.Proofs.TextGrammar
import Mathlib.Data.Nat.Find

/-!
# C56: dependency graphs
-/

namespace Kontroli

/-! ## Lemmas -/

theorem white_iff (c : Char) : isWhite c = true ↔ White c := by
  have h (d : Char) : c = d ↔ c.toNat = d.toNat := ⟨fun h => h ▸ rfl, fun h => Char.ext (UInt32.toNat_inj.1 h)⟩
  simp only [White, List.mem_cons, List.not_mem_nil, or_false, h]
  simp only [isWhite, Bool.or_eq_true, Bool.and_eq_true, decide_eq_true_eq, beq_iff_eq]
  generalize c.toNat = n
  simp only [Char.reduceToNat]
  omega

theorem colonSep_cons (s : Str) : colonSep ++ s = ' ' :: ':' :: ' ' :: s := rfl

/-- without the separator, there is one piece -/
theorem splitColon_none : ∀ (acc s : Str), ¬ colonSep <:+: s → splitColon acc s = [acc ++ s]
  | acc, s, h => by
    unfold splitColon
    split
    next s => exact absurd ⟨[], s, rfl⟩ h
    next c s _ =>
      rw [splitColon_none _ s (fun ⟨x, y, e⟩ => h ⟨c :: x, y, by rw [← e]; rfl⟩)]
      simp
    next => simp

/-- there are at least two pieces at the first separator -/
theorem splitColon_first : ∀ (acc t d : Str), (∀ x y, t ++ colonSep ++ d = x ++ colonSep ++ y → t.length ≤ x.length) →
    splitColon acc (t ++ colonSep ++ d) = (acc ++ t) :: splitColon [] d
  | acc, [], d, _ => by
    show splitColon acc (' ' :: ':' :: ' ' :: d) = _
    rw [splitColon, List.append_nil]
  | acc, c :: t, d, h => by
    show splitColon acc (c :: (t ++ colonSep ++ d)) = _
    rw [splitColon]
    · rw [splitColon_first (acc ++ [c]) t d fun x y e => by
        have := h (c :: x) y (by simpa using e)
        simpa using this]
      simp
    · rintro s rfl e
      have := h [] s (by rw [List.cons_append, List.cons_append, e]; rfl)
      simp at this

/-- the first separator -/
theorem first_colon {s : Str} (h : colonSep <:+: s) :
    ∃ t d, s = t ++ colonSep ++ d ∧ ∀ x y, s = x ++ colonSep ++ y → t.length ≤ x.length := by
  classical
  have hex : ∃ n, ∃ x y, s = x ++ colonSep ++ y ∧ x.length = n := by
    obtain ⟨x, y, e⟩ := h
    exact ⟨_, x, y, e.symm, rfl⟩
  obtain ⟨t, d, h1, h2⟩ := Nat.find_spec hex
  refine ⟨t, d, h1, fun x y e => ?_⟩
  rw [h2]
  exact Nat.find_min' hex ⟨x, y, e, rfl⟩

theorem splitColon_iff (l t d : Str) : splitColon [] l = [t, d] ↔ RuleLine l t d := by
  constructor
  · intro h
    by_cases hi : colonSep <:+: l
    · obtain ⟨t', d', h1, h2⟩ := first_colon hi
      rw [h1, splitColon_first [] t' d' (h1 ▸ h2), List.nil_append] at h
      obtain ⟨rfl, h⟩ := List.cons.inj h
      by_cases hd : colonSep <:+: d'
      · obtain ⟨t'', d'', h3, h4⟩ := first_colon hd
        rw [h3, splitColon_first [] t'' d'' (h3 ▸ h4)] at h
        have h := (List.cons.inj h).2
        by_cases he : colonSep <:+: d''
        · obtain ⟨_, _, h5, h6⟩ := first_colon he
          rw [h5, splitColon_first _ _ _ (h5 ▸ h6)] at h
          cases h
        · rw [splitColon_none _ _ he] at h
          cases h
      · rw [splitColon_none _ _ hd] at h
        cases h
        exact ⟨h1, h2, hd⟩
    · rw [splitColon_none _ _ hi] at h
      cases h
  · rintro ⟨h1, h2, h3⟩
    rw [h1, splitColon_first [] t d (h1 ▸ h2), splitColon_none [] d h3]
    rfl

theorem splitWhite_words : ∀ (s acc : Str), (∀ c ∈ acc, ¬ White c) → Words (acc ++ s) (splitWhite acc s)
  | [], acc, h => by
    unfold splitWhite
    split
    next he =>
      obtain rfl := List.isEmpty_iff.1 he
      exact .nil (by simp)
    next he =>
      have := Words.cons (s := []) (w := acc) (r := []) (by simp) (fun e => he (by simp [e])) h (by simp) (.nil (by simp))
      simpa using this
  | c :: s, acc, h => by
    unfold splitWhite
    have h1 := splitWhite_words s [] (by simp)
    split
    next hc =>
      rw [white_iff] at hc
      have hw : Words (c :: s) (splitWhite [] s) := by
        rw [List.nil_append] at h1
        generalize splitWhite [] s = ws at h1
        cases h1 with
        | nil h => exact .nil (by simpa using ⟨hc, h⟩)
        | @cons s' w r ws h2 h3 h4 h5 h6 => exact .cons (s := c :: s') (by simpa using ⟨hc, h2⟩) h3 h4 h5 h6
      split
      next he =>
        obtain rfl := List.isEmpty_iff.1 he
        exact hw
      next he =>
        have := Words.cons (s := []) (w := acc) (r := c :: s) (by simp) (fun e => he (by simp [e])) h (by simpa using hc) hw
        simpa using this
    next hc =>
      rw [white_iff] at hc
      have := splitWhite_words s (acc ++ [c]) (by
        intro d hd
        rcases List.mem_append.1 hd with hd | hd
        · exact h d hd
        · simp at hd; exact hd ▸ hc)
      simpa using this

theorem splitWhite_skip : ∀ (s r : Str), (∀ c ∈ s, White c) → splitWhite [] (s ++ r) = splitWhite [] r
  | [], _, _ => rfl
  | c :: s, r, h => by
    rw [List.cons_append, splitWhite, if_pos ((white_iff c).2 (h c (.head _)))]
    exact splitWhite_skip s r fun c hc => h c (.tail _ hc)

theorem splitWhite_word : ∀ (w acc r : Str), (∀ c ∈ w, ¬ White c) → splitWhite acc (w ++ r) = splitWhite (acc ++ w) r
  | [], acc, r, _ => by simp
  | c :: w, acc, r, h => by
    rw [List.cons_append, splitWhite, if_neg (fun hc => h c (.head _) ((white_iff c).1 hc)),
      splitWhite_word w _ r fun c hc => h c (.tail _ hc)]
    simp

theorem Words.split {s : Str} {ws : List Str} (h : Words s ws) : splitWhite [] s = ws := by
  induction h with
  | nil h =>
    have := splitWhite_skip _ [] h
    rwa [List.append_nil] at this
  | @cons s w r ws h1 h2 h3 h4 _ ih =>
    have hw : w.isEmpty = false := by simpa using h2
    rw [List.append_assoc, splitWhite_skip _ _ h1, splitWhite_word _ _ _ h3, List.nil_append, ← ih]
    cases r with
    | nil => simp [splitWhite, hw]
    | cons c r =>
      have hc := (white_iff c).2 (h4 c rfl)
      rw [splitWhite, if_pos hc, if_neg (by simp [hw]), splitWhite, if_pos hc]
      rfl

theorem words_iff (s : Str) (ws : List Str) : Words s ws ↔ splitWhite [] s = ws := by
  refine ⟨Words.split, ?_⟩
  rintro rfl
  exact splitWhite_words s [] (by simp)

/-- the suffix in reverse -/
def dkoRev : Str := (str ".dko").reverse

theorem dropDkoRev_parts : ∀ s : Str, (∃ n, s = (List.replicate n dkoRev).flatten ++ dropDkoRev s) ∧ ¬ dkoRev <+: dropDkoRev s
  | s => by
    unfold dropDkoRev
    split
    next u =>
      obtain ⟨⟨n, h⟩, h'⟩ := dropDkoRev_parts u
      refine ⟨⟨n + 1, ?_⟩, h'⟩
      rw [List.replicate_succ, List.flatten_cons, List.append_assoc, ← h]
      rfl
    next hn =>
      refine ⟨⟨0, rfl⟩, ?_⟩
      rintro ⟨t, rfl⟩
      exact hn t rfl

theorem flatten_replicate_reverse (n : Nat) (w : Str) : ((List.replicate n w).flatten).reverse = (List.replicate n w.reverse).flatten := by
  induction n with
  | zero => rfl
  | succ n ih =>
    rw [List.replicate_succ', List.replicate_succ, List.flatten_append, List.reverse_append, ih]
    simp

theorem dropDkoRev_strip (n : Nat) (s : Str) (h : ¬ dkoRev <+: s) : dropDkoRev ((List.replicate n dkoRev).flatten ++ s) = s := by
  induction n with
  | zero =>
    show dropDkoRev s = s
    unfold dropDkoRev
    split
    next s => exact absurd ⟨s, rfl⟩ h
    next => rfl
  | succ n ih =>
    rw [List.replicate_succ, List.flatten_cons, List.append_assoc]
    exact ih

theorem trimmed_iff (f g : Str) : Trimmed f g ↔ trimDko f = g := by
  constructor
  · rintro ⟨⟨n, rfl⟩, h⟩
    rw [trimDko, List.reverse_append, flatten_replicate_reverse]
    rw [show (str ".dko").reverse = dkoRev from rfl, dropDkoRev_strip n _ ?_, List.reverse_reverse]
    rw [dkoRev, List.reverse_prefix]
    exact h
  · rintro rfl
    obtain ⟨⟨n, h1⟩, h2⟩ := dropDkoRev_parts f.reverse
    refine ⟨⟨n, ?_⟩, ?_⟩
    · have := congrArg List.reverse h1
      rwa [List.reverse_reverse, List.reverse_append, flatten_replicate_reverse, dkoRev, List.reverse_reverse] at this
    · rw [trimDko, ← List.reverse_prefix, List.reverse_reverse]
      exact h2

/-! ## The property -/

/-- the lines of the output for some edges -/
def dotEdges (es : List (Str × Str)) : Str := es.flatMap fun e => e.1 ++ str " -> " ++ e.2 ++ str ";\n"

theorem dotLine_edges (l : Str) (es : List (Str × Str)) (h : LineEdges l es) : dotLine l = dotEdges es := by
  rcases h with ⟨t, d, ws, t', h1, h2, h3, h4⟩ | ⟨h, rfl⟩
  · rw [dotLine, (splitColon_iff l t d).2 h1]
    simp only [(words_iff d ws).1 h2, (trimmed_iff t t').1 h3]
    generalize ws.drop 1 = vs at h4
    induction h4 with
    | nil => rfl
    | cons h _ ih =>
      obtain ⟨rfl, h⟩ := h
      rw [List.map_cons, List.flatMap_cons, (trimmed_iff _ _).1 h, ih]
      rfl
  · unfold dotLine
    split
    next t d he => exact absurd ⟨t, d, (splitColon_iff l t d).1 he⟩ h
    next => rfl

theorem lineEdges_exists (l : Str) : ∃ es, LineEdges l es := by
  by_cases h : ∃ t d, RuleLine l t d
  · obtain ⟨t, d, h⟩ := h
    refine ⟨((splitWhite [] d).drop 1).map fun w => (trimDko t, trimDko w), .inl ⟨t, d, _, _, h, (words_iff d _).2 rfl, (trimmed_iff t _).2 rfl, ?_⟩⟩
    generalize (splitWhite [] d).drop 1 = vs
    induction vs with
    | nil => exact .nil
    | cons v vs ih => exact .cons ⟨rfl, (trimmed_iff _ _).2 rfl⟩ ih
  · exact ⟨[], .inr ⟨h, rfl⟩⟩

theorem dotLines_edges : ∀ lines : List Str, ∃ ess, List.Forall₂ LineEdges lines ess ∧ lines.flatMap dotLine = dotEdges ess.flatten
  | [] => ⟨[], .nil, rfl⟩
  | l :: lines => by
    obtain ⟨ess, h1, h2⟩ := dotLines_edges lines
    obtain ⟨es, h3⟩ := lineEdges_exists l
    refine ⟨es :: ess, .cons h3 h1, ?_⟩
    rw [List.flatMap_cons, h2, dotLine_edges l es h3, List.flatten_cons, dotEdges, dotEdges, dotEdges, List.flatMap_append]

/-- C56. The output is a graph whose edges are given by the lines of the text, in order: from the target of a line to its dependencies,
without the first one, all without extension. -/
theorem C56_edges (text : Str) : ∃ lines ess, LinesOf text lines ∧ List.Forall₂ LineEdges lines ess ∧
    dep2dot text = str "digraph G {\n" ++ dotEdges ess.flatten ++ str "}\n" := by
  obtain ⟨ess, h1, h2⟩ := dotLines_edges (splitLines [] text)
  have h3 : LinesOf text (splitLines [] text) := (linesOf_iff text _).2 rfl
  have h4 : dep2dot text = str "digraph G {\n" ++ (splitLines [] text).flatMap dotLine ++ str "}\n" := rfl
  rw [h2] at h4
  exact ⟨splitLines [] text, ess, h3, h1, h4⟩

/-- C56. The edges of a line are unique, so this determines the output. -/
theorem C56_unique (l : Str) (es es' : List (Str × Str)) (h : LineEdges l es) (h' : LineEdges l es') : es = es' := by
  rcases h with ⟨t, d, ws, t', h1, h2, h3, h4⟩ | ⟨h, rfl⟩ <;> rcases h' with ⟨u, e, vs, u', h1', h2', h3', h4'⟩ | ⟨h', rfl⟩
  · have he := ((splitColon_iff l t d).2 h1).symm.trans ((splitColon_iff l u e).2 h1')
    cases he
    obtain rfl := h2.split.symm.trans h2'.split
    obtain rfl := ((trimmed_iff _ _).1 h3).symm.trans ((trimmed_iff _ _).1 h3')
    generalize ws.drop 1 = vs at h4 h4'
    induction h4 generalizing es' with
    | nil => cases h4'; rfl
    | cons h _ ih =>
      cases h4' with
      | cons h' h4' =>
        rw [ih _ h4']
        congr 1
        exact Prod.ext (h.1.trans h'.1.symm) (((trimmed_iff _ _).1 h.2).symm.trans ((trimmed_iff _ _).1 h'.2))
  · exact absurd ⟨t, d, h1⟩ h'
  · exact absurd ⟨u, e, h1'⟩ h
  · rfl

/-- a name of a module or file in a Makefile -/
def FileName (f : Str) : Prop := f ≠ [] ∧ (∀ c ∈ f, ¬ White c ∧ c ≠ ':') ∧ ¬ str ".dko" <:+ f

/-- a line of a Makefile, as `dkdep` writes it: a module, its file, and the modules it depends on -/
def makeLine (r : Str × Str × List Str) : Str := r.1 ++ str ".dko : " ++ r.2.1 ++ r.2.2.flatMap fun d => str " " ++ d ++ str ".dko"

theorem trimmed_dko {f : Str} (h : FileName f) : Trimmed (f ++ str ".dko") f := ⟨⟨1, by simp⟩, h.2.2⟩

theorem words_deps : ∀ ds : List Str, (∀ d ∈ ds, FileName d) → Words (ds.flatMap fun d => str " " ++ d ++ str ".dko") (ds.map (· ++ str ".dko"))
  | [], _ => .nil (by simp)
  | d :: ds, h => by
    have hd := h d (.head _)
    have := Words.cons (s := str " ") (w := d ++ str ".dko") (by simp [str, White]) (by simp [str]) (fun c hc => ?_) (fun c hc => ?_)
      (words_deps ds fun d hd => h d (.tail _ hd))
    · simpa using this
    · rcases List.mem_append.1 hc with hc | hc
      · exact (hd.2.1 c hc).1
      · have : ∀ c ∈ str ".dko", ¬ isWhite c = true := by decide
        exact fun hw => this c hc ((white_iff c).2 hw)
    · cases ds with
      | nil => cases hc
      | cons e ds => cases hc; exact (white_iff _).1 (by decide)

theorem makeLine_edges (r : Str × Str × List Str) (h1 : FileName r.1) (h2 : FileName r.2.1) (h3 : ∀ d ∈ r.2.2, FileName d) :
    LineEdges (makeLine r) (r.2.2.map fun d => (r.1, d)) := by
  obtain ⟨t, s, ds⟩ := r
  have hdko : ∀ c ∈ str ".dko", ¬ White c ∧ c ≠ ':' := by
    intro c hc
    have : ∀ c ∈ str ".dko", ¬ isWhite c = true ∧ c ≠ ':' := by decide
    exact ⟨fun hw => (this c hc).1 ((white_iff c).2 hw), (this c hc).2⟩
  refine .inl ⟨t ++ str ".dko", s ++ ds.flatMap fun d => str " " ++ d ++ str ".dko", s :: ds.map (· ++ str ".dko"), t, ⟨?_, ?_, ?_⟩, ?_,
    trimmed_dko h1, ?_⟩
  · show t ++ (str ".dko" ++ colonSep) ++ s ++ _ = _
    simp only [List.append_assoc]
  · intro x y e
    have e : (t ++ str ".dko") ++ (colonSep ++ (s ++ ds.flatMap fun d => str " " ++ d ++ str ".dko")) = x ++ (colonSep ++ y) := by
      rw [← List.append_assoc x, ← e]
      show _ = t ++ (str ".dko" ++ colonSep) ++ s ++ _
      simp only [List.append_assoc]
    rcases List.append_eq_append_iff.1 e with ⟨as, h, -⟩ | ⟨bs, h, h'⟩
    · rw [h, List.length_append (as := t ++ str ".dko") (bs := as)]
      exact Nat.le_add_right _ _
    · cases bs with
      | nil =>
        rw [h, List.append_nil]
      | cons c bs =>
        obtain rfl : ' ' = c := (List.cons.inj h').1
        exfalso
        have hm : ' ' ∈ t ++ str ".dko" := by
          rw [h]
          simp
        have hw : White ' ' := (white_iff _).1 (by decide)
        rcases List.mem_append.1 hm with hm | hm
        · exact (h1.2.1 _ hm).1 hw
        · exact (hdko _ hm).1 hw
  · rintro ⟨x, y, e⟩
    have hm : ':' ∈ s ++ ds.flatMap fun d => str " " ++ d ++ str ".dko" := by
      rw [← e]
      refine List.mem_append_left _ (List.mem_append_right _ ?_)
      decide
    rcases List.mem_append.1 hm with hm | hm
    · exact (h2.2.1 _ hm).2 rfl
    · obtain ⟨d, hd, hm⟩ := List.mem_flatMap.1 hm
      rcases List.mem_append.1 hm with hm | hm
      · rcases List.mem_append.1 hm with hm | hm
        · revert hm
          decide
        · exact ((h3 d hd).2.1 _ hm).2 rfl
      · exact (hdko _ hm).2 rfl
  · have := Words.cons (s := []) (w := s) (by simp) h2.1 (fun c hc => (h2.2.1 c hc).1) (fun c hc => ?_) (words_deps ds h3)
    · simpa using this
    · cases ds with
      | nil => cases hc
      | cons e ds => cases hc; exact (white_iff _).1 (by decide)
  · show List.Forall₂ _ (ds.map (· ++ str ".dko")) (ds.map fun d => (t, d))
    clear h1 h2
    induction ds with
    | nil => exact .nil
    | cons d ds ih => exact .cons ⟨rfl, trimmed_dko (h3 d (.head _))⟩ (ih fun d hd => h3 d (.tail _ hd))

/-- lines that are written one after the other are read one after the other -/
theorem splitLines_flatMap {α : Type} (f : α → Str) : ∀ as : List α, (∀ a ∈ as, '\n' ∉ f a ∧ (f a).getLast? ≠ some '\r') →
    LinesOf (as.flatMap fun a => f a ++ str "\n") (as.map f)
  | [], _ => .nil
  | a :: as, h => by
    have := LinesOf.lf (h a (.head _)).1 (h a (.head _)).2 (splitLines_flatMap f as fun b hb => h b (.tail _ hb))
    simpa using this

/-- C56. For a Makefile as written by `dkdep`, the graph has an edge from each module to the modules it depends on. -/
theorem C56_makefile (rs : List (Str × Str × List Str)) (h : ∀ r ∈ rs, FileName r.1 ∧ FileName r.2.1 ∧ ∀ d ∈ r.2.2, FileName d) :
    dep2dot (rs.flatMap fun r => makeLine r ++ str "\n") =
      str "digraph G {\n" ++ dotEdges (rs.flatMap fun r => r.2.2.map fun d => (r.1, d)) ++ str "}\n" := by
  have hw : ∀ c ∈ str ".dko" ++ str ".dko : " ++ str " ", c ≠ '\n' ∧ c ≠ '\r' := by decide
  have hn : ∀ f, FileName f → ∀ c ∈ f, c ≠ '\n' ∧ c ≠ '\r' := fun f hf c hc =>
    ⟨fun e => (hf.2.1 c hc).1 (e ▸ (white_iff _).1 (by decide)), fun e => (hf.2.1 c hc).1 (e ▸ (white_iff _).1 (by decide))⟩
  have hl : ∀ r ∈ rs, ∀ c ∈ makeLine r, c ≠ '\n' ∧ c ≠ '\r' := by
    intro r hr c hc
    obtain ⟨h1, h2, h3⟩ := h r hr
    rcases List.mem_append.1 hc with hc | hc
    · rcases List.mem_append.1 hc with hc | hc
      · rcases List.mem_append.1 hc with hc | hc
        · exact hn _ h1 c hc
        · exact hw c (by simp [hc])
      · exact hn _ h2 c hc
    · obtain ⟨d, hd, hc⟩ := List.mem_flatMap.1 hc
      rcases List.mem_append.1 hc with hc | hc
      · rcases List.mem_append.1 hc with hc | hc
        · exact hw c (by simp [hc])
        · exact hn _ (h3 d hd) c hc
      · exact hw c (by simp [hc])
  have h1 : splitLines [] (rs.flatMap fun r => makeLine r ++ str "\n") = rs.map makeLine :=
    ((linesOf_iff _ _).1 (splitLines_flatMap makeLine rs fun r hr =>
      ⟨fun hm => (hl r hr _ hm).1 rfl, fun hm => (hl r hr _ (List.mem_of_getLast? hm)).2 rfl⟩)).symm
  have h2 : (rs.map makeLine).flatMap dotLine = dotEdges (rs.flatMap fun r => r.2.2.map fun d => (r.1, d)) := by
    clear h1 hl
    induction rs with
    | nil => rfl
    | cons r rs ih =>
      obtain ⟨h1, h2, h3⟩ := h r (.head _)
      rw [List.map_cons, List.flatMap_cons, ih fun r hr => h r (.tail _ hr), dotLine_edges _ _ (makeLine_edges r h1 h2 h3), List.flatMap_cons,
        dotEdges, dotEdges, dotEdges, List.flatMap_append]
  have h3 : ∀ text, dep2dot text = str "digraph G {\n" ++ (splitLines [] text).flatMap dotLine ++ str "}\n" := fun _ => rfl
  rw [h3, h1, h2]

/-- a Makefile with an empty line, a rule for everything, and two colons in a line -/
example : dep2dot (str "nat.dko : nat.dk\r\n\nadd.dko : add.dk nat.dko\tlogic.dko.dko\nall: add.dko\na : b : c d\nx : : y z.dko") =
    str "digraph G {\nadd -> nat;\nadd -> logic;\nx -> y;\nx -> z;\n}\n" := by decide +kernel

/-- the hypotheses of `C56_makefile` -/
example : ∀ f ∈ [str "nat", str "add.dk", str "a-b/c"], FileName f := by
  have h : ∀ f ∈ [str "nat", str "add.dk", str "a-b/c"], f ≠ [] ∧ (∀ c ∈ f, ¬ isWhite c = true ∧ c ≠ ':') ∧ ¬ str ".dko" <:+ f := by decide
  intro f hf
  obtain ⟨h1, h2, h3⟩ := h f hf
  exact ⟨h1, fun c hc => ⟨fun hw => (h2 c hc).1 ((white_iff c).2 hw), (h2 c hc).2⟩, h3⟩

#print axioms C56_edges
#print axioms C56_unique
#print axioms C56_makefile

end Kontroli
