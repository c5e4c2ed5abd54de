import Verif.Spec.Symbols

/-!
# Lemmas on the symbol table
-/

namespace Kontroli

namespace Symbols

theorem mem_prefixes {l p : List Str} : p ∈ prefixes l ↔ p <+: l := by
  induction l generalizing p with
  | nil => simp [prefixes]
  | cons x xs ih =>
    simp only [prefixes, List.mem_append, List.mem_map, List.mem_singleton]
    constructor
    · rintro (⟨q, hq, rfl⟩ | rfl)
      · exact (List.prefix_cons_inj x).2 (ih.1 hq)
      · exact List.nil_prefix
    · intro h
      cases p with
      | nil => exact .inr rfl
      | cons y ys =>
        rw [List.cons_prefix_cons] at h
        obtain ⟨rfl, h⟩ := h
        exact .inl ⟨ys, ih.2 h, rfl⟩

theorem prefixes_sorted (l : List Str) : (prefixes l).Pairwise fun a b => b.length < a.length := by
  induction l with
  | nil => simp [prefixes]
  | cons x xs ih =>
    simp only [prefixes]
    rw [List.pairwise_append]
    refine ⟨?_, by simp, ?_⟩
    · rw [List.pairwise_map]
      exact ih.imp (by simp)
    · intro a ha b hb
      simp only [List.mem_map] at ha
      obtain ⟨q, -, rfl⟩ := ha
      simp only [List.mem_singleton] at hb
      subst hb
      simp

/-- lookup in the module at an absolute path -/
def at' (s : Symbols) (m : List Str) (name : Str) : Option Sym := (s.mods m).bind fun t => t name

theorem at'_some {s : Symbols} {m : List Str} {name : Str} {sym : Sym} : s.at' m name = some sym ↔ s.Provides m name sym := by
  unfold at' Provides
  rw [Option.bind_eq_some_iff]

theorem get_eq {s : Symbols} {path : List Str} {name : Str} :
    s.get path name = (prefixes s.path).findSome? fun p => s.at' (p ++ path) name := by
  unfold get find
  rw [List.filterMap_filterMap, List.head?_filterMap]
  rfl

theorem get_some {s : Symbols} {path : List Str} {name : Str} {sym : Sym} :
    s.get path name = some sym ↔ s.Resolves path name sym := by
  rw [get_eq, List.findSome?_eq_some_iff]
  have hs := prefixes_sorted s.path
  constructor
  · rintro ⟨l1, m, l2, he, h1, h2⟩
    have hm : m <+: s.path := mem_prefixes.1 (by rw [he]; simp)
    refine ⟨m, hm, at'_some.1 h1, ?_⟩
    intro m' hm' hl sym' hp
    have hmem := mem_prefixes.2 hm'
    rw [he] at hmem hs
    rw [List.pairwise_append] at hs
    rcases List.mem_append.1 hmem with h | h
    · have := h2 m' h
      rw [at'_some.2 hp] at this
      exact absurd this (by simp)
    · rcases List.mem_cons.1 h with rfl | h
      · exact absurd hl (Nat.lt_irrefl _)
      · have := (List.pairwise_cons.1 hs.2.1).1 m' h
        omega
  · rintro ⟨m, hm, hp, h⟩
    obtain ⟨l1, l2, he⟩ := List.append_of_mem (mem_prefixes.2 hm)
    refine ⟨l1, m, l2, he, at'_some.2 hp, fun m' hm' => ?_⟩
    cases hc : s.at' (m' ++ path) name with
    | none => rfl
    | some sym' =>
      refine absurd (at'_some.1 hc) (h m' (mem_prefixes.1 (by rw [he]; simp [hm'])) ?_ sym')
      rw [he, List.pairwise_append] at hs
      exact hs.2.2 m' hm' m (by simp)

theorem get_none {s : Symbols} {path : List Str} {name : Str} :
    s.get path name = none ↔ ∀ m, m <+: s.path → ∀ sym, ¬ s.Provides (m ++ path) name sym := by
  rw [get_eq, List.findSome?_eq_none_iff]
  constructor
  · intro h m hm sym hp
    have := h m (mem_prefixes.2 hm)
    rw [at'_some.2 hp] at this
    exact absurd this (by simp)
  · intro h m hm
    cases hc : s.at' (m ++ path) name with
    | none => rfl
    | some sym => exact absurd (at'_some.1 hc) (h m (mem_prefixes.1 hm) sym)

/-- the current module is looked at first -/
theorem get_nil {s : Symbols} {name : Str} {sym : Sym} (h : s.at' s.path name = some sym) : s.get [] name = some sym := by
  rw [get_some]
  refine ⟨s.path, List.prefix_rfl, by rw [List.append_nil]; exact at'_some.1 h, fun m' hm' hl => ?_⟩
  have := hm'.length_le
  omega

theorem insert_at' {s : Symbols} {name : Str} {sym : Sym} (m : List Str) (n : Str) :
    (s.insert name sym).1.at' m n = if m = s.path ∧ n = name then some sym else s.at' m n := by
  unfold insert at' cur
  by_cases hm : m = s.path
  · subst hm
    by_cases hn : n = name
    · simp [hn]
    · cases h : s.mods s.path <;> simp [hn]
  · simp [hm]

theorem get_congr {s s' : Symbols} (hp : s'.path = s.path) {path : List Str} {name : Str}
    (h : ∀ m, m <+: s.path → s'.at' (m ++ path) name = s.at' (m ++ path) name) : s'.get path name = s.get path name := by
  rw [get_eq, get_eq, hp]
  have : ∀ l : List (List Str), (∀ m ∈ l, m <+: s.path) →
      (l.findSome? fun p => s'.at' (p ++ path) name) = l.findSome? fun p => s.at' (p ++ path) name := by
    intro l
    induction l with
    | nil => simp
    | cons m l ih =>
      intro hl
      simp only [List.findSome?_cons]
      rw [h m (hl m (by simp)), ih fun m' hm' => hl m' (by simp [hm'])]
  exact this _ fun m hm => mem_prefixes.1 hm

/-! ## set_path -/

theorem openOrDefault_at' {s : Symbols} {x : Str} (m : List Str) (n : Str) : (s.openOrDefault x).at' m n = s.at' m n := by
  unfold openOrDefault at'
  by_cases hm : m = s.path ++ [x]
  · cases h : s.mods m <;> simp [hm] <;> simp [← hm, h]
  · simp [hm]

theorem foldl_at' {s : Symbols} {l : List Str} (m : List Str) (n : Str) : (l.foldl openOrDefault s).at' m n = s.at' m n := by
  induction l generalizing s with
  | nil => rfl
  | cons x xs ih => rw [List.foldl_cons, ih, openOrDefault_at']

theorem foldl_path {s : Symbols} {l : List Str} : (l.foldl openOrDefault s).path = s.path ++ l := by
  induction l generalizing s with
  | nil => simp
  | cons x xs ih => rw [List.foldl_cons, ih]; simp [openOrDefault]

theorem setPath_at' {s : Symbols} {l : List Str} (m : List Str) (n : Str) : (s.setPath l).at' m n = s.at' m n := by
  unfold setPath; rw [foldl_at']; rfl

theorem setPath_path {s : Symbols} {l : List Str} : (s.setPath l).path = l := by
  unfold setPath; rw [foldl_path]; rfl

theorem Wf.openOrDefault {s : Symbols} (h : s.Wf) (x : Str) : (s.openOrDefault x).Wf := by
  intro m hm
  simp only [Symbols.openOrDefault] at hm ⊢
  by_cases he : m = s.path ++ [x]
  · simp [he]
  · simp only [he, if_false]
    refine h m ?_
    rcases List.prefix_concat_iff.1 hm with h | h
    · exact absurd h he
    · exact h

theorem Wf.foldl {s : Symbols} (h : s.Wf) (l : List Str) : (l.foldl Symbols.openOrDefault s).Wf := by
  induction l generalizing s with
  | nil => exact h
  | cons x xs ih => exact ih (h.openOrDefault x)

theorem Wf.setPath {s : Symbols} (h : s.Wf) (l : List Str) : (s.setPath l).Wf := by
  refine Wf.foldl ?_ l
  intro m hm
  have : m = [] := by simpa [closeAll] using hm
  subst this
  exact h [] List.nil_prefix

theorem Wf.insert {s : Symbols} (h : s.Wf) (name : Str) (sym : Sym) : (s.insert name sym).1.Wf := by
  intro m hm
  simp only [Symbols.insert] at hm ⊢
  by_cases he : m = s.path
  · simp [he]
  · simp only [he, if_false]
    exact h m hm

theorem Wf.new : Symbols.new.Wf := by
  intro m hm
  have : m = [] := by simpa [Symbols.new] using hm
  subst this
  rfl

end Symbols

end Kontroli
