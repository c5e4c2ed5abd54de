import Verif.Model.Files
import Verif.Spec.Path

/-! # Paths: lemmas -/

namespace Kontroli

theorem splitSlashes_word (w : Str) (h : '/' ∉ w) : ∀ acc s, splitSlashes acc (w ++ '/' :: s) = (acc ++ w) :: splitSlashes [] s := by
  induction w with
  | nil => intro acc s; simp [splitSlashes]
  | cons c w ih =>
    intro acc s
    rw [List.cons_append, splitSlashes.eq_3 _ _ _ (fun e => h (by simp [e])), ih fun hd => h (List.mem_cons_of_mem _ hd)]
    simp

theorem splitSlashes_end (w : Str) (h : '/' ∉ w) : ∀ acc, splitSlashes acc w = [acc ++ w] := by
  induction w with
  | nil => intro acc; simp [splitSlashes]
  | cons c w ih =>
    intro acc
    rw [splitSlashes.eq_3 _ _ _ (fun e => h (by simp [e])), ih fun hd => h (List.mem_cons_of_mem _ hd)]
    simp

theorem splitSlashes_text (ps : List Str) (h : ∀ p ∈ ps, '/' ∉ p) (hn : ps ≠ []) : splitSlashes [] (pathText ps) = ps := by
  induction ps with
  | nil => exact absurd rfl hn
  | cons w ps ih =>
    cases ps with
    | nil => simpa [pathText] using splitSlashes_end w (h w (by simp)) []
    | cons v ps =>
      rw [show pathText (w :: v :: ps) = w ++ '/' :: pathText (v :: ps) from rfl, splitSlashes_word w (h w (by simp)),
        ih (fun x hx => h x (List.mem_cons_of_mem _ hx)) (by simp)]
      simp

/-- every text is a path with pieces -/
theorem exists_pieces (path : Str) : ∃ ps, ps ≠ [] ∧ (∀ p ∈ ps, '/' ∉ p) ∧ path = pathText ps := by
  induction path with
  | nil => exact ⟨[[]], by simp, by simp, rfl⟩
  | cons c s ih =>
    obtain ⟨ps, hn, h, e⟩ := ih
    cases ps with
    | nil => exact absurd rfl hn
    | cons p ps =>
      by_cases hc : c = '/'
      · subst hc
        exact ⟨[] :: p :: ps, by simp, by
          intro q hq
          rcases List.mem_cons.1 hq with rfl | hq
          · simp
          · exact h q hq, by rw [e]; rfl⟩
      · refine ⟨(c :: p) :: ps, by simp, ?_, ?_⟩
        · intro q hq
          rcases List.mem_cons.1 hq with rfl | hq
          · intro hm
            rcases List.mem_cons.1 hm with e | hm
            · exact hc e.symm
            · exact h p (by simp) hm
          · exact h q (List.mem_cons_of_mem _ hq)
        · rw [e]; cases ps <;> rfl

theorem stemOf_spec {name stem : Str} (hn : name ≠ ['.', '.']) : stemOf name = stem ↔ StemOf name stem := by
  have hex : ∃ s, StemOf name s := by
    by_cases hd : '.' ∈ name
    · have hr : '.' ∈ name.reverse := by simpa using hd
      obtain ⟨a, b, e, ha⟩ := List.eq_append_cons_of_mem hr
      have : name = b.reverse ++ '.' :: a.reverse := by
        rw [← List.reverse_reverse name, e]; simp
      cases hb : b.reverse with
      | nil => rw [hb, List.nil_append] at this; rw [this]; exact ⟨_, .hidden (by simpa using ha)⟩
      | cons c b' => rw [this]; exact ⟨_, .ext (by simp [hb]) (by simpa using ha)⟩
    · exact ⟨_, .plain hd⟩
  have hto : ∀ s, StemOf name s → stemOf name = s := by
    intro s h
    have hdrop : ∀ (e : Str), '.' ∉ e → ∀ t, (e ++ '.' :: t).dropWhile (· ≠ '.') = '.' :: t := by
      intro e he t
      rw [List.dropWhile_append_of_pos]
      · simp
      · intro c hc
        simpa using fun h : c = '.' => he (h ▸ hc)
    cases h with
    | ext hs he =>
      rename_i e
      have hd : ((s ++ '.' :: e).reverse.dropWhile (· ≠ '.')).tail.reverse = s := by
        rw [show (s ++ '.' :: e).reverse = e.reverse ++ '.' :: s.reverse by simp, hdrop _ (by simpa using he)]
        simp
      unfold stemOf
      rw [if_neg hn, if_pos (by simp), hd]
      cases s with
      | nil => exact absurd rfl hs
      | cons c s => rfl
    | plain h => unfold stemOf; rw [if_neg hn, if_neg h]
    | hidden he =>
      rename_i e
      have hd : (('.' :: e).reverse.dropWhile (· ≠ '.')).tail.reverse = [] := by
        rw [show ('.' :: e).reverse = e.reverse ++ '.' :: [] by simp, hdrop _ (by simpa using he)]
        rfl
      unfold stemOf
      rw [if_neg hn, if_pos (by simp), hd]
  constructor
  · rintro rfl
    obtain ⟨s, h⟩ := hex
    rw [hto s h]; exact h
  · exact hto stem

theorem filterMap_piece (ps : List Str) : ps.filterMap pieceComp =
    (naming ps).map fun p => if p = ['.', '.'] then .parentDir else .normal p := by
  induction ps with
  | nil => rfl
  | cons p ps ih =>
    rw [List.filterMap_cons, naming, List.filter_cons]
    rw [naming] at ih
    by_cases h1 : p = []
    · subst h1; rw [show pieceComp [] = none from rfl]; exact ih
    · by_cases h2 : p = ['.']
      · subst h2; rw [show pieceComp ['.'] = none from rfl]; exact ih
      · by_cases h3 : p = ['.', '.']
        · subst h3; rw [show pieceComp ['.', '.'] = some .parentDir from rfl]; exact congrArg _ ih
        · have : pieceComp p = some (.normal p) := by unfold pieceComp; simp [h1, h2, h3]
          rw [this]
          simp only [ne_eq, h1, h2, not_false_eq_true, and_self, decide_true, if_true, List.map_cons, h3, if_false]
          exact congrArg _ ih

theorem namesOf_spec (cs : List PComp) (ss : List Str) : namesOf cs = some ss ↔ cs = ss.map .normal := by
  induction cs generalizing ss with
  | nil => cases ss <;> simp [namesOf]
  | cons c cs ih =>
    unfold namesOf
    cases c with
    | normal s =>
      simp only [PComp.name?]
      cases hn : namesOf cs with
      | none =>
        simp only [reduceCtorEq, false_iff]
        intro e
        cases ss with
        | nil => simp at e
        | cons t ss =>
          simp at e
          rw [(ih ss).2 e.2] at hn; simp at hn
      | some ss' =>
        simp only [Option.some.injEq]
        rw [ih] at hn
        subst hn
        constructor
        · rintro rfl; rfl
        · intro e
          cases ss with
          | nil => simp at e
          | cons t ss =>
            simp only [List.map_cons, List.cons.injEq, PComp.normal.injEq] at e
            rw [e.1, (List.map_inj_right (fun _ _ h => by cases h; rfl)).1 e.2]
    | _ =>
      simp only [PComp.name?]
      constructor
      · intro h; simp at h
      · intro h; cases ss <;> simp at h

theorem modulePath_some (path : Str) (mp : List Str) : modulePath path = some mp ↔
    ∃ dirs file, components path = (dirs ++ [file]).map .normal ∧ mp = dirs ++ [stemOf file] := by
  unfold modulePath fileStem fileName parentComponents
  constructor
  · intro h
    cases hl : (components path).getLast? with
    | none => rw [hl] at h; simp at h; split at h <;> simp at h
    | some c =>
      rw [hl] at h
      cases c with
      | normal f =>
        simp only at h
        split at h
        · simp at h
        · next mpath hm =>
          simp only [Option.map_some, Option.some.injEq] at h
          rw [namesOf_spec] at hm
          refine ⟨mpath, f, ?_, h.symm⟩
          obtain ⟨l, hl⟩ := List.getLast?_eq_some_iff.1 hl
          rw [hl] at hm ⊢
          simp at hm
          simp [hm]
      | _ => simp only at h; split at h <;> simp at h
  · rintro ⟨dirs, file, h, rfl⟩
    rw [h]
    have : ((dirs ++ [file]).map PComp.normal).getLast? = some (.normal file) := by simp
    rw [this]
    have h2 : ((dirs ++ [file]).map PComp.normal).dropLast = dirs.map .normal := by simp
    simp only [h2]
    rw [(namesOf_spec _ dirs).2 rfl]
    rfl

theorem pathText_head {p : Str} {ps : List Str} (h : '/' ∉ p) :
    (pathText (p :: ps)).head? = some '/' ↔ p = [] ∧ ps ≠ [] := by
  cases ps with
  | nil =>
    cases p with
    | nil => simp [pathText]
    | cons c p => simp [pathText]; rintro rfl; simp at h
  | cons q ps =>
    cases p with
    | nil => simp [pathText]
    | cons c p => simp [pathText]; rintro rfl; simp at h

end Kontroli
