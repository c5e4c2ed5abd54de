import Verif.Proofs.Make
import Verif.Spec.Lex

/-!
# C37: the web checker processes dependencies first

`makeFiles text` are the rows of the make file; `Dep`, `Needs`, `NoCycle` and `GoodOrder` are defined on rows, independently of
the graph that is built.
-/

namespace Kontroli

/-- For a file that needs no file on a cycle, the order that is computed contains exactly the files that it needs, each once, and
each after the files it depends on. -/
theorem C37_order {text a : Str} (ha : Mentioned (makeFiles text) a) (hn : NoCycle (makeFiles text) a) :
    ∃ g n, createGraph text = .ok g ∧ ∀ m, n ≤ m →
      ∃ order, fullPath g m a = .ok (some order) ∧ GoodOrder (makeFiles text) a order := by
  obtain ⟨g, hg, h⟩ := createGraph_spec text
  obtain ⟨n, hn⟩ := fullPath_total h ha hn
  refine ⟨g, n, hg, fun m hm => ?_⟩
  obtain ⟨r, hr⟩ := hn m hm
  obtain ⟨order, rfl, ho⟩ := fullPath_good h ha hr
  exact ⟨order, hr, ho⟩

/-- Whenever an order is returned, it is a good one; in particular the file itself comes last. -/
theorem C37_returned {text a : Str} {g : MGraph} {n : Nat} {order : List Str} (hg : createGraph text = .ok g)
    (h : fullPath g n a = .ok (some order)) : GoodOrder (makeFiles text) a order ∧ order.getLast? = some a := by
  obtain ⟨g', hg', hr⟩ := createGraph_spec text
  rw [hg] at hg'; cases hg'
  have ha : Mentioned (makeFiles text) a := by
    rw [hr.files]
    cases hi : g.indexOf a with
    | some i => exact ⟨i, indexOf_some hr.wf hi⟩
    | none =>
      unfold fullPath at h
      simp [hi] at h
  obtain ⟨o, e, ho⟩ := fullPath_good hr ha h
  cases e
  refine ⟨ho, ?_⟩
  have hmem : a ∈ order := (ho.mem a).2 .refl
  have hmax : ∀ b ∈ order, order.idxOf b ≤ order.idxOf a := by
    intro b hb
    have hb' := (ho.mem b).1 hb
    induction hb' with
    | refl => exact le_refl _
    | tail h1 h2 ih => exact le_of_lt (lt_of_lt_of_le (ho.before _ _ ((ho.mem _).2 h1) h2) (ih ((ho.mem _).2 h1)))
  have hne : order ≠ [] := List.ne_nil_of_mem hmem
  rw [List.getLast?_eq_some_getLast hne]
  have hl := hmax _ (List.getLast_mem hne)
  have h1 : order.idxOf (order.getLast hne) = order.length - 1 := by
    rw [List.getLast_eq_getElem]
    exact ho.nodup.idxOf_getElem _ _
  have h2 := List.idxOf_lt_length_of_mem hmem
  have h3 : order.idxOf a = order.length - 1 := by omega
  congr 1
  rw [List.getLast_eq_getElem]
  have := List.getElem_idxOf h2
  rw [← this]
  congr 1
  exact h3.symm

/-- For a file that needs a file on a cycle, the recursion is never finished (so the code overflows its stack). -/
theorem C37_cycle {text a : Str} {g : MGraph} (hg : createGraph text = .ok g) (ha : Mentioned (makeFiles text) a)
    (hc : ¬ NoCycle (makeFiles text) a) (n : Nat) : fullPath g n a = .timeout := by
  obtain ⟨g', hg', hr⟩ := createGraph_spec text
  rw [hg] at hg'; cases hg'
  exact (fullPath_calm hr n ha).resolve_right fun ⟨r, h⟩ => hc (fullPath_noCycle hr ha h)

/-- There is never a panic: for a mentioned file, either an order is returned or the recursion is not finished; for any other
file, nothing is found. -/
theorem C37_no_panic {text : Str} : ∃ g, createGraph text = .ok g ∧ ∀ n a,
    (Mentioned (makeFiles text) a → fullPath g n a = .timeout ∨ ∃ o, fullPath g n a = .ok (some o)) ∧
    (¬ Mentioned (makeFiles text) a → fullPath g n a = .ok none) := by
  obtain ⟨g, hg, hr⟩ := createGraph_spec text
  refine ⟨g, hg, fun n a => ⟨fun ha => ?_, fun ha => ?_⟩⟩
  · refine (fullPath_calm hr n ha).imp_right fun ⟨r, h⟩ => ?_
    obtain ⟨o, rfl, _⟩ := fullPath_good hr ha h
    exact ⟨o, h⟩
  · rw [hr.files] at ha
    unfold fullPath
    cases hi : g.indexOf a with
    | some i => exact absurd ⟨i, indexOf_some hr.wf hi⟩ ha
    | none => rfl

/-- The result for all files: every mentioned file once, with a good order. -/
theorem C37_all {text : Str} (hn : ∀ a, Mentioned (makeFiles text) a → NoCycle (makeFiles text) a) :
    ∃ n, ∀ m, n ≤ m → ∃ r, getGraph m text = .ok r ∧ (r.map Prod.fst).Nodup ∧
      (∀ a, a ∈ r.map Prod.fst ↔ Mentioned (makeFiles text) a) ∧ ∀ a o, (a, o) ∈ r → GoodOrder (makeFiles text) a o := by
  obtain ⟨g, hg, h⟩ := createGraph_spec text
  have hf : ∀ a, a ∈ g.map MNode.data ↔ Mentioned (makeFiles text) a := fun a => by rw [mem_data, h.files]
  have hnd := removeDup_spec (E := fun _ _ => False) (l := g.map MNode.data) (fun _ _ _ _ _ h => h.elim)
  have : ∀ xs : List Str, (∀ x ∈ xs, Mentioned (makeFiles text) x) →
      ∃ n, ∀ m, n ≤ m → ∀ x ∈ xs, ∃ o, fullPath g m x = .ok (some o) := by
    intro xs
    induction xs with
    | nil => intro _; exact ⟨0, by simp⟩
    | cons x xs ih =>
      intro hx
      obtain ⟨n1, h1⟩ := ih fun y hy => hx y (List.mem_cons_of_mem _ hy)
      have hm := hx x (by simp)
      obtain ⟨n2, h2⟩ := fullPath_total h hm (hn x hm)
      refine ⟨max n1 n2, fun m hle y hy => ?_⟩
      rcases List.mem_cons.1 hy with rfl | hy
      · obtain ⟨r, hr⟩ := h2 m (by omega)
        obtain ⟨o, rfl, _⟩ := fullPath_good h hm hr
        exact ⟨o, hr⟩
      · exact h1 m (by omega) y hy
  obtain ⟨n, hn'⟩ := this (removeDup (g.map MNode.data)) fun x hx => (hf x).1 ((hnd.2.2 x).1 hx)
  refine ⟨n, fun m hm => ?_⟩
  obtain ⟨r, hr⟩ := allPaths_ok _ (hn' m hm)
  obtain ⟨h1, h2⟩ := allPaths_spec _ _ hr
  refine ⟨r, ?_, by rw [h1]; exact hnd.1, fun a => by rw [h1, hnd.2.2, hf], fun a o hao => ?_⟩
  · unfold getGraph; rw [hg]; exact hr
  · have hm : Mentioned (makeFiles text) a := (hf a).1 ((hnd.2.2 a).1 (h1 ▸ List.mem_map_of_mem hao))
    obtain ⟨o', e, ho⟩ := fullPath_good h hm (h2 a o hao)
    cases e
    exact ho

/-- Also the computation for all files never panics; and if some mentioned file can reach a cycle, it does not come to an end: no number of steps
suffices. -/
theorem C37_all_cycle (text : Str) (n : Nat) :
    (getGraph n text = .timeout ∨ ∃ r, getGraph n text = .ok r) ∧
      ((∃ a, Mentioned (makeFiles text) a ∧ ¬ NoCycle (makeFiles text) a) → getGraph n text = .timeout) := by
  obtain ⟨g, hg, h⟩ := createGraph_spec text
  have hf : ∀ a, a ∈ g.map MNode.data ↔ Mentioned (makeFiles text) a := fun a => by rw [mem_data, h.files]
  have hnd := removeDup_spec (E := fun _ _ => False) (l := g.map MNode.data) (fun _ _ _ _ _ h => h.elim)
  have key : ∀ xs : List Str, (∀ x ∈ xs, Mentioned (makeFiles text) x) →
      (allPaths g n xs = .timeout ∨ ∃ r, allPaths g n xs = .ok r) ∧ ((∃ x ∈ xs, fullPath g n x = .timeout) → allPaths g n xs = .timeout) := by
    intro xs
    induction xs with
    | nil => intro _; exact ⟨.inr ⟨[], rfl⟩, nofun⟩
    | cons x xs ih =>
      intro hx
      obtain ⟨ih1, ih2⟩ := ih fun y hy => hx y (List.mem_cons_of_mem _ hy)
      have hm := hx x (by simp)
      rcases fullPath_calm h n hm with h1 | ⟨r, h1⟩
      · have : allPaths g n (x :: xs) = .timeout := by simp only [allPaths, h1]
        exact ⟨.inl this, fun _ => this⟩
      · obtain ⟨o, rfl, _⟩ := fullPath_good h hm h1
        rcases ih1 with h2 | ⟨r, h2⟩
        · have : allPaths g n (x :: xs) = .timeout := by simp only [allPaths, h1, h2]
          exact ⟨.inl this, fun _ => this⟩
        · refine ⟨.inr ⟨_, by simp only [allPaths, h1, h2]; rfl⟩, ?_⟩
          rintro ⟨y, hy, h3⟩
          rcases List.mem_cons.1 hy with rfl | hy
          · rw [h1] at h3; cases h3
          · rw [ih2 ⟨y, hy, h3⟩] at h2; cases h2
  have hall := key (removeDup (g.map MNode.data)) fun x hx => (hf x).1 ((hnd.2.2 x).1 hx)
  have he : getGraph n text = allPaths g n (removeDup (g.map MNode.data)) := by unfold getGraph; rw [hg]
  rw [he]
  exact ⟨hall.1, fun ⟨a, ha, hc⟩ => hall.2 ⟨a, (hnd.2.2 a).2 ((hf a).2 ha), C37_cycle hg ha hc n⟩⟩

/-- The rows of a make file: the target of every line is left out, and so is the `o` of `.dko`. -/
theorem C37_text {rows : List (Str × List Str)} (h : ∀ r ∈ rows, (∀ c ∈ r.1, c ≠ ' ' ∧ c ≠ '\n' ∧ c ≠ '\r') ∧ ∀ w ∈ r.2, IsWord w) :
    makeFiles (unlines (rows.map fun r => rowText (r.1 :: str ":" :: r.2))) = rows.map fun r => r.2.map dropO := by
  have hrow : ∀ (t : Str) (ws : List Str), (∀ w ∈ t :: ws, ∀ c ∈ w, c ≠ ' ' ∧ c ≠ '\n' ∧ c ≠ '\r') →
      ∀ c ∈ rowText (t :: ws), c ≠ '\n' ∧ c ≠ '\r' := by
    intro t ws
    induction ws generalizing t with
    | nil => intro hw c hc; exact (hw t (by simp) c hc).2
    | cons w ws ih =>
      intro hw c hc
      rw [show rowText (t :: w :: ws) = t ++ ' ' :: rowText (w :: ws) from rfl] at hc
      rcases List.mem_append.1 hc with hc | hc
      · exact (hw t (by simp) c hc).2
      · rcases List.mem_cons.1 hc with rfl | hc
        · exact ⟨by decide, by decide⟩
        · exact ih w (fun v hv => hw v (List.mem_cons_of_mem _ hv)) c hc
  induction rows with
  | nil => rfl
  | cons r rows ih =>
    obtain ⟨ht, hw⟩ := h r (by simp)
    have ih := ih fun r' hr' => h r' (List.mem_cons_of_mem _ hr')
    have hws : ∀ w ∈ r.1 :: str ":" :: r.2, ∀ c ∈ w, c ≠ ' ' ∧ c ≠ '\n' ∧ c ≠ '\r' := by
      intro w hw'
      rcases List.mem_cons.1 hw' with rfl | hw'
      · exact ht
      · rcases List.mem_cons.1 hw' with rfl | hw'
        · intro c hc
          have : c = ':' := by simpa [str] using hc
          subst this; decide
        · exact (hw w hw').2.2
    have e : unlines ((r :: rows).map fun r => rowText (r.1 :: str ":" :: r.2)) =
        rowText (r.1 :: str ":" :: r.2) ++ '\n' :: unlines (rows.map fun r => rowText (r.1 :: str ":" :: r.2)) := by
      simp [unlines]
    have hne : (rowText (r.1 :: str ":" :: r.2)).isEmpty = false := by
      rw [show rowText (r.1 :: str ":" :: r.2) = r.1 ++ ' ' :: rowText (str ":" :: r.2) from rfl]
      cases r.1 <;> rfl
    have hfil : r.2.filter (fun x => !x.isEmpty && x != [':']) = r.2 := by
      rw [List.filter_eq_self]
      intro w hw'
      obtain ⟨h1, h2, _⟩ := hw w hw'
      simp [h1, h2]
    unfold makeFiles at ih ⊢
    rw [e, splitLines_clean _ (hrow _ _ hws) _ [] (by simp), List.nil_append]
    rw [List.filter_cons, hne]
    simp only [Bool.not_false, if_true, List.map_cons]
    rw [ih]
    congr 1
    rw [splitSpaces_row _ (fun w hw' c hc => (hws w hw' c hc).1) (by simp)]
    have : (str ":") = [':'] := rfl
    rw [List.tail_cons, List.filter_cons, this]
    simp [hfil]

/-- `.dko` becomes `.dk`; other names stay. -/
theorem C37_suffix (s : Str) : dropO (s ++ str ".dko") = s ++ str ".dk" ∧ ((∀ t, s ≠ t ++ str ".dko") → dropO s = s) := by
  constructor
  · have : str ".dko" <:+ s ++ str ".dko" := List.suffix_append _ _
    rw [dropO, if_pos this, show str ".dko" = str ".dk" ++ ['o'] from rfl, ← List.append_assoc, List.dropLast_concat]
  · intro h
    have : ¬ str ".dko" <:+ s := fun ⟨t, e⟩ => h t e.symm
    rw [dropO, if_neg this]

/-! ## Examples -/

/-- a diamond -/
def diamond : Str := str "top.dko : top.dk left.dko right.dko\nleft.dko : left.dk base.dko\nright.dko : right.dk base.dko\nbase.dko : base.dk\n"

example : makeFiles diamond = [[str "top.dk", str "left.dk", str "right.dk"], [str "left.dk", str "base.dk"],
    [str "right.dk", str "base.dk"], [str "base.dk"]] := by decide

example : (match createGraph diamond with
    | .ok g => match fullPath g 5 (str "top.dk") with
      | .ok (some o) => o == [str "base.dk", str "left.dk", str "right.dk", str "top.dk"]
      | _ => false
    | _ => false) = true := by decide +kernel

/-- files that are ranked above their dependencies are on no cycle -/
theorem noCycle_of_rank {rows : List (List Str)} (f : Str → Nat) (h : ∀ r ∈ rows, ∀ b ∈ r.tail, ∀ a, r.head? = some a → f b < f a)
    (a : Str) : NoCycle rows a := by
  have hd : ∀ x y, Dep rows x y → f y < f x := fun x y ⟨bs, h1, h2⟩ => h _ h1 y h2 x rfl
  have ht : ∀ x y, Relation.TransGen (Dep rows) x y → f y < f x := by
    intro x y hxy
    induction hxy with
    | single h => exact hd _ _ h
    | tail _ h ih => exact lt_trans (hd _ _ h) ih
  exact fun b _ hb => lt_irrefl _ (ht b b hb)

example : Mentioned (makeFiles diamond) (str "top.dk") ∧ NoCycle (makeFiles diamond) (str "top.dk") := by
  have hr : makeFiles diamond = [[str "top.dk", str "left.dk", str "right.dk"], [str "left.dk", str "base.dk"],
    [str "right.dk", str "base.dk"], [str "base.dk"]] := by decide +kernel
  rw [hr]
  refine ⟨⟨_, List.mem_cons_self, by simp⟩, noCycle_of_rank (fun a => [str "base.dk", str "left.dk", str "right.dk", str "top.dk"].idxOf a)
    ?_ _⟩
  simp +decide

/-- a file that depends on itself through another one -/
def loopText : Str := str "a.dko : a.dk b.dko\nb.dko : b.dk a.dko\n"

example : ¬ NoCycle (makeFiles loopText) (str "a.dk") := by
  intro h
  have hr : makeFiles loopText = [[str "a.dk", str "b.dk"], [str "b.dk", str "a.dk"]] := by decide
  rw [hr] at h
  have h1 : Dep [[str "a.dk", str "b.dk"], [str "b.dk", str "a.dk"]] (str "a.dk") (str "b.dk") := ⟨[str "b.dk"], by simp, by simp⟩
  have h2 : Dep [[str "a.dk", str "b.dk"], [str "b.dk", str "a.dk"]] (str "b.dk") (str "a.dk") := ⟨[str "a.dk"], by simp, by simp⟩
  exact h _ .refl (.tail (.single h1) h2)

#print axioms C37_order
#print axioms C37_returned
#print axioms C37_cycle
#print axioms C37_no_panic
#print axioms C37_all
#print axioms C37_all_cycle
#print axioms C37_text
#print axioms C37_suffix

end Kontroli
