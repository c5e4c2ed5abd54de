import Verif.Model.Make
import Verif.Spec.Make
import Mathlib.Data.List.Nodup
import Mathlib.Data.Fintype.Card
import Mathlib.Order.WellFounded
import Mathlib.Data.Finite.Prod
import Mathlib.Data.Fintype.Basic

/-! # Dependency graphs: lemmas -/

namespace Kontroli

open Relation

/-! ## Topologically ordered lists -/

/-- Every element comes after the elements that it depends on. -/
def Topo {α : Type} (E : α → α → Prop) (l : List α) : Prop := ∀ p c s, l = p ++ c :: s → ∀ d, E c d → d ∈ p

theorem Topo.nil {α : Type} {E : α → α → Prop} : Topo E [] := by
  intro p c s h; simp at h

theorem Topo.snoc {α : Type} {E : α → α → Prop} {l : List α} {c : α} (h : Topo E l) (hc : ∀ d, E c d → d ∈ l) :
    Topo E (l ++ [c]) := by
  intro p x s e d hd
  rcases List.append_eq_append_iff.1 e with ⟨a, h1, h2⟩ | ⟨a, h1, h2⟩
  · cases a with
    | nil =>
      simp at h2 h1
      obtain ⟨rfl, rfl⟩ := h2
      subst h1; exact hc d hd
    | cons y a => simp at h2
  · cases a with
    | nil =>
      simp at h2 h1
      obtain ⟨rfl, rfl⟩ := h2
      subst h1; exact hc d hd
    | cons y a =>
      simp at h2
      obtain ⟨rfl, h2⟩ := h2
      exact h p x a h1 d hd

theorem Topo.append {α : Type} {E : α → α → Prop} {l m : List α} (h : Topo E l) (hm : Topo E m) : Topo E (l ++ m) := by
  intro p x s e d hd
  rcases List.append_eq_append_iff.1 e with ⟨a, h1, h2⟩ | ⟨a, h1, h2⟩
  · subst h1
    exact List.mem_append_right _ (hm a x s h2 d hd)
  · cases a with
    | nil =>
      simp at h2 h1
      subst h1
      have := hm [] x s (by simpa using h2.symm) d hd
      simp at this
    | cons y a =>
      simp at h2
      obtain ⟨rfl, h2⟩ := h2
      exact h p x a h1 d hd

theorem Topo.closed {α : Type} {E : α → α → Prop} {l : List α} (h : Topo E l) {c d : α} (hc : c ∈ l) (hd : E c d) : d ∈ l := by
  obtain ⟨p, s, rfl⟩ := List.append_of_mem hc
  exact List.mem_append_left _ (h p c s rfl d hd)

theorem Topo.map {α β : Type} {E : α → α → Prop} {F : β → β → Prop} {f : α → β} {l : List α} (h : Topo E l)
    (hf : ∀ a ∈ l, ∀ y, F (f a) y → ∃ b, E a b ∧ f b = y) : Topo F (l.map f) := by
  intro p c s e d hd
  obtain ⟨p', r, rfl, rfl, e2⟩ := List.map_eq_append_iff.1 e
  obtain ⟨a, s', rfl, rfl, rfl⟩ := List.map_eq_cons_iff.1 e2
  obtain ⟨b, hb, rfl⟩ := hf a (by simp) d hd
  exact List.mem_map_of_mem (h p' a s' rfl b hb)

theorem Topo.idxOf {α : Type} [BEq α] [LawfulBEq α] {E : α → α → Prop} {l : List α} (h : Topo E l) {c d : α} (hc : c ∈ l)
    (hd : E c d) : l.idxOf d < l.idxOf c := by
  obtain ⟨p, s, rfl, hp⟩ := List.eq_append_cons_of_mem hc
  have hd' := h p c s rfl d hd
  rw [List.idxOf_append_of_mem hd', List.idxOf_append_of_notMem hp]
  have := List.idxOf_lt_length_of_mem hd'
  omega

/-! ## Removal of duplicates -/

theorem removeDupFrom_spec {E : Str → Str → Prop} (l : List Str) : ∀ r, r.Nodup → Topo E r →
    (∀ p c s, l = p ++ c :: s → ∀ d, E c d → d ∈ r ∨ d ∈ p) →
    (removeDupFrom r l).Nodup ∧ Topo E (removeDupFrom r l) ∧ ∀ x, x ∈ removeDupFrom r l ↔ x ∈ r ∨ x ∈ l := by
  induction l with
  | nil => intro r h1 h2 _; exact ⟨h1, h2, by simp [removeDupFrom]⟩
  | cons e es ih =>
    intro r h1 h2 h3
    unfold removeDupFrom
    split
    · rename_i he
      obtain ⟨a, b, c⟩ := ih r h1 h2 (by
        intro p x s hl d hd
        rcases h3 (e :: p) x s (by simp [hl]) d hd with h | h
        · exact .inl h
        · rcases List.mem_cons.1 h with rfl | h
          · exact .inl he
          · exact .inr h)
      refine ⟨a, b, fun x => ?_⟩
      rw [c]
      constructor
      · rintro (h | h)
        · exact .inl h
        · exact .inr (List.mem_cons_of_mem _ h)
      · rintro (h | h)
        · exact .inl h
        · rcases List.mem_cons.1 h with rfl | h
          · exact .inl he
          · exact .inr h
    · rename_i he
      obtain ⟨a, b, c⟩ := ih (r ++ [e]) (by
          rw [List.nodup_append]
          refine ⟨h1, by simp, ?_⟩
          intro x hx y hy
          simp at hy; subst hy; rintro rfl; exact he hx) (h2.snoc fun d hd => by
          rcases h3 [] e es rfl d hd with h | h
          · exact h
          · simp at h) (by
        intro p x s hl d hd
        rcases h3 (e :: p) x s (by simp [hl]) d hd with h | h
        · exact .inl (List.mem_append_left _ h)
        · rcases List.mem_cons.1 h with rfl | h
          · exact .inl (by simp)
          · exact .inr h)
      refine ⟨a, b, fun x => ?_⟩
      rw [c]; simp [or_assoc]

theorem removeDup_spec {E : Str → Str → Prop} {l : List Str} (h : Topo E l) :
    (removeDup l).Nodup ∧ Topo E (removeDup l) ∧ ∀ x, x ∈ removeDup l ↔ x ∈ l := by
  have := removeDupFrom_spec (E := E) l [] (by simp) Topo.nil fun p c s e d hd => .inr (h p c s e d hd)
  simpa [removeDup] using this

/-! ## Graphs -/

/-- there is an edge between the nodes with these indices -/
def Edge (g : MGraph) (i j : Nat) : Prop := ∃ nd, g[i]? = some nd ∧ j ∈ nd.children

/-- the node with this index is the file `a` -/
def HasData (g : MGraph) (i : Nat) (a : Str) : Prop := (g[i]?).map MNode.data = some a

/-- graphs built by `create_graph` -/
structure GWf (g : MGraph) : Prop where
  index : ∀ (i : Nat) (nd : MNode), g[i]? = some nd → nd.index = i
  child : ∀ (i : Nat) (nd : MNode), g[i]? = some nd → ∀ c ∈ nd.children, c < g.length
  inj : ∀ i j a, HasData g i a → HasData g j a → i = j

theorem HasData.lt {g : MGraph} {i : Nat} {a : Str} (h : HasData g i a) : i < g.length := by
  simp [HasData] at h
  obtain ⟨nd, h, _⟩ := h
  exact (List.getElem?_eq_some_iff.1 h).1

theorem HasData.node {g : MGraph} {i : Nat} {a : Str} (h : HasData g i a) : ∃ nd, g[i]? = some nd ∧ nd.data = a := by
  simpa [HasData] using h

theorem indexOf_some {g : MGraph} (hw : GWf g) {a : Str} {i : Nat} (h : g.indexOf a = some i) : HasData g i a := by
  simp only [MGraph.indexOf, Option.map_eq_some_iff] at h
  obtain ⟨nd, h, rfl⟩ := h
  have hd := List.find?_some h
  obtain ⟨j, hj⟩ := List.mem_iff_getElem?.1 (List.mem_of_find?_eq_some h)
  rw [hw.index j nd hj]
  simpa [HasData, hj] using hd

theorem indexOf_none {g : MGraph} {a : Str} (h : g.indexOf a = none) (i : Nat) : ¬ HasData g i a := by
  intro hd
  obtain ⟨nd, h1, rfl⟩ := hd.node
  simp only [MGraph.indexOf, Option.map_eq_none_iff, List.find?_eq_none] at h
  exact h nd (List.mem_of_getElem? h1) (by simp)

theorem indexOf_of {g : MGraph} (hw : GWf g) {a : Str} {i : Nat} (h : HasData g i a) : g.indexOf a = some i := by
  cases h' : g.indexOf a with
  | none => exact absurd h (indexOf_none h' i)
  | some j => rw [hw.inj j i a (indexOf_some hw h') h]

/-! ## Traversal -/

theorem addDeps_spec {E : Nat → Nat → Prop} (l : List Nat) : ∀ r, Topo E r →
    (∀ p c s, l = p ++ c :: s → ∀ d, E c d → d ∈ r ∨ d ∈ p) →
    Topo E (addDeps r l) ∧ ∀ x, x ∈ addDeps r l ↔ x ∈ r ∨ x ∈ l := by
  induction l with
  | nil => intro r h2 _; exact ⟨h2, by simp [addDeps]⟩
  | cons e es ih =>
    intro r h2 h3
    unfold addDeps
    split
    · rename_i he
      obtain ⟨b, c⟩ := ih r h2 (by
        intro p x s hl d hd
        rcases h3 (e :: p) x s (by simp [hl]) d hd with h | h
        · exact .inl h
        · rcases List.mem_cons.1 h with rfl | h
          · exact .inl he
          · exact .inr h)
      refine ⟨b, fun x => ?_⟩
      rw [c]
      constructor
      · rintro (h | h)
        · exact .inl h
        · exact .inr (List.mem_cons_of_mem _ h)
      · rintro (h | h)
        · exact .inl h
        · rcases List.mem_cons.1 h with rfl | h
          · exact .inl he
          · exact .inr h
    · obtain ⟨b, c⟩ := ih (r ++ [e]) (h2.snoc fun d hd => by
          rcases h3 [] e es rfl d hd with h | h
          · exact h
          · simp at h) (by
        intro p x s hl d hd
        rcases h3 (e :: p) x s (by simp [hl]) d hd with h | h
        · exact .inl (List.mem_append_left _ h)
        · rcases List.mem_cons.1 h with rfl | h
          · exact .inl (by simp)
          · exact .inr h)
      refine ⟨b, fun x => ?_⟩
      rw [c]; simp [or_assoc]

/-- what `get_all_children` returns for a node -/
def IsDeps (g : MGraph) (i : Nat) (l : List Nat) : Prop := Topo (Edge g) l ∧ ∀ j, j ∈ l ↔ TransGen (Edge g) i j

theorem IsDeps.push {g : MGraph} {c : Nat} {deps r : List Nat} (hd : IsDeps g c deps) (hr : Topo (Edge g) r) :
    Topo (Edge g) (addDeps r deps ++ [c]) ∧
      ∀ j, j ∈ addDeps r deps ++ [c] ↔ j ∈ r ∨ ReflTransGen (Edge g) c j := by
  obtain ⟨h1, h2⟩ := addDeps_spec deps r hr fun p x s e d h => .inr (hd.1 p x s e d h)
  refine ⟨h1.snoc fun d h => (h2 d).2 (.inr ((hd.2 d).2 (.single h))), fun j => ?_⟩
  rw [List.mem_append, h2, hd.2, List.mem_singleton, reflTransGen_iff_eq_or_transGen]
  tauto

theorem leaf_deps {g : MGraph} {c : Nat} {nd : MNode} (h : g[c]? = some nd) (hc : nd.children = []) : IsDeps g c [] := by
  refine ⟨Topo.nil, fun j => ⟨by simp, fun hj => ?_⟩⟩
  obtain ⟨d, ⟨nd', h', hd⟩, _⟩ := TransGen.head'_iff.1 hj
  rw [h] at h'; cases h'
  rw [hc] at hd; simp at hd

theorem childLoop_spec {g : MGraph} {rec : Nat → Res (Option (List Nat))}
    (hrec : ∀ c r, rec c = .ok r → ∃ l, r = some l ∧ IsDeps g c l) (cs : List Nat) : ∀ r out, Topo (Edge g) r →
    childLoop g rec r cs = .ok out →
    Topo (Edge g) out ∧ ∀ j, j ∈ out ↔ j ∈ r ∨ ∃ c ∈ cs, ReflTransGen (Edge g) c j := by
  induction cs with
  | nil => intro r out h1 h; simp [childLoop] at h; subst h; exact ⟨h1, by simp⟩
  | cons c cs ih =>
    intro r out h1 h
    have key : ∀ r', Topo (Edge g) r' → (∀ j, j ∈ r' ↔ j ∈ r ∨ ReflTransGen (Edge g) c j) →
        childLoop g rec r' cs = .ok out →
        Topo (Edge g) out ∧ ∀ j, j ∈ out ↔ j ∈ r ∨ ∃ c' ∈ c :: cs, ReflTransGen (Edge g) c' j := by
      intro r' a b h
      obtain ⟨x, y⟩ := ih r' out a h
      refine ⟨x, fun j => ?_⟩
      rw [y, b]
      simp [or_assoc]
    unfold childLoop at h
    split at h
    · exact nomatch h
    · rename_i nd hnd
      split at h
      · exact nomatch h
      · split at h
        · rename_i hc
          have := (leaf_deps hnd (by simpa using hc)).push h1
          exact key (r ++ [c]) (by simpa [addDeps] using this.1) (by simpa [addDeps] using this.2) h
        · split at h
          · rename_i deps hd
            obtain ⟨l, e, hl⟩ := hrec _ _ hd
            cases e
            have := hl.push h1
            exact key _ this.1 this.2 h
          · rename_i hd
            obtain ⟨l, e, hl⟩ := hrec _ _ hd
            cases e
          all_goals exact nomatch h

theorem allChildren_spec {g : MGraph} (n : Nat) : ∀ i r, allChildren g n i = .ok r → ∃ l, r = some l ∧ IsDeps g i l := by
  induction n with
  | zero => intro i r h; exact nomatch h
  | succ n ih =>
    intro i r h
    unfold allChildren at h
    split at h
    · exact nomatch h
    · rename_i nd hnd
      split at h
      · rename_i out ho
        cases h
        obtain ⟨h1, h2⟩ := childLoop_spec ih _ _ _ Topo.nil ho
        refine ⟨out, rfl, h1, fun j => ?_⟩
        rw [h2, TransGen.head'_iff]
        constructor
        · rintro (h | ⟨c, hc, hj⟩)
          · simp at h
          · exact ⟨c, ⟨nd, hnd, hc⟩, hj⟩
        · rintro ⟨c, ⟨nd', h', hc⟩, hj⟩
          rw [hnd] at h'; cases h'
          exact .inr ⟨c, hc, hj⟩
      all_goals exact nomatch h

/-! ## Termination -/

theorem childLoop_ok {g : MGraph} {rec : Nat → Res (Option (List Nat))} (cs : List Nat) : ∀ r,
    (∀ c ∈ cs, c < g.length ∧ ∃ l, rec c = .ok l) → ∃ out, childLoop g rec r cs = .ok out := by
  induction cs with
  | nil => intro r _; exact ⟨r, rfl⟩
  | cons c cs ih =>
    intro r h
    obtain ⟨hlt, l, hl⟩ := h c (by simp)
    have h' := fun c' hc' => h c' (List.mem_cons_of_mem _ hc')
    unfold childLoop
    rw [List.getElem?_eq_getElem hlt]
    simp only
    split
    · rename_i hn
      exact absurd (show HasData g c _ by simp [HasData, List.getElem?_eq_getElem hlt]) (indexOf_none hn c)
    · split
      · exact ih _ h'
      · rw [hl]
        cases l with
        | none => exact ih _ h'
        | some deps => exact ih _ h'

theorem allChildren_total {g : MGraph} (hw : GWf g) {i : Nat} (ha : Acc (fun j i => Edge g i j) i) : i < g.length →
    ∃ n, ∀ m, n ≤ m → ∃ r, allChildren g m i = .ok r := by
  induction ha with
  | intro i _ ih =>
    intro hlt
    have hnd := List.getElem?_eq_getElem hlt
    have : ∀ cs : List Nat, (∀ c ∈ cs, c ∈ g[i].children) → ∃ n, ∀ m, n ≤ m → ∀ c ∈ cs, ∃ r, allChildren g m c = .ok r := by
      intro cs
      induction cs with
      | nil => intro _; exact ⟨0, by simp⟩
      | cons c cs ih2 =>
        intro h
        obtain ⟨n1, h1⟩ := ih2 fun c' hc' => h c' (List.mem_cons_of_mem _ hc')
        have hc := h c (by simp)
        obtain ⟨n2, h2⟩ := ih c ⟨_, hnd, hc⟩ (hw.child i _ hnd c hc)
        refine ⟨max n1 n2, fun m hm c' hc' => ?_⟩
        rcases List.mem_cons.1 hc' with rfl | hc'
        · exact h2 m (by omega)
        · exact h1 m (by omega) c' hc'
    obtain ⟨n, hn⟩ := this _ fun _ h => h
    refine ⟨n + 1, fun m hm => ?_⟩
    obtain ⟨m, rfl⟩ : ∃ k, m = k + 1 := ⟨m - 1, by omega⟩
    obtain ⟨out, ho⟩ := childLoop_ok (g := g) (rec := allChildren g m) g[i].children []
      fun c hc => ⟨hw.child i _ hnd c hc, hn m (by omega) c hc⟩
    refine ⟨some out, ?_⟩
    unfold allChildren
    rw [hnd]
    simp only
    rw [ho]

theorem childLoop_acc {g : MGraph} {rec : Nat → Res (Option (List Nat))}
    (hrec : ∀ c r, rec c = .ok r → Acc (fun j i => Edge g i j) c) (cs : List Nat) : ∀ r out,
    childLoop g rec r cs = .ok out → ∀ c ∈ cs, Acc (fun j i => Edge g i j) c := by
  induction cs with
  | nil => intro r out _ c hc; simp at hc
  | cons c cs ih =>
    intro r out h
    have key : ∀ r', Acc (fun j i => Edge g i j) c → childLoop g rec r' cs = .ok out →
        ∀ c' ∈ c :: cs, Acc (fun j i => Edge g i j) c' := by
      intro r' ha h c' hc'
      rcases List.mem_cons.1 hc' with rfl | hc'
      · exact ha
      · exact ih _ _ h c' hc'
    unfold childLoop at h
    split at h
    · exact nomatch h
    · rename_i nd hnd
      split at h
      · exact nomatch h
      · split at h
        · rename_i hc
          refine key _ ⟨c, fun j hj => ?_⟩ h
          obtain ⟨nd', h', hd⟩ := hj
          rw [hnd] at h'; cases h'
          simp at hc; rw [hc] at hd; simp at hd
        · split at h
          · rename_i hd; exact key _ (hrec _ _ hd) h
          · rename_i hd; exact key _ (hrec _ _ hd) h
          all_goals exact nomatch h

theorem allChildren_acc {g : MGraph} (n : Nat) : ∀ i r, allChildren g n i = .ok r → Acc (fun j i => Edge g i j) i := by
  induction n with
  | zero => intro i r h; exact nomatch h
  | succ n ih =>
    intro i r h
    unfold allChildren at h
    split at h
    · exact nomatch h
    · rename_i nd hnd
      split at h
      · rename_i out ho
        refine ⟨i, fun j hj => ?_⟩
        obtain ⟨nd', h', hd⟩ := hj
        rw [hnd] at h'; cases h'
        exact childLoop_acc ih _ _ _ ho j hd
      all_goals exact nomatch h

theorem acc_of_noCycle {g : MGraph} (hw : GWf g) {i : Nat} (hi : i < g.length)
    (h : ∀ j, ReflTransGen (Edge g) i j → ¬ TransGen (Edge g) j j) : Acc (fun j i => Edge g i j) i := by
  let S := {j : Fin g.length // ReflTransGen (Edge g) i j.1}
  have : Finite S := inferInstanceAs (Finite {j : Fin g.length // ReflTransGen (Edge g) i j.1})
  let r : S → S → Prop := fun a b => TransGen (Edge g) b.1.1 a.1.1
  have : IsTrans S r := ⟨fun a b c h1 h2 => TransGen.trans h2 h1⟩
  have : Std.Irrefl r := ⟨fun a h1 => h a.1.1 a.2 h1⟩
  have wf : WellFounded r := Finite.wellFounded_of_trans_of_irrefl r
  have : ∀ x : S, Acc (fun j i => Edge g i j) x.1.1 := by
    intro x
    induction x using wf.induction with
    | _ x ih =>
      refine ⟨_, fun j hj => ?_⟩
      obtain ⟨nd, h1, h2⟩ := id hj
      exact ih ⟨⟨j, hw.child _ _ h1 _ h2⟩, x.2.tail hj⟩ (.single hj)
  exact this ⟨⟨i, hi⟩, .refl⟩

theorem noCycle_of_acc {g : MGraph} {i : Nat} (h : Acc (fun j i => Edge g i j) i) :
    ∀ j, ReflTransGen (Edge g) i j → ¬ TransGen (Edge g) j j := by
  intro j hj hc
  have ha : Acc (fun j i => Edge g i j) j := by
    clear hc
    induction hj with
    | refl => exact h
    | tail _ hb ih => exact ih.inv hb
  have ht : ∀ a b, TransGen (fun j i => Edge g i j) a b ↔ TransGen (Edge g) b a := fun a b => transGen_swap
  have hirr : ∀ x, Acc (TransGen fun j i => Edge g i j) x → ¬ TransGen (fun j i => Edge g i j) x x := by
    intro x hx
    induction hx with
    | intro x _ ih => exact fun h => ih x h h
  exact hirr j ha.transGen ((ht j j).2 hc)

/-! ## The order of a file -/

/-- the file with this index -/
def nameOf (g : MGraph) (i : Nat) : Str := ((g[i]?).map MNode.data).getD []

theorem HasData.nameOf {g : MGraph} {i : Nat} {a : Str} (h : HasData g i a) : nameOf g i = a := by
  simp only [HasData] at h
  simp [Kontroli.nameOf, h]

theorem hasData_nameOf {g : MGraph} {i : Nat} (h : i < g.length) : HasData g i (nameOf g i) := by
  simp [HasData, Kontroli.nameOf, List.getElem?_eq_getElem h]

theorem pushData_spec {g : MGraph} (l : List Nat) : ∀ order out, pushData g order l = .ok out →
    out = order ++ l.map (nameOf g) ∧ ∀ i ∈ l, i < g.length := by
  induction l with
  | nil => intro order out h; simp [pushData] at h; simp [h]
  | cons c cs ih =>
    intro order out h
    unfold pushData at h
    split at h
    · exact nomatch h
    · rename_i nd hnd
      obtain ⟨h1, h2⟩ := ih _ _ h
      have : nameOf g c = nd.data := by simp [nameOf, hnd]
      refine ⟨by simp [h1, this], ?_⟩
      intro i hi
      rcases List.mem_cons.1 hi with rfl | hi
      · exact (List.getElem?_eq_some_iff.1 hnd).1
      · exact h2 i hi

theorem pushData_ok {g : MGraph} (l : List Nat) (h : ∀ i ∈ l, i < g.length) : ∀ order, ∃ out, pushData g order l = .ok out := by
  induction l with
  | nil => intro order; exact ⟨order, rfl⟩
  | cons c cs ih =>
    intro order
    unfold pushData
    rw [List.getElem?_eq_getElem (h c (by simp))]
    exact ih (fun i hi => h i (List.mem_cons_of_mem _ hi)) _

theorem depLoop_spec {g : MGraph} {n : Nat} (cs : List Nat) : ∀ order out, depLoop g n order cs = .ok out →
    ∃ L, out = order ++ L.map (nameOf g) ∧ Topo (Edge g) L ∧ (∀ i ∈ L, i < g.length) ∧
      ∀ j, j ∈ L ↔ ∃ c ∈ cs, ReflTransGen (Edge g) c j := by
  induction cs with
  | nil => intro order out h; simp [depLoop] at h; exact ⟨[], by simp [h], Topo.nil, by simp, by simp⟩
  | cons c cs ih =>
    intro order out h
    unfold depLoop at h
    split at h
    · rename_i deps hd
      split at h
      · rename_i o2 ho
        obtain ⟨l, e, hl⟩ := allChildren_spec _ _ _ hd
        cases e
        obtain ⟨e1, hlt⟩ := pushData_spec _ _ _ ho
        obtain ⟨L, e2, t, lt, m⟩ := ih _ _ h
        have ht : Topo (Edge g) (deps ++ [c]) := hl.1.snoc fun d hd => (hl.2 d).2 (.single hd)
        refine ⟨(deps ++ [c]) ++ L, ?_, ht.append t, ?_, ?_⟩
        · rw [e2, e1]; simp
        · intro i hi
          rcases List.mem_append.1 hi with hi | hi
          · exact hlt i hi
          · exact lt i hi
        · intro j
          rw [List.mem_append, m, List.mem_append, hl.2, List.mem_singleton]
          constructor
          · rintro ((h | rfl) | ⟨c', hc', hj⟩)
            · exact ⟨c, by simp, h.to_reflTransGen⟩
            · exact ⟨j, by simp, .refl⟩
            · exact ⟨c', by simp [hc'], hj⟩
          · rintro ⟨c', hc', hj⟩
            rcases List.mem_cons.1 hc' with rfl | hc'
            · rcases reflTransGen_iff_eq_or_transGen.1 hj with h | h
              · exact .inl (.inr h)
              · exact .inl (.inl h)
            · exact .inr ⟨c', hc', hj⟩
      all_goals exact nomatch h
    all_goals exact nomatch h

theorem depLoop_ok {g : MGraph} (hw : GWf g) {n : Nat} (cs : List Nat) : ∀ order,
    (∀ c ∈ cs, c < g.length ∧ ∃ r, allChildren g n c = .ok r) → ∃ out, depLoop g n order cs = .ok out := by
  induction cs with
  | nil => intro order _; exact ⟨order, rfl⟩
  | cons c cs ih =>
    intro order h
    obtain ⟨hlt, r, hr⟩ := h c (by simp)
    obtain ⟨l, rfl, hl⟩ := allChildren_spec _ _ _ hr
    have hin : ∀ i ∈ l ++ [c], i < g.length := by
      intro i hi
      rcases List.mem_append.1 hi with hi | hi
      · obtain ⟨b, _, nd, h1, h2⟩ := TransGen.tail'_iff.1 ((hl.2 i).1 hi)
        exact hw.child _ _ h1 _ h2
      · simp at hi; subst hi; exact hlt
    obtain ⟨o2, ho⟩ := pushData_ok _ hin order
    unfold depLoop
    rw [hr]
    simp only
    rw [ho]
    exact ih _ fun c' hc' => h c' (List.mem_cons_of_mem _ hc')

theorem depLoop_acc {g : MGraph} {n : Nat} (cs : List Nat) : ∀ order out, depLoop g n order cs = .ok out →
    ∀ c ∈ cs, Acc (fun j i => Edge g i j) c := by
  induction cs with
  | nil => intro order out _ c hc; simp at hc
  | cons c cs ih =>
    intro order out h c' hc'
    unfold depLoop at h
    split at h
    · rename_i deps hd
      split at h
      · rcases List.mem_cons.1 hc' with rfl | hc'
        · exact allChildren_acc _ _ _ hd
        · exact ih _ _ h c' hc'
      all_goals exact nomatch h
    all_goals exact nomatch h

/-! ## Construction -/

/-- The graph has these files and these edges. -/
structure Rep (g : MGraph) (A : Str → Prop) (D : Str → Str → Prop) : Prop where
  wf : GWf g
  files : ∀ a, A a ↔ ∃ i, HasData g i a
  edges : ∀ a b, D a b ↔ ∃ i j, Edge g i j ∧ HasData g i a ∧ HasData g j b

theorem Rep.congr {g : MGraph} {A A' : Str → Prop} {D D' : Str → Str → Prop} (h : Rep g A D) (ha : ∀ a, A' a ↔ A a)
    (hd : ∀ a b, D' a b ↔ D a b) : Rep g A' D' :=
  ⟨h.wf, fun a => (ha a).trans (h.files a), fun a b => (hd a b).trans (h.edges a b)⟩

theorem Rep.empty : Rep [] (fun _ => False) (fun _ _ => False) :=
  ⟨⟨by simp, by simp, by simp [HasData]⟩, by simp [HasData], by simp [HasData]⟩

theorem hasData_append {g : MGraph} {x a : Str} {i : Nat} :
    HasData (g ++ [⟨g.length, x, []⟩]) i a ↔ HasData g i a ∨ (i = g.length ∧ a = x) := by
  unfold HasData
  rcases Nat.lt_trichotomy i g.length with h | h | h
  · rw [List.getElem?_append_left h]
    simp; omega
  · subst h; simp [eq_comm]
  · rw [List.getElem?_eq_none (by simp; omega), List.getElem?_eq_none (by omega)]
    simp; omega

theorem edge_append {g : MGraph} {x : Str} {i j : Nat} : Edge (g ++ [⟨g.length, x, []⟩]) i j ↔ Edge g i j := by
  unfold Edge
  rcases Nat.lt_trichotomy i g.length with h | h | h
  · rw [List.getElem?_append_left h]
  · subst h; simp
  · rw [List.getElem?_eq_none (by simp; omega), List.getElem?_eq_none (by omega)]

theorem Rep.append {g : MGraph} {A : Str → Prop} {D : Str → Str → Prop} (h : Rep g A D) {x : Str} (hx : ¬ A x) :
    Rep (g ++ [⟨g.length, x, []⟩]) (fun a => A a ∨ a = x) D := by
  have hx' : ∀ i, ¬ HasData g i x := fun i hi => hx ((h.files x).2 ⟨i, hi⟩)
  refine ⟨⟨?_, ?_, ?_⟩, ?_, ?_⟩
  · intro i nd hi
    rw [List.getElem?_append] at hi
    split at hi
    · exact h.wf.index i nd hi
    · have := List.mem_singleton.1 (List.mem_of_getElem? hi)
      subst this
      have := (List.getElem?_eq_some_iff.1 hi).1
      simp at this ⊢; omega
  · intro i nd hi c hc
    rw [List.getElem?_append] at hi
    split at hi
    · have := h.wf.child i nd hi c hc
      simp; omega
    · have := List.mem_singleton.1 (List.mem_of_getElem? hi)
      subst this; simp at hc
  · intro i j a hi hj
    rw [hasData_append] at hi hj
    rcases hi with hi | ⟨rfl, rfl⟩ <;> rcases hj with hj | ⟨rfl, e⟩
    · exact h.wf.inj i j a hi hj
    · subst e; exact absurd hi (hx' i)
    · exact absurd hj (hx' j)
    · rfl
  · intro a
    simp only [hasData_append, h.files]
    constructor
    · rintro (⟨i, hi⟩ | rfl)
      · exact ⟨i, .inl hi⟩
      · exact ⟨_, .inr ⟨rfl, rfl⟩⟩
    · rintro ⟨i, hi | ⟨rfl, rfl⟩⟩
      · exact .inl ⟨i, hi⟩
      · exact .inr rfl
  · intro a b
    simp only [hasData_append, edge_append, h.edges]
    constructor
    · rintro ⟨i, j, he, hi, hj⟩; exact ⟨i, j, he, .inl hi, .inl hj⟩
    · rintro ⟨i, j, he, hi, hj⟩
      obtain ⟨nd, h1, h2⟩ := id he
      have l1 := (List.getElem?_eq_some_iff.1 h1).1
      have l2 := h.wf.child _ _ h1 _ h2
      refine ⟨i, j, he, hi.resolve_right ?_, hj.resolve_right ?_⟩ <;> (rintro ⟨rfl, _⟩; omega)

theorem hasData_set {g : MGraph} {p i c : Nat} {nd : MNode} {a : Str} (hp : g[p]? = some nd) :
    HasData (g.set p { nd with children := nd.children ++ [c] }) i a ↔ HasData g i a := by
  unfold HasData
  rw [List.getElem?_set]
  split
  · rename_i e; subst e
    obtain ⟨hl, hp⟩ := List.getElem?_eq_some_iff.1 hp
    simp [hl, hp]
  · rfl

theorem edge_set {g : MGraph} {p i c j : Nat} {nd : MNode} (hp : g[p]? = some nd) :
    Edge (g.set p { nd with children := nd.children ++ [c] }) i j ↔ Edge g i j ∨ (i = p ∧ j = c) := by
  unfold Edge
  rw [List.getElem?_set]
  split
  · rename_i e; subst e
    obtain ⟨hl, hp⟩ := List.getElem?_eq_some_iff.1 hp
    simp [hl, hp]
  · rename_i e
    constructor
    · exact .inl
    · rintro (h | ⟨rfl, _⟩)
      · exact h
      · exact absurd rfl e

theorem Rep.set {g : MGraph} {A : Str → Prop} {D : Str → Str → Prop} (h : Rep g A D) {a b : Str} {p c : Nat} {nd : MNode}
    (hp : g[p]? = some nd) (ha : HasData g p a) (hb : HasData g c b) :
    Rep (g.set p { nd with children := nd.children ++ [c] }) A (fun x y => D x y ∨ (x = a ∧ y = b)) := by
  refine ⟨⟨?_, ?_, ?_⟩, ?_, ?_⟩
  · intro i nd' hi
    rw [List.getElem?_set] at hi
    split at hi
    · rename_i e; subst e
      simp at hi
      obtain ⟨_, rfl⟩ := hi
      exact h.wf.index p nd hp
    · exact h.wf.index i nd' hi
  · intro i nd' hi d hd
    rw [List.length_set]
    have he : Edge (g.set p { nd with children := nd.children ++ [c] }) i d := ⟨nd', hi, hd⟩
    rw [edge_set hp] at he
    rcases he with ⟨n2, h1, h2⟩ | ⟨_, rfl⟩
    · exact h.wf.child _ _ h1 _ h2
    · exact hb.lt
  · intro i j x hi hj
    rw [hasData_set hp] at hi hj
    exact h.wf.inj i j x hi hj
  · intro x; simp only [hasData_set hp]; exact h.files x
  · intro x y
    simp only [hasData_set hp, edge_set hp, h.edges]
    constructor
    · rintro (⟨i, j, he, hi, hj⟩ | ⟨rfl, rfl⟩)
      · exact ⟨i, j, .inl he, hi, hj⟩
      · exact ⟨p, c, .inr ⟨rfl, rfl⟩, ha, hb⟩
    · rintro ⟨i, j, he | ⟨rfl, rfl⟩, hi, hj⟩
      · exact .inl ⟨i, j, he, hi, hj⟩
      · have e1 := hi.nameOf.symm.trans ha.nameOf
        have e2 := hj.nameOf.symm.trans hb.nameOf
        exact .inr ⟨e1, e2⟩

/-- the graph of the rows -/
abbrev RepRows (g : MGraph) (rows : List (List Str)) : Prop := Rep g (Mentioned rows) (Dep rows)

theorem mentioned_snoc {rows : List (List Str)} {r : List Str} {a : Str} :
    Mentioned (rows ++ [r]) a ↔ Mentioned rows a ∨ a ∈ r := by
  simp [Mentioned, or_and_right, exists_or]

theorem dep_snoc {rows : List (List Str)} {f : Str} {r : List Str} {a b : Str} :
    Dep (rows ++ [f :: r]) a b ↔ Dep rows a b ∨ (a = f ∧ b ∈ r) := by
  simp only [Dep, List.mem_append, List.mem_singleton, or_and_right, exists_or]
  refine or_congr Iff.rfl ⟨?_, ?_⟩
  · rintro ⟨bs, h, hb⟩; cases h; exact ⟨rfl, hb⟩
  · rintro ⟨rfl, hb⟩; exact ⟨r, rfl, hb⟩

theorem addChildren_spec {rows : List (List Str)} {first : Str} (xs : List Str) : ∀ (done : List Str) (g : MGraph),
    RepRows g (rows ++ [first :: done]) →
    ∃ g', addChildren first g xs = .ok g' ∧ RepRows g' (rows ++ [first :: (done ++ xs)]) := by
  induction xs with
  | nil => intro done g h; exact ⟨g, rfl, by simpa using h⟩
  | cons x xs ih =>
    intro done g h
    obtain ⟨p, hp⟩ := (h.files first).1 (mentioned_snoc.2 (.inr (by simp)))
    have ip := indexOf_of h.wf hp
    obtain ⟨nd, hnd, hdat⟩ := hp.node
    have e1 : done ++ x :: xs = (done ++ [x]) ++ xs := by simp
    rw [e1]
    unfold addChildren
    cases hx : g.indexOf x with
    | some c =>
      simp only [ip, hnd]
      refine ih (done ++ [x]) _ ((h.set hnd hp (indexOf_some h.wf hx)).congr (fun a => ?_) fun a b => ?_)
      · have : Mentioned (rows ++ [first :: done]) x := (h.files x).2 ⟨c, indexOf_some h.wf hx⟩
        rw [mentioned_snoc, mentioned_snoc] at *
        simp only [List.mem_cons, List.mem_append, List.not_mem_nil, or_false] at *
        constructor
        · rintro (h | h | h | rfl)
          · exact .inl h
          · exact .inr (.inl h)
          · exact .inr (.inr h)
          · exact this
        · tauto
      · rw [dep_snoc, dep_snoc]
        simp only [List.mem_append, List.mem_singleton]
        tauto
    | none =>
      simp only [ip, MGraph.addNode, hnd]
      have hlt := hp.lt
      have es : g.set p { nd with children := nd.children ++ [g.length] } ++ [(⟨g.length, x, []⟩ : MNode)] =
          (g ++ [(⟨g.length, x, []⟩ : MNode)]).set p { nd with children := nd.children ++ [g.length] } := by
        rw [List.set_append_left _ _ hlt]
      rw [es]
      have hx' : ¬ Mentioned (rows ++ [first :: done]) x := by
        rw [h.files]; rintro ⟨i, hi⟩; exact indexOf_none hx i hi
      refine ih (done ++ [x]) _ (((h.append hx').set (a := first) (b := x) ?_ ?_ ?_).congr (fun a => ?_) fun a b => ?_)
      · rw [List.getElem?_append_left hlt]; exact hnd
      · exact hasData_append.2 (.inl hp)
      · exact hasData_append.2 (.inr ⟨rfl, rfl⟩)
      · rw [mentioned_snoc, mentioned_snoc]
        simp only [List.mem_cons, List.mem_append, List.not_mem_nil, or_false]
        tauto
      · rw [dep_snoc, dep_snoc]
        simp only [List.mem_append, List.mem_singleton]
        tauto

theorem addLine_spec {rows : List (List Str)} {g : MGraph} (h : RepRows g rows) (l : List Str) :
    ∃ g', addLine g l = .ok g' ∧ RepRows g' (rows ++ [l]) := by
  cases l with
  | nil =>
    refine ⟨g, rfl, h.congr (fun a => ?_) fun a b => ?_⟩
    · simp [Mentioned]
    · simp [Dep]
  | cons first rest =>
    unfold addLine
    cases hx : g.indexOf first with
    | some c =>
      simp only [hx]
      refine (addChildren_spec (rows := rows) rest [] g (h.congr (fun a => ?_) fun a b => ?_))
      · rw [mentioned_snoc]
        have : Mentioned rows first := (h.files first).2 ⟨c, indexOf_some h.wf hx⟩
        simp only [List.mem_singleton]
        constructor
        · rintro (h | rfl)
          · exact h
          · exact this
        · exact .inl
      · rw [dep_snoc]; simp
    | none =>
      simp only [MGraph.addNode, hx]
      have hx' : ¬ Mentioned rows first := by
        rw [h.files]; rintro ⟨i, hi⟩; exact indexOf_none hx i hi
      refine (addChildren_spec (rows := rows) rest [] _ ((h.append hx').congr (fun a => ?_) fun a b => ?_))
      · rw [mentioned_snoc]; simp
      · rw [dep_snoc]; simp

theorem addLines_spec (ls : List (List Str)) : ∀ (rows : List (List Str)) (g : MGraph), RepRows g rows →
    ∃ g', addLines g ls = .ok g' ∧ RepRows g' (rows ++ ls) := by
  induction ls with
  | nil => intro rows g h; exact ⟨g, rfl, by simpa using h⟩
  | cons l ls ih =>
    intro rows g h
    obtain ⟨g1, h1, h2⟩ := addLine_spec h l
    obtain ⟨g2, h3, h4⟩ := ih _ _ h2
    refine ⟨g2, ?_, by simpa using h4⟩
    unfold addLines
    rw [h1]
    exact h3

theorem createGraph_spec (text : Str) : ∃ g, createGraph text = .ok g ∧ RepRows g (makeFiles text) := by
  obtain ⟨g, h1, h2⟩ := addLines_spec (makeFiles text) [] [] (Rep.empty.congr (by simp [Mentioned]) (by simp [Dep]))
  exact ⟨g, h1, by simpa using h2⟩

/-! ## Names and indices -/

theorem Rep.dep {g : MGraph} {A : Str → Prop} {D : Str → Str → Prop} (h : Rep g A D) {i : Nat} {a b : Str}
    (ha : HasData g i a) : D a b ↔ ∃ j, Edge g i j ∧ HasData g j b := by
  rw [h.edges]
  constructor
  · rintro ⟨i', j, he, hi, hj⟩
    rw [h.wf.inj i i' a ha hi]; exact ⟨j, he, hj⟩
  · rintro ⟨j, he, hj⟩; exact ⟨i, j, he, ha, hj⟩

theorem edge_data {g : MGraph} (hw : GWf g) {i j : Nat} (h : Edge g i j) : HasData g j (nameOf g j) := by
  obtain ⟨nd, h1, h2⟩ := h
  exact hasData_nameOf (hw.child _ _ h1 _ h2)

theorem Rep.trans {g : MGraph} {A : Str → Prop} {D : Str → Str → Prop} (h : Rep g A D) {i : Nat} {a b : Str}
    (ha : HasData g i a) : TransGen D a b ↔ ∃ j, TransGen (Edge g) i j ∧ HasData g j b := by
  constructor
  · intro ht
    induction ht with
    | single hd => obtain ⟨j, he, hj⟩ := (h.dep ha).1 hd; exact ⟨j, .single he, hj⟩
    | tail _ hd ih =>
      obtain ⟨j, he, hj⟩ := ih
      obtain ⟨k, he', hk⟩ := (h.dep hj).1 hd
      exact ⟨k, he.tail he', hk⟩
  · rintro ⟨j, ht, hj⟩
    induction ht generalizing b with
    | single he => exact .single ((h.dep ha).2 ⟨_, he, hj⟩)
    | tail ht' he ih =>
      rename_i k l
      have : HasData g k (nameOf g k) := by
        obtain ⟨nd, h1, _⟩ := he
        exact hasData_nameOf (List.getElem?_eq_some_iff.1 h1).1
      exact (ih this).tail ((h.dep this).2 ⟨_, he, hj⟩)

theorem Rep.needs {g : MGraph} {A : Str → Prop} {D : Str → Str → Prop} (h : Rep g A D) {i : Nat} {a b : Str}
    (ha : HasData g i a) : ReflTransGen D a b ↔ ∃ j, ReflTransGen (Edge g) i j ∧ HasData g j b := by
  rw [reflTransGen_iff_eq_or_transGen, h.trans ha]
  constructor
  · rintro (rfl | ⟨j, ht, hj⟩)
    · exact ⟨i, .refl, ha⟩
    · exact ⟨j, ht.to_reflTransGen, hj⟩
  · rintro ⟨j, ht, hj⟩
    rcases reflTransGen_iff_eq_or_transGen.1 ht with rfl | ht
    · exact .inl (hj.nameOf.symm.trans ha.nameOf)
    · exact .inr ⟨j, ht, hj⟩

theorem Rep.noCycle {g : MGraph} {rows : List (List Str)} (h : RepRows g rows) {i : Nat} {a : Str}
    (ha : HasData g i a) : NoCycle rows a ↔ ∀ j, ReflTransGen (Edge g) i j → ¬ TransGen (Edge g) j j := by
  unfold NoCycle Needs
  constructor
  · intro hn j hj hc
    have hjd : HasData g j (nameOf g j) := by
      obtain ⟨k, ⟨nd, h1, h2⟩, _⟩ := TransGen.head'_iff.1 hc
      exact hasData_nameOf (List.getElem?_eq_some_iff.1 h1).1
    exact hn _ ((h.needs ha).2 ⟨j, hj, hjd⟩) ((h.trans hjd).2 ⟨j, hc, hjd⟩)
  · intro hn b hb hc
    obtain ⟨j, hj, hjd⟩ := (h.needs ha).1 hb
    obtain ⟨k, hk, hkd⟩ := (h.trans hjd).1 hc
    rw [h.wf.inj k j b hkd hjd] at hk
    exact hn j hj hk

theorem fullPath_unfold {g : MGraph} (hw : GWf g) (n : Nat) {i : Nat} {a : Str} (ha : HasData g i a) :
    ∃ nd, g[i]? = some nd ∧ fullPath g n a = match depLoop g n [] nd.children with
      | .ok order => .ok (some (removeDup (order ++ [a])))
      | .err e => .err e
      | .panic => .panic
      | .timeout => .timeout := by
  have hi := indexOf_of hw ha
  obtain ⟨nd, hf, hx⟩ := Option.map_eq_some_iff.1 hi
  have hd : nd.data = a := by simpa using List.find?_some hf
  obtain ⟨j, hj⟩ := List.mem_iff_getElem?.1 (List.mem_of_find?_eq_some hf)
  have : j = i := (hw.index j nd hj).symm.trans hx
  subst this
  refine ⟨nd, hj, ?_⟩
  unfold fullPath
  rw [hi]
  simp only
  rw [hf]
  simp only
  rw [hd]
  cases depLoop g n [] nd.children <;> rfl

theorem fullPath_good {g : MGraph} {rows : List (List Str)} (h : RepRows g rows) {n : Nat} {a : Str} (ha : Mentioned rows a)
    {r : Option (List Str)} (hr : fullPath g n a = .ok r) : ∃ order, r = some order ∧ GoodOrder rows a order := by
  obtain ⟨i, hi⟩ := (h.files a).1 ha
  obtain ⟨nd, hnd, e⟩ := fullPath_unfold h.wf n hi
  rw [e] at hr
  split at hr
  · rename_i out ho
    cases hr
    obtain ⟨L, e1, t, lt, m⟩ := depLoop_spec _ _ _ ho
    have hm : ∀ j, j ∈ L ++ [i] ↔ ReflTransGen (Edge g) i j := by
      intro j
      rw [List.mem_append, m, List.mem_singleton, reflTransGen_iff_eq_or_transGen, TransGen.head'_iff]
      constructor
      · rintro (⟨c, hc, hj⟩ | rfl)
        · exact .inr ⟨c, ⟨nd, hnd, hc⟩, hj⟩
        · exact .inl rfl
      · rintro (rfl | ⟨c, ⟨nd', h', hc⟩, hj⟩)
        · exact .inr rfl
        · rw [hnd] at h'; cases h'
          exact .inl ⟨c, hc, hj⟩
    have ht : Topo (Edge g) (L ++ [i]) := t.snoc fun d hd => by
      have := (hm d).2 (.single hd)
      rcases List.mem_append.1 this with h1 | h1
      · exact h1
      · simp at h1
        subst h1
        obtain ⟨nd', h', hc⟩ := hd
        rw [hnd] at h'; cases h'
        exact (m d).2 ⟨d, hc, .refl⟩
    have hlt : ∀ j ∈ L ++ [i], j < g.length := by
      intro j hj
      rcases List.mem_append.1 hj with h1 | h1
      · exact lt j h1
      · simp at h1; subst h1; exact hi.lt
    have e2 : out ++ [a] = (L ++ [i]).map (nameOf g) := by rw [e1]; simp [hi.nameOf]
    have ht' : Topo (Dep rows) (out ++ [a]) := by
      rw [e2]
      refine ht.map fun x hx y hy => ?_
      obtain ⟨j, he, hj⟩ := (h.dep (hasData_nameOf (hlt x hx))).1 hy
      exact ⟨j, he, hj.nameOf⟩
    obtain ⟨h1, h2, h3⟩ := removeDup_spec ht'
    refine ⟨_, rfl, h1, fun b => ?_, fun b c hb hc => h2.idxOf hb hc⟩
    rw [h3, e2, List.mem_map]
    unfold Needs
    rw [h.needs hi]
    constructor
    · rintro ⟨j, hj, rfl⟩; exact ⟨j, (hm j).1 hj, hasData_nameOf (hlt j hj)⟩
    · rintro ⟨j, hj, hb⟩; exact ⟨j, (hm j).2 hj, hb.nameOf⟩
  all_goals exact nomatch hr

theorem fullPath_total {g : MGraph} {rows : List (List Str)} (h : RepRows g rows) {a : Str} (ha : Mentioned rows a)
    (hn : NoCycle rows a) : ∃ n, ∀ m, n ≤ m → ∃ r, fullPath g m a = .ok r := by
  obtain ⟨i, hi⟩ := (h.files a).1 ha
  obtain ⟨nd, hnd⟩ := hi.node
  have hacc := acc_of_noCycle h.wf hi.lt ((h.noCycle hi).1 hn)
  have : ∀ cs : List Nat, (∀ c ∈ cs, c ∈ nd.children) → ∃ n, ∀ m, n ≤ m → ∀ c ∈ cs, ∃ r, allChildren g m c = .ok r := by
    intro cs
    induction cs with
    | nil => intro _; exact ⟨0, by simp⟩
    | cons c cs ih2 =>
      intro hc
      obtain ⟨n1, h1⟩ := ih2 fun c' hc' => hc c' (List.mem_cons_of_mem _ hc')
      have hcc := hc c (by simp)
      obtain ⟨n2, h2⟩ := allChildren_total h.wf (hacc.inv ⟨nd, hnd.1, hcc⟩) (h.wf.child i _ hnd.1 c hcc)
      refine ⟨max n1 n2, fun m hm c' hc' => ?_⟩
      rcases List.mem_cons.1 hc' with rfl | hc'
      · exact h2 m (by omega)
      · exact h1 m (by omega) c' hc'
  obtain ⟨n, hn⟩ := this _ fun _ h => h
  refine ⟨n, fun m hm => ?_⟩
  obtain ⟨nd', hnd', e⟩ := fullPath_unfold h.wf m hi
  rw [hnd.1] at hnd'; cases hnd'
  obtain ⟨out, ho⟩ := depLoop_ok h.wf (n := m) nd.children [] fun c hc => ⟨h.wf.child i _ hnd.1 c hc, hn m hm c hc⟩
  rw [e, ho]
  exact ⟨_, rfl⟩

theorem fullPath_noCycle {g : MGraph} {rows : List (List Str)} (h : RepRows g rows) {n : Nat} {a : Str} (ha : Mentioned rows a)
    {r : Option (List Str)} (hr : fullPath g n a = .ok r) : NoCycle rows a := by
  obtain ⟨i, hi⟩ := (h.files a).1 ha
  obtain ⟨nd, hnd, e⟩ := fullPath_unfold h.wf n hi
  rw [e] at hr
  split at hr
  · rename_i out ho
    refine (h.noCycle hi).2 (noCycle_of_acc ⟨i, fun j hj => ?_⟩)
    obtain ⟨nd', h', hc⟩ := hj
    rw [hnd] at h'; cases h'
    exact depLoop_acc _ _ _ ho j hc
  all_goals exact nomatch hr

/-! ## No panics -/

theorem childLoop_calm {g : MGraph} {rec : Nat → Res (Option (List Nat))} (cs : List Nat) : ∀ r,
    (∀ c ∈ cs, c < g.length ∧ (rec c = .timeout ∨ ∃ l, rec c = .ok l)) →
      childLoop g rec r cs = .timeout ∨ ∃ out, childLoop g rec r cs = .ok out := by
  induction cs with
  | nil => intro r _; exact .inr ⟨r, rfl⟩
  | cons c cs ih =>
    intro r h
    obtain ⟨hlt, hl⟩ := h c (by simp)
    have h' := fun c' hc' => h c' (List.mem_cons_of_mem _ hc')
    unfold childLoop
    rw [List.getElem?_eq_getElem hlt]
    simp only
    split
    · rename_i hn
      exact absurd (show HasData g c _ by simp [HasData, List.getElem?_eq_getElem hlt]) (indexOf_none hn c)
    · split
      · exact ih _ h'
      · rcases hl with hl | ⟨l, hl⟩ <;> rw [hl]
        · exact .inl rfl
        · cases l with
          | none => exact ih _ h'
          | some deps => exact ih _ h'

theorem allChildren_calm {g : MGraph} (hw : GWf g) (n : Nat) : ∀ i, i < g.length →
    allChildren g n i = .timeout ∨ ∃ r, allChildren g n i = .ok r := by
  induction n with
  | zero => intro i _; exact .inl rfl
  | succ n ih =>
    intro i hlt
    have hnd := List.getElem?_eq_getElem hlt
    unfold allChildren
    rw [hnd]
    simp only
    rcases childLoop_calm (g := g) (rec := allChildren g n) g[i].children [] fun c hc =>
      ⟨hw.child i _ hnd c hc, ih c (hw.child i _ hnd c hc)⟩ with h | ⟨out, h⟩ <;> rw [h]
    · exact .inl rfl
    · exact .inr ⟨_, rfl⟩

theorem depLoop_calm {g : MGraph} (hw : GWf g) {n : Nat} (cs : List Nat) : ∀ order, (∀ c ∈ cs, c < g.length) →
    depLoop g n order cs = .timeout ∨ ∃ out, depLoop g n order cs = .ok out := by
  induction cs with
  | nil => intro order _; exact .inr ⟨order, rfl⟩
  | cons c cs ih =>
    intro order h
    have hlt := h c (by simp)
    unfold depLoop
    rcases allChildren_calm hw n c hlt with hr | ⟨r, hr⟩ <;> rw [hr]
    · exact .inl rfl
    obtain ⟨l, rfl, hl⟩ := allChildren_spec _ _ _ hr
    have hin : ∀ i ∈ l ++ [c], i < g.length := by
      intro i hi
      rcases List.mem_append.1 hi with hi | hi
      · obtain ⟨b, _, nd, h1, h2⟩ := TransGen.tail'_iff.1 ((hl.2 i).1 hi)
        exact hw.child _ _ h1 _ h2
      · simp at hi; subst hi; exact hlt
    obtain ⟨o2, ho⟩ := pushData_ok _ hin order
    simp only
    rw [ho]
    exact ih _ fun c' hc' => h c' (List.mem_cons_of_mem _ hc')

/-- there is no panic: either an order is returned, or the recursion is not finished -/
theorem fullPath_calm {g : MGraph} {rows : List (List Str)} (h : RepRows g rows) (n : Nat) {a : Str} (ha : Mentioned rows a) :
    fullPath g n a = .timeout ∨ ∃ r, fullPath g n a = .ok r := by
  obtain ⟨i, hi⟩ := (h.files a).1 ha
  obtain ⟨nd, hnd, e⟩ := fullPath_unfold h.wf n hi
  rw [e]
  rcases depLoop_calm h.wf (n := n) nd.children [] (h.wf.child i _ hnd) with h | ⟨out, h⟩ <;> rw [h]
  · exact .inl rfl
  · exact .inr ⟨_, rfl⟩

/-! ## All files -/

theorem allPaths_ok {g : MGraph} {n : Nat} (xs : List Str) :
    (∀ x ∈ xs, ∃ o, fullPath g n x = .ok (some o)) → ∃ r, allPaths g n xs = .ok r := by
  induction xs with
  | nil => intro _; exact ⟨[], rfl⟩
  | cons x xs ih =>
    intro h
    obtain ⟨o, ho⟩ := h x (by simp)
    obtain ⟨r, hr⟩ := ih fun y hy => h y (List.mem_cons_of_mem _ hy)
    unfold allPaths
    rw [ho]
    simp only
    rw [hr]
    exact ⟨_, rfl⟩

theorem allPaths_spec {g : MGraph} {n : Nat} (xs : List Str) : ∀ r, allPaths g n xs = .ok r →
    r.map Prod.fst = xs ∧ ∀ x o, (x, o) ∈ r → fullPath g n x = .ok (some o) := by
  induction xs with
  | nil => intro r h; simp [allPaths] at h; subst h; simp
  | cons x xs ih =>
    intro r h
    unfold allPaths at h
    split at h
    · rename_i o ho
      split at h
      · rename_i r' hr'
        cases h
        obtain ⟨h1, h2⟩ := ih _ hr'
        refine ⟨by simp [h1], fun y o' hy => ?_⟩
        rcases List.mem_cons.1 hy with hy | hy
        · cases hy; exact ho
        · exact h2 y o' hy
      all_goals exact nomatch h
    all_goals exact nomatch h

theorem mem_data {g : MGraph} {a : Str} : a ∈ g.map MNode.data ↔ ∃ i, HasData g i a := by
  rw [List.mem_iff_getElem?]
  simp only [HasData, List.getElem?_map]

/-! ## Text -/

theorem splitLines_clean (l : Str) (h : ∀ c ∈ l, c ≠ '\n' ∧ c ≠ '\r') (s : Str) : ∀ acc, (∀ c ∈ acc, c ≠ '\r') →
    splitLines acc (l ++ '\n' :: s) = (acc ++ l) :: splitLines [] s := by
  induction l with
  | nil =>
    intro acc ha
    have : acc.getLast? ≠ some '\r' := fun e => ha _ (List.mem_of_getLast? e) rfl
    cases acc with
    | nil => simp [splitLines]
    | cons a acc => simp only [List.nil_append, List.append_nil]; rw [splitLines.eq_3]; simp [this]
  | cons c l ih =>
    intro acc ha
    obtain ⟨h1, h2⟩ := h c (by simp)
    rw [List.cons_append, splitLines.eq_4 _ _ _ (fun e => h1 e)]
    rw [ih (fun d hd => h d (List.mem_cons_of_mem _ hd)) (acc ++ [c]) (by
      intro d hd
      rcases List.mem_append.1 hd with hd | hd
      · exact ha d hd
      · simp at hd; subst hd; exact h2)]
    simp

theorem splitSpaces_word (w : Str) (h : ∀ c ∈ w, c ≠ ' ') : ∀ acc s, splitSpaces acc (w ++ ' ' :: s) = (acc ++ w) :: splitSpaces [] s := by
  induction w with
  | nil => intro acc s; simp [splitSpaces]
  | cons c w ih =>
    intro acc s
    rw [List.cons_append, splitSpaces.eq_3 _ _ _ (fun e => h c (by simp) e), ih fun d hd => h d (List.mem_cons_of_mem _ hd)]
    simp

theorem splitSpaces_end (w : Str) (h : ∀ c ∈ w, c ≠ ' ') : ∀ acc, splitSpaces acc w = [acc ++ w] := by
  induction w with
  | nil => intro acc; simp [splitSpaces]
  | cons c w ih =>
    intro acc
    rw [splitSpaces.eq_3 _ _ _ (fun e => h c (by simp) e), ih fun d hd => h d (List.mem_cons_of_mem _ hd)]
    simp

theorem splitSpaces_row (ws : List Str) (h : ∀ w ∈ ws, ∀ c ∈ w, c ≠ ' ') (hn : ws ≠ []) : splitSpaces [] (rowText ws) = ws := by
  induction ws with
  | nil => exact absurd rfl hn
  | cons w ws ih =>
    cases ws with
    | nil => simpa [rowText] using splitSpaces_end w (h w (by simp)) []
    | cons v ws =>
      rw [show rowText (w :: v :: ws) = w ++ ' ' :: rowText (v :: ws) from rfl, splitSpaces_word w (h w (by simp)),
        ih (fun x hx => h x (List.mem_cons_of_mem _ hx)) (by simp)]
      simp

end Kontroli
