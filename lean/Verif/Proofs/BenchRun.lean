import Verif.Proofs.BenchType
import Verif.Props.Terminate
import Verif.Props.Library

/-!
# The benchmarks are accepted
-/

namespace Kontroli

/-- Commands without rewrite rules are tame. -/
theorem Shared.tame {eta : Bool} {es : List Entry} {cmds : List Cmd} (h1 : Shared [] es cmds) (h3 : ∀ e ∈ es, ∀ rs, e.cmd ≠ .rules rs) : TameIn eta cmds := by
  have hn := h1.noRules h3
  have hnp : ∀ p q, cmds = p ++ q → ∀ rs, .rules rs ∉ p := fun p q e rs hm => hn rs (e ▸ List.mem_append_left _ hm)
  refine ⟨fun rs h => absurd h (hn rs), fun p rs q T e => absurd (e ▸ List.mem_append_right p List.mem_cons_self) (hn rs), ?_, ?_⟩
  · intro p q e
    refine Coherent.static fun s rs hr => ?_
    obtain ⟨it, k1, k2⟩ := rulesOfCmds_static (hnp p q e) hr
    exact h1.static h3 s it (e ▸ List.mem_append_left _ k1) rs k2
  · exact fun p q T e hS => hS.normalising (hnp p q e)

/-- A correct program without rewrite rules is accepted by the web checker if enough steps are allowed. -/
theorem web_static (rc : Nat → Bool) {text : Str} {cs : List (PCmd (PTerm PSymb))} {T : Theory} (h1 : WholeTextOf text cs)
    (h2 : Correct (cs.map (Entry.mk [str "main"])) T) (hd : Directed (cs.map (Entry.mk [str "main"]))) (hr : ∀ c ∈ cs, ∀ rs, c ≠ .rules rs) :
    ∃ n gc, ∀ m, n ≤ m → CheckSingle (Kern.std m rc) text false 3 gc (.ok ()) := by
  have hr' : ∀ e ∈ cs.map (Entry.mk [str "main"]), ∀ rs, e.cmd ≠ .rules rs := by
    intro e he
    obtain ⟨c, hc, rfl⟩ := List.mem_map.1 he
    exact hr c hc
  have h2' := h2
  obtain ⟨cmds, hs, hS⟩ := h2
  obtain ⟨n, gc, res, h3, h4⟩ := C51_session rc ⟨false, none, false⟩ false rfl (cmds.map .ok) (by simp) (by
    intro pre post e
    have : ∃ q, cmds = pre ++ q := by
      obtain ⟨p, q, e1, e2, -⟩ := List.map_eq_append_iff.1 e
      have := List.map_injective_iff.2 (fun a b h => by cases h; rfl) e2
      exact ⟨q, by rw [e1, this]⟩
    obtain ⟨q, rfl⟩ := this
    exact (hs.tame hr').prefix)
  have key : ∀ m, n ≤ m → CheckSingle (Kern.std m rc) text false 3 gc res := by
    intro m hm
    have hp : WebProgramOf [(str "main", text)] (cs.map (Entry.mk [str "main"])) := by
      have := WebProgramOf.cons (name := str "main") h1 .nil
      rwa [List.append_nil] at this
    have := (consume_web (k := Kern.std m rc) (opt := ⟨false, none, false⟩) rfl (ms := [(str "main", text)]) (gc := gc) (res := res)).2 (by
      rw [web_complete rfl hp SymInv.new hs, inferChecksSeq_all rfl]
      exact h4 m hm)
    rwa [List.flatMap_singleton] at this
  refine ⟨n, gc, fun m hm => ?_⟩
  have := (C50_single_exact (Kern.std m rc) (Kern.std_exact m rc) text false (fun cs' h => ?_) gc res (key m hm) h3).2 ⟨cs, T, h1, h2', hd⟩
  · rw [← this]; exact key m hm
  · rw [h.unique h1]
    exact RegularIn.static hr'

/-- what is known of a benchmark -/
structure BenchGood (b : (Nat → Str) × (Nat → PCmd (PTerm PSymb)) × Nat) : Prop where
  line : ∃ line, (∀ n, b.1 n = unlines ((List.range (b.2.2 + n)).map line)) ∧ ∀ k, LineOf (line k) (b.2.1 k)
  gen : ∃ g : Gen, g.Good ∧ ∀ n, g.cmd n = b.2.1 n

theorem benchGood : ∀ b ∈ benchmarks, BenchGood b := by
  intro b hb
  simp only [benchmarks, List.mem_cons, List.not_mem_nil, or_false] at hb
  rcases hb with rfl | rfl | rfl | rfl | rfl
  · exact ⟨⟨_, abstChain_lines, abstChain_line⟩, _, abstGen_good, abstGen_cmd⟩
  · exact ⟨⟨_, prodChain_lines, prodChain_line⟩, _, prodGen_good, prodGen_cmd⟩
  · exact ⟨⟨_, btree_lines, btree_line⟩, _, btreeGen_good, btreeGen_cmd⟩
  · exact ⟨⟨_, fstSnd_lines, fstSnd_line⟩, _, fsGen_good, fsGen_cmd⟩
  · exact ⟨⟨_, id_lines, id_line⟩, _, idGen_good, idGen_cmd⟩

theorem BenchGood.text {b : (Nat → Str) × (Nat → PCmd (PTerm PSymb)) × Nat} (h : BenchGood b) (n : Nat) :
    WholeTextOf (b.1 n) (firsts b.2.1 (b.2.2 + n)) ∧ TextOf (b.1 n) (firsts b.2.1 (b.2.2 + n)) := by
  obtain ⟨line, h1, h2⟩ := h.line
  rw [h1]
  exact lines_text line b.2.1 _ fun k _ => h2 k

theorem BenchGood.correct {b : (Nat → Str) × (Nat → PCmd (PTerm PSymb)) × Nat} (h : BenchGood b) (m : List Str) (n : Nat) :
    (∃ T, Correct ((firsts b.2.1 n).map (Entry.mk m)) T) ∧ Directed ((firsts b.2.1 n).map (Entry.mk m)) := by
  obtain ⟨g, hg, e⟩ := h.gen
  rw [← funext e]
  exact hg.correct m n

theorem BenchGood.unqualified {b : (Nat → Str) × (Nat → PCmd (PTerm PSymb)) × Nat} (h : BenchGood b) (n : Nat) :
    ∀ c ∈ firsts b.2.1 n, c.Unqualified ∧ ∀ rs, c ≠ .rules rs := by
  obtain ⟨g, hg, e⟩ := h.gen
  rw [← funext e]
  intro c hc
  obtain ⟨k, -, rfl⟩ := List.mem_map.1 hc
  exact ⟨fun c hc => (hg.consts k c hc).1, by rintro rs ⟨⟩⟩

/-! ## Occurrences -/

theorem named_inj {x y : Str} : named x = named y ↔ x = y := by simp [named, symbTerm]

open Classical in
theorem places_named (u : PTerm PSymb) (x : Str) : PTerm.places u (named x) = if named x = u then 1 else 0 := by
  simp only [named, symbTerm, PTerm.places, PHead.places, PTerm.placesList, if_true, Nat.add_zero]
  congr

theorem places_one (u : PTerm PSymb) (f : Str) (t : PTerm PSymb) (h1 : applied f [t] ≠ u) (h2 : named f ≠ u) :
    PTerm.places u (applied f [t]) = PTerm.places u t := by
  simp only [applied] at h1
  simp only [named, symbTerm] at h2
  simp [applied, PTerm.places, PHead.places, PTerm.placesList, h1, h2]

theorem places_two (u : PTerm PSymb) (f : Str) (t t' : PTerm PSymb) (h1 : applied f [t, t'] ≠ u) (h2 : named f ≠ u) :
    PTerm.places u (applied f [t, t']) = PTerm.places u t + PTerm.places u t' := by
  simp only [applied] at h1
  simp only [named, symbTerm] at h2
  simp [applied, PTerm.places, PHead.places, PTerm.placesList, h1, h2]

theorem applied_inj {f g : Str} {ts us : List (PTerm PSymb)} : applied f ts = applied g us ↔ f = g ∧ ts = us := by simp [applied]

theorem named_applied {x f : Str} {t : PTerm PSymb} {ts : List (PTerm PSymb)} : named x ≠ applied f (t :: ts) := by simp [named, symbTerm, applied]

theorem places_leaf (f g x y : Str) :
    PTerm.places (applied f [named x, named y]) (applied g [named x, named y]) = if g = f then 1 else 0 := by
  have h := places_named (applied f [named x, named y])
  simp only [if_neg named_applied] at h
  simp only [applied, PTerm.places, PHead.places, PTerm.placesList] at h ⊢
  simp [h]

theorem places_btree (n : Nat) : PTerm.places (applied (str "f") [named (str "0"), named (str "0")]) (btreeTm (n + 1)) = 2 ^ n := by
  induction n with
  | zero => exact places_leaf _ _ _ _
  | succ n ih =>
    rw [btreeTm, places_two _ _ _ _ _ named_applied, ih, Nat.pow_succ]
    · omega
    · rw [Ne, applied_inj]
      rintro ⟨-, e⟩
      exact named_applied (List.cons.inj e).1.symm

theorem places_fs (g : Str) (n : Nat) (f : Str) (hg : g = str "fst" ∨ g = str "snd") :
    PTerm.places (applied g [named (str "x"), named (str "y")]) (fsTm f (n + 1)) = 2 ^ n := by
  induction n generalizing f with
  | zero =>
    rw [fsTm, places_two _ _ _ _ _ named_applied]
    · rw [fsTm, fsTm, places_leaf, places_leaf]
      rcases hg with rfl | rfl <;> decide
    · rw [Ne, applied_inj]
      rintro ⟨-, e⟩
      exact named_applied (List.cons.inj e).1.symm
  | succ n ih =>
    rw [fsTm, places_two _ _ _ _ _ named_applied, ih, ih, Nat.pow_succ]
    · omega
    · rw [Ne, applied_inj]
      rintro ⟨-, e⟩
      exact named_applied (List.cons.inj e).1.symm

theorem places_id (n : Nat) : PTerm.places (named (str "id")) (idTm n) = n := by
  induction n with
  | zero => rw [idTm, places_named, if_neg (by rw [named_inj]; decide)]
  | succ n ih =>
    rw [idTm, applied]
    simp only [PTerm.places, PHead.places, PTerm.placesList, ih]
    simp [named, symbTerm, Nat.add_comm]

theorem places_prod (n : Nat) : PTerm.places (named (str "a")) (prodChainTy n) = n + 1 := by
  induction n with
  | zero => rw [prodChainTy, places_named, if_pos rfl]
  | succ n ih =>
    rw [prodChainTy, arrowOf]
    simp only [PTerm.places, PHead.places, PTerm.placesList, ih, places_named]
    simp [named, symbTerm, Nat.add_comm]

theorem places_abst (n : Nat) : PTerm.places (named (str "a")) (abstChainTm n) = n := by
  induction n with
  | zero => rw [abstChainTm, places_named, if_neg (by rw [named_inj]; decide)]
  | succ n ih =>
    rw [abstChainTm]
    simp only [PTerm.places, PHead.places, PTerm.placesList, ih, places_named]
    simp [named, symbTerm, Nat.add_comm]

end Kontroli
