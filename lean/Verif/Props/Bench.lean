import Verif.Proofs.BenchRun
import Verif.Props.EtaCorrect

/-!
# C61: the programs that print benchmarks

Each program of `examples/bench/*.rs` prints some commands and then, for all numbers, a command made from the number.
-/

namespace Kontroli

/-- C61. After any number of rounds, what was printed is a text that consists of the commands that are meant, by the grammar (whether it is read as a whole
or line by line). -/
theorem C61_text : ∀ b ∈ benchmarks, ∀ n, WholeTextOf (b.1 n) (firsts b.2.1 (b.2.2 + n)) ∧ TextOf (b.1 n) (firsts b.2.1 (b.2.2 + n)) :=
  fun b hb n => (benchGood b hb).text n

/-- C61. In any module, these commands are correct by the textbook, and abstractions without types stand where their types are known. -/
theorem C61_correct : ∀ b ∈ benchmarks, ∀ n m, (∃ T, Correct ((firsts b.2.1 (b.2.2 + n)).map (Entry.mk m)) T) ∧
    Directed ((firsts b.2.1 (b.2.2 + n)).map (Entry.mk m)) :=
  fun b hb n m => (benchGood b hb).correct m (b.2.2 + n)

/-- C61. The checker accepts what was printed, if the number of steps suffices: with or without eta, whatever references are shared, from a file or from the standard input,
and the result is the only one. -/
theorem C61_accepted (rc : Nat → Bool) (opt : Opt) (ho : opt.omitted = none) (hj : opt.jobs = false) (fs : FileSystem)
    (stdin p : Str) (m : List Str) : ∀ b ∈ benchmarks, ∀ n, Sources fs stdin [p] [(m, b.1 n)] →
    ∃ N gc, ∀ k, N ≤ k → ∀ gc' res', RunPaths (Kern.std k rc) opt fs stdin [p] gc' res' ↔ gc' = gc ∧ res' = .ok () := by
  intro b hb n hs
  have hg := benchGood b hb
  obtain ⟨⟨T, cmds, h1, h2⟩, hd⟩ := hg.correct m (b.2.2 + n)
  have hp : ProgramOf [(m, b.1 n)] ((firsts b.2.1 (b.2.2 + n)).map (Entry.mk m)) := by
    have := ProgramOf.cons (m := m) (hg.text n).2 .nil
    rwa [List.append_nil] at this
  have hr : ∀ e ∈ (firsts b.2.1 (b.2.2 + n)).map (Entry.mk m), ∀ rs, e.cmd ≠ .rules rs := by
    intro e he
    obtain ⟨c, hc, rfl⟩ := List.mem_map.1 he
    exact (hg.unqualified _ c hc).2
  obtain ⟨N, gc, res, h3, h4⟩ := C51_run rc opt ho hj fs stdin [p] _ _ cmds hs hp h1 (h1.tame hr)
  obtain ⟨N', h5⟩ := C51_run_decides rc opt ho hj fs stdin [p] _ _ cmds hs hp h1 (h1.tame hr) (RegularIn.static hr)
  obtain ⟨gc', res', h6, -, h7⟩ := h5 (max N N') (Nat.le_max_right _ _)
  obtain ⟨rfl, rfl⟩ := (h4 _ (Nat.le_max_left _ _) _ _).1 h6
  obtain rfl := h7.2 ⟨by
    cases opt.eta with
    | false => exact ⟨T, cmds, h1, h2⟩
    | true => exact ⟨_, cmds, h1, h2.withEta⟩, hd⟩
  exact ⟨N, gc', h4⟩

/-- C61. So do the web checker and the loop of users of the library, with the same context. -/
theorem C61_web_library (rc : Nat → Bool) : ∀ b ∈ benchmarks, ∀ n, ∃ N gc, ∀ k, N ≤ k →
    CheckSingle (Kern.std k rc) (b.1 n) false 3 gc (.ok ()) ∧ libCheck (Kern.std k rc) (b.1 n) = .ok gc := by
  intro b hb n
  have hg := benchGood b hb
  obtain ⟨⟨T, hC⟩, hd⟩ := hg.correct [str "main"] (b.2.2 + n)
  have ht := (hg.text n).1
  obtain ⟨N, gc, h⟩ := web_static rc ht hC hd fun c hc => (hg.unqualified _ c hc).2
  refine ⟨N, gc, fun k hk => ⟨h k hk, C59_web _ _ (fun cs hcs c hc => ?_) gc (h k hk)⟩⟩
  rw [hcs.unique ht] at hc
  exact (hg.unqualified _ c hc).1

/-- C61. The comments of the programs: the body of `an` has `n` abstractions over `a` (`abst_chain.rs` L1); the type of `an` has `n` occurrences of `a`
(`prod_chain.rs` L1); the type of `an` has `2^n` occurrences of `f 0 0` (`btree_app.rs` L1); the body of `fsn` has `2^(n-1)` occurrences of `fst x y`, and
of `snd x y` (`fst_snd.rs` L13); the body of `idn` has `n` occurrences of `id` (`id.rs` L11). -/
theorem C61_sizes (n : Nat) :
    (∃ t, abstChainCmds (n + 1) = .intro (str "a" ++ decimal (n + 1)) [] (.definition none (some t)) ∧ PTerm.places (named (str "a")) t = n + 1) ∧
    (∃ t, prodChainCmds (n + 1) = .intro (str "a" ++ decimal (n + 1)) [] (.declaration false t) ∧ PTerm.places (named (str "a")) t = n + 1) ∧
    (∃ t, btreeCmds (n + 4) = .intro (str "a" ++ decimal n) [] (.declaration false t) ∧
      PTerm.places (applied (str "f") [named (str "0"), named (str "0")]) t = 2 ^ n) ∧
    (∃ args t, fstSndCmds (n + 3) = .intro (str "fs" ++ decimal (n + 1)) args (.definition none (some t)) ∧
      PTerm.places (applied (str "fst") [named (str "x"), named (str "y")]) t = 2 ^ n ∧
      PTerm.places (applied (str "snd") [named (str "x"), named (str "y")]) t = 2 ^ n) ∧
    (∃ args t, idCmds (n + 2) = .intro (str "id" ++ decimal (n + 1)) args (.definition none (some t)) ∧
      PTerm.places (named (str "id")) t = n + 1) := by
  refine ⟨⟨_, rfl, places_abst _⟩, ⟨_, rfl, places_prod _⟩, ⟨_, rfl, ?_⟩, ⟨_, _, rfl, places_fs _ _ _ (.inl rfl), places_fs _ _ _ (.inr rfl)⟩,
    ⟨_, _, rfl, places_id _⟩⟩
  rw [places_one _ _ _ _ named_applied, places_btree]
  rw [Ne, applied_inj]
  rintro ⟨e, -⟩
  exact absurd e (by decide)

/-! ## Examples -/

/-- The texts after some rounds. -/
example : abstChain 2 = str "a : Type.\ndef a1 := x : a => x.\ndef a2 := x : a => x : a => x.\n" := by decide +kernel
example : prodChain 3 = str "a : Type.\na1 : a.\na2 : a -> a.\na3 : a -> a -> a.\n" := by decide +kernel
example : btree 2 = str "a : Type.\n0 : a.\np : a -> Type.\nf : a -> a -> a.\na0 : p (f 0 0).\na1 : p (f (f 0 0) (f 0 0)).\n" := by decide +kernel
example : fstSnd 1 = str "A : Type.\ndef fst (x : A) (y : A) := x.\ndef snd (x : A) (y : A) := y.\ndef fs1 (x : A) (y : A) := fst (fst x y) (snd x y).\n" := by
  decide +kernel
example : idChain 2 = str "A : Type.\ndef id (x : A) := x.\ndef id1 (x : A) := (id x).\ndef id2 (x : A) := (id (id x)).\n" := by decide +kernel
example : (idChain 12).drop 200 ≠ [] := by decide +kernel

/-- The hypothesis of `C61_accepted` is met by a file with the text. -/
example : Sources (fun p => if p = str "id.dk" then some (idChain 1000) else none) [] [str "id.dk"] [([str "id"], idChain 1000)] :=
  .file (pieces := [str "id.dk"]) ⟨by decide, by decide, rfl⟩ ((C36_module_path [str "id.dk"] (by decide) (by decide) _).1 (by decide +kernel)) (by unfold MeansStdin; decide) rfl .nil

#print axioms C61_text
#print axioms C61_correct
#print axioms C61_accepted
#print axioms C61_web_library
#print axioms C61_sizes

end Kontroli
