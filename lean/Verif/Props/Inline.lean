import Verif.Proofs.Inline
import Verif.Proofs.StaticText
import Verif.Props.Count

/-!
# C55: inlining of definitions
-/

namespace Kontroli

/-- C55. If each name to be inlined occurs at most once after its definition (apart from rules) then the output is the expansion of the
program: definitions to be inlined are dropped, and their names are replaced by their bodies.  Missing: names that occur several times, see
`C55_twice_false`; and that bound variables do not capture names of the bodies, which is not the case, see `C55_capture_false`. -/
theorem C55_expands_partial (names text : Str) (cs : List (PCmd (PTerm PSymb))) (h : strict scopeSymb text = cs.map .ok)
    (hu : UsedOnce (splitLines [] names) cs) :
    ∃ ds, Expansion (splitLines [] names) (fun _ => none) cs ds ∧ inline names text = (ds.flatMap fun c => c.show ++ str ".\n", true) := by
  obtain ⟨ds, h1, h2⟩ := inlineLoop_expansion (splitLines [] names) cs (fun _ => none) (fun _ => none)
    (fun c => .inl ⟨rfl, fun h => absurd rfl h⟩) hu
  refine ⟨ds, h2, ?_⟩
  rw [inline, h, h1]

/-- C55. The output for a text that can be parsed can be parsed. -/
theorem C55_output (names text : Str) (cs : List (PCmd (PTerm PSymb))) (h : strict scopeSymb text = cs.map .ok) :
    ∃ (out : Str) (ds : List (PCmd (PTerm PSymb))), inline names text = (out, true) ∧ strict scopeSymb out = ds.map .ok := by
  obtain ⟨ds, h1, h2⟩ := inlineLoop_all (splitLines [] names) cs (fun _ => none) (WholeTextOf.valid ((C47_strict _ _).1 h))
    (fun c t hc => nomatch hc)
  refine ⟨_, ds, ?_, print_whole ds h2⟩
  rw [inline, h, h1]
  rfl

/-- C55. For other texts, the program panics. -/
theorem C55_fails (names text : Str) (h : ∀ cs : List (PCmd (PTerm PSymb)), strict scopeSymb text ≠ cs.map .ok) : (inline names text).2 = false := by
  have := inlineLoop_false (splitLines [] names) _ (fun _ => none) h
  rw [inline]
  exact this

/-- C55. Only the first occurrence of a name is replaced, though its definition is dropped: a correct program can become an incorrect one. -/
theorem C55_twice_false : ∃ names text out, CorrectText text ∧ inline names text = (out, true) ∧ ¬ CorrectText out := by
  refine ⟨str "c", str "A : Type. a : A. def c : A := a. P : A -> A -> Type. p : P c c.",
    str "A : Type.\na : A.\nP : (A -> (A -> Type)).\np : (P a c).\n", correctText_of (by decide +kernel) (by decide +kernel),
    by decide +kernel, not_correctText_of (staticText_sound (by decide +kernel) _) (by decide +kernel)⟩

/-- a test for `UsedOnce`, for examples -/
def usedOnce (names : List Str) : List (PCmd (PTerm PSymb)) → Bool
  | [] => true
  | .intro x _ _ :: cs => (!names.contains x || decide ((cs.flatMap PCmd.symbs).count (.new x) ≤ 1)) && usedOnce names cs
  | .rules _ :: cs => usedOnce names cs

theorem usedOnce_sound (names : List Str) : ∀ cs, usedOnce names cs = true → UsedOnce names cs
  | [], _, pre, c, post, x, tm, he, _ => absurd he (by simp)
  | .rules rs :: cs, h, pre, c, post, x, tm, he, hx => by
    cases pre with
    | nil =>
      cases he
      obtain ⟨-, _, h, -⟩ := hx
      cases h
    | cons d pre => exact usedOnce_sound names cs h pre c post x tm (List.cons.inj he).2 hx
  | .intro y args it :: cs, h, pre, c, post, x, tm, he, hx => by
    rw [usedOnce, Bool.and_eq_true] at h
    cases pre with
    | nil =>
      cases he
      obtain rfl := expands_name hx
      have := h.1
      simpa [hx.1] using this
    | cons d pre => exact usedOnce_sound names cs h.2 pre c post x tm (List.cons.inj he).2 hx

/-- the commands of a text, if it can be parsed -/
def parsedCmds (l : List (POut ParseError (PCmd (PTerm PSymb)))) : List (PCmd (PTerm PSymb)) :=
  l.filterMap fun
    | .ok c => some c
    | _ => none

theorem parsedCmds_map (cs : List (PCmd (PTerm PSymb))) : parsedCmds (cs.map .ok) = cs := by
  induction cs with
  | nil => rfl
  | cons c cs ih => exact congrArg (c :: ·) ih

/-- C55. A bound variable can capture a name of an inlined body, even if each inlined name is used once: a correct program can become an
incorrect one. -/
theorem C55_capture_false : ∃ names text out cs, CorrectText text ∧ WholeTextOf text cs ∧ UsedOnce (splitLines [] names) cs ∧
    inline names text = (out, true) ∧ ¬ CorrectText out := by
  have hc : CorrectText (str "A : Type. B : Type. a : A. def c : A := a. def f : B -> A := a : B => c.") :=
    correctText_of (by decide +kernel) (by decide +kernel)
  obtain ⟨cs, T, h1, h2⟩ := id hc
  refine ⟨str "c", str "A : Type. B : Type. a : A. def c : A := a. def f : B -> A := a : B => c.",
    str "A : Type.\nB : Type.\na : A.\ndef f : (B -> A) := (a : B => a).\n", cs, hc, h1, ?_, by decide +kernel,
    not_correctText_of (staticText_sound (by decide +kernel) _) (by decide +kernel)⟩
  have h3 := congrArg parsedCmds ((C47_strict _ _).2 h1)
  rw [parsedCmds_map] at h3
  rw [← h3]
  exact usedOnce_sound _ _ (by decide +kernel)

/-- C55. Rules are printed as they are, so an inlined name in them is not defined any more: the web checker accepts the input, and not the
output. -/
theorem C55_rules_false : ∃ names text, (∃ gc, CheckSingle (Kern.std 30 fun _ => true) text false 3 gc (.ok ())) ∧
    ∃ out, inline names text = (out, true) ∧ ∃ gc e, CheckSingle (Kern.std 30 fun _ => true) out false 3 gc (.err e) := by
  refine ⟨str "c", str "A : Type. a : A. def c : A := a. def f : A. [] f --> c.", ?_,
    str "A : Type.\na : A.\ndef f : A.\n[] f --> c.\n", by decide +kernel, ?_⟩
  · have := Example.web [(str "main", str "A : Type. a : A. def c : A := a. def f : A. [] f --> c.")]
    rwa [List.flatMap_singleton, Out.isOk_unit
      (o := Example.webVerdict [(str "main", str "A : Type. a : A. def c : A := a. def f : A. [] f --> c.")]) (by decide +kernel)] at this
  · obtain ⟨gc, h⟩ := Example.web [(str "main", str "A : Type.\na : A.\ndef f : A.\n[] f --> c.\n")]
    rw [List.flatMap_singleton] at h
    have hres : (Example.webVerdict [(str "main", str "A : Type.\na : A.\ndef f : A.\n[] f --> c.\n")]).isErr = true := by decide +kernel
    generalize Example.webVerdict [(str "main", str "A : Type.\na : A.\ndef f : A.\n[] f --> c.\n")] = res at h hres
    cases res with
    | err e => exact ⟨gc, e, h⟩
    | ok => cases hres
    | panic => cases hres
    | timeout => cases hres

/-! ## Together with `symcount` -/

theorem resolve_consts (env : List (Option Str)) (s : PSymb) {c : PSymb} (h : c ∈ PHead.consts (.atom (resolve env s))) :
    c = s ∧ c ≠ .new (str "Type") := by
  unfold resolve at h
  split at h
  next hp =>
    split at h
    · simp [PHead.consts] at h
    · split at h
      · simp [PHead.consts] at h
      next hT =>
        simp only [PHead.consts, List.mem_singleton] at h
        subst h
        exact ⟨rfl, fun e => hT (congrArg PSymb.name e)⟩
  next hp =>
    simp only [PHead.consts, List.mem_singleton] at h
    subst h
    exact ⟨rfl, fun e => hp (congrArg PSymb.path e)⟩

theorem resolve_count {x : Str} (hT : x ≠ str "Type") {env : List (Option Str)} (he : some x ∉ env) (s : PSymb) :
    (PHead.consts (.atom (resolve env s))).count (.new x) = [s].count (.new x) := by
  by_cases hs : s = .new x
  · subst hs
    have hb : binderOf env x = none := by
      rw [binderOf, List.findIdx?_eq_none_iff]
      intro o ho
      rw [decide_eq_false_iff_not]
      rintro rfl
      exact he ho
    have h : resolve env (.new x) = .const (.new x) := by
      unfold resolve
      rw [if_pos (show (PSymb.new x).path = [] from rfl), show binderOf env (PSymb.new x).name = none from hb]
      exact if_neg hT
    rw [h]
    rfl
  · have h0 : [s].count (PSymb.new x) = 0 := List.count_eq_zero.2 fun h => hs (List.mem_singleton.1 h).symm
    rw [h0, List.count_eq_zero]
    exact fun h => hs (resolve_consts env s h).1.symm

mutual
  theorem PTerm.scope_type : ∀ (t : PTerm PSymb) (env : List (Option Str)), .new (str "Type") ∉ (t.scope env).consts
    | .app h args, env => by
      rw [PTerm.scope, PTerm.consts, List.mem_append, not_or]
      exact ⟨PHead.scope_type h env, scopeArgs_type args env⟩
  theorem PHead.scope_type : ∀ (t : PHead PSymb) (env : List (Option Str)), .new (str "Type") ∉ (t.scope env).consts
    | .atom s, env => fun h => (resolve_consts env s h).2 rfl
    | .abst y none tm, env => by
      rw [PHead.scope, PHead.consts, List.mem_append, not_or]
      exact ⟨List.not_mem_nil, PTerm.scope_type tm _⟩
    | .abst y (some ty) tm, env => by
      rw [PHead.scope, PHead.consts, List.mem_append, not_or]
      exact ⟨PTerm.scope_type ty env, PTerm.scope_type tm _⟩
    | .prod y ty tm, env => by
      rw [PHead.scope, PHead.consts, List.mem_append, not_or]
      exact ⟨PTerm.scope_type ty env, PTerm.scope_type tm _⟩
  theorem scopeArgs_type : ∀ (ts : List (PTerm PSymb)) (env : List (Option Str)), .new (str "Type") ∉ PTerm.constsList (scopeArgs env ts)
    | [], _ => List.not_mem_nil
    | t :: ts, env => by
      rw [scopeArgs, PTerm.constsList, List.mem_append, not_or]
      exact ⟨PTerm.scope_type t env, scopeArgs_type ts env⟩
end

theorem scopeTele_type : ∀ (as : List (Str × PTerm PSymb)) (env : List (Option Str)),
    .new (str "Type") ∉ (scopeTele PTerm.scope env as).flatMap fun a => a.2.consts
  | [], _ => List.not_mem_nil
  | (y, t) :: as, env => by
    rw [scopeTele, List.flatMap_cons, List.mem_append, not_or]
    exact ⟨PTerm.scope_type t env, scopeTele_type as _⟩

theorem optScope_type (t : Option (PTerm PSymb)) (env : List (Option Str)) : .new (str "Type") ∉ PTerm.constsOpt (t.map (PTerm.scope env)) := by
  cases t with
  | none => exact List.not_mem_nil
  | some t => exact PTerm.scope_type t env

theorem Intro.scope_given (env : List (Option Str)) (it : Intro (PTerm PSymb)) :
    (Intro.scope env it).given = it.given.map (PTerm.scope env) := by cases it <;> rfl

theorem Intro.scope_body (env : List (Option Str)) (it : Intro (PTerm PSymb)) :
    (Intro.scope env it).body = it.body.map (PTerm.scope env) := by cases it <;> rfl

theorem PCmd.scope_type (c : PCmd (PTerm PSymb)) : .new (str "Type") ∉ Scoped.introConsts c.scope := by
  cases c with
  | rules rs => exact List.not_mem_nil
  | intro y args it =>
    rw [PCmd.scope, Scoped.introConsts, List.mem_append, List.mem_append, Intro.scope_given, Intro.scope_body]
    rintro ((h | h) | h)
    · exact scopeTele_type _ _ h
    · exact optScope_type _ _ h
    · exact optScope_type _ _ h

mutual
  theorem PTerm.scope_count {x : Str} (hT : x ≠ str "Type") : ∀ (t : PTerm PSymb) (env : List (Option Str)), some x ∉ env → ¬ t.Binds x →
      (t.scope env).consts.count (.new x) = t.symbs.count (.new x)
    | .app h args, env, he, hb => by
      rw [PTerm.Binds, not_or] at hb
      rw [PTerm.scope, PTerm.consts, PTerm.symbs, List.count_append, List.count_append, PHead.scope_count hT h env he hb.1,
        scopeArgs_count hT args env he hb.2]
  theorem PHead.scope_count {x : Str} (hT : x ≠ str "Type") : ∀ (t : PHead PSymb) (env : List (Option Str)), some x ∉ env → ¬ t.Binds x →
      (t.scope env).consts.count (.new x) = t.symbs.count (.new x)
    | .atom s, env, he, _ => resolve_count hT he s
    | .abst y none tm, env, he, hb => by
      simp only [PHead.Binds, not_or] at hb
      rw [PHead.scope, PHead.consts, PHead.symbs, List.count_append, List.count_append,
        PTerm.scope_count hT tm _ (by simpa using ⟨fun e => hb.1 e.symm, he⟩) hb.2.2]
      rfl
    | .abst y (some ty) tm, env, he, hb => by
      simp only [PHead.Binds, not_or] at hb
      rw [PHead.scope, PHead.consts, PHead.symbs, List.count_append, List.count_append,
        PTerm.scope_count hT tm _ (by simpa using ⟨fun e => hb.1 e.symm, he⟩) hb.2.2, PTerm.constsOpt, PTerm.scope_count hT ty _ he hb.2.1]
      rfl
    | .prod y ty tm, env, he, hb => by
      simp only [PHead.Binds, not_or] at hb
      rw [PHead.scope, PHead.consts, PHead.symbs, List.count_append, List.count_append,
        PTerm.scope_count hT tm _ (by simpa using ⟨fun e => hb.1 e.symm, he⟩) hb.2.2, PTerm.scope_count hT ty _ he hb.2.1]
  theorem scopeArgs_count {x : Str} (hT : x ≠ str "Type") : ∀ (ts : List (PTerm PSymb)) (env : List (Option Str)), some x ∉ env →
      ¬ bindsArgs x ts → (PTerm.constsList (scopeArgs env ts)).count (.new x) = (symbsArgs ts).count (.new x)
    | [], _, _, _ => rfl
    | t :: ts, env, he, hb => by
      rw [bindsArgs, not_or] at hb
      rw [scopeArgs, PTerm.constsList, symbsArgs, List.count_append, List.count_append, PTerm.scope_count hT t env he hb.1,
        scopeArgs_count hT ts env he hb.2]
end

theorem scopeTele_count {x : Str} (hT : x ≠ str "Type") : ∀ (as : List (Str × PTerm PSymb)) (env : List (Option Str)), some x ∉ env →
    (∀ a ∈ as, a.1 ≠ x ∧ ¬ a.2.Binds x) →
    ((scopeTele PTerm.scope env as).flatMap fun a => a.2.consts).count (.new x) = (as.flatMap fun a => a.2.symbs).count (.new x)
  | [], _, _, _ => rfl
  | (y, t) :: as, env, he, hb => by
    have h0 := hb _ (.head _)
    rw [scopeTele, List.flatMap_cons, List.flatMap_cons, List.count_append, List.count_append, PTerm.scope_count hT t env he h0.2,
      scopeTele_count hT as _ (by simpa using ⟨fun e => h0.1 e.symm, he⟩) fun a ha => hb a (.tail _ ha)]

theorem optScope_count {x : Str} (hT : x ≠ str "Type") (t : Option (PTerm PSymb)) (env : List (Option Str)) (he : some x ∉ env)
    (hb : ¬ bindsOpt x t) : (PTerm.constsOpt (t.map (PTerm.scope env))).count (.new x) = (symbsOpt t).count (.new x) := by
  cases t with
  | none => rfl
  | some t => exact PTerm.scope_count hT t env he hb

theorem PCmd.scope_count {x : Str} (hT : x ≠ str "Type") (c : PCmd (PTerm PSymb)) (hb : ¬ c.Binds x) :
    (Scoped.introConsts c.scope).count (.new x) = c.symbs.count (.new x) := by
  cases c with
  | rules rs => rfl
  | intro y args it =>
    simp only [PCmd.Binds, not_or, not_exists, not_and] at hb
    obtain ⟨h1, h2, h3⟩ := hb
    have he : some x ∉ teleEnv (args.map Prod.fst) := by
      simp only [teleEnv, List.mem_reverse, List.mem_map, not_exists, not_and]
      rintro _ ⟨a, ha, rfl⟩ e
      exact (h1 a ha).1 (Option.some.inj e)
    rw [PCmd.scope, Scoped.introConsts, PCmd.symbs, List.count_append, List.count_append, List.count_append, List.count_append,
      Intro.scope_given, Intro.scope_body, scopeTele_count hT args [] (by simp) h1, optScope_count hT _ _ he h2, optScope_count hT _ _ he h3]

theorem le_occurrences (a b : List (PCmd (PTerm PSymb))) (c : PSymb) :
    occurrences (b.map PCmd.scope) c ≤ occurrences ((a ++ b).map PCmd.scope) c := by
  rw [occurrences, occurrences, List.map_append, List.flatMap_append, List.count_append]
  exact Nat.le_add_left _ _

/-- C55 (documentation: first find the constants that are used exactly once by `symcount`, then inline them). If the names of the second file
are ones that are counted once, and they are not also names of bound variables, then the output is the expansion of the program.
Missing: names that are also bound; and occurrences in rules, which are neither counted nor replaced, see `C55_pipeline_false`. -/
theorem C55_pipeline_partial (names text : Str) (cs : List (PCmd (PTerm PSymb))) (h : strict scopeSymb text = cs.map .ok) (h' : TextOf text cs)
    (m : Counts) (hm : symcount text = some m) (h1 : ∀ x ∈ splitLines [] names, m (.new x) = some 1)
    (hb : ∀ x ∈ splitLines [] names, ∀ c ∈ cs, ¬ c.Binds x)
    (hi : ∀ x ∈ splitLines [] names, ∀ pre args it post, cs = pre ++ .intro x args it :: post → ∀ args' it', .intro x args' it' ∉ post) :
    ∃ ds, Expansion (splitLines [] names) (fun _ => none) cs ds ∧ inline names text = (ds.flatMap fun c => c.show ++ str ".\n", true) := by
  refine C55_expands_partial names text cs h fun pre c post x tm he hx => ?_
  obtain ⟨hxn, it, rfl, -⟩ := hx
  obtain ⟨m', hm', hc⟩ := C54_counts text cs h'
  obtain rfl : m' = m := Option.some.inj (hm'.symm.trans hm)
  have hsum : ∀ l : List (PCmd (PTerm PSymb)), occurrences (l.map PCmd.scope) (.new (str "Type")) = 0 := by
    intro l
    rw [occurrences, List.count_eq_zero]
    intro hm
    obtain ⟨c, hc, hc'⟩ := List.mem_flatMap.1 hm
    obtain ⟨d, -, rfl⟩ := List.mem_map.1 hc
    exact PCmd.scope_type d hc'
  rcases (hc _ _).1 (h1 x hxn) with ⟨pre', cmd, post', he', hc', hp', hn⟩ | ⟨hno, -, -⟩
  · obtain ⟨p1, p2, e1, e2, e3⟩ := List.map_eq_append_iff.1 he'
    have hT : x ≠ str "Type" := by
      rintro rfl
      have := hsum p2
      rw [e3, ← hn] at this
      exact absurd this (by decide)
    have hle : occurrences (post.map PCmd.scope) (.new x) ≤ 1 := by
      rw [hn, ← e3]
      rw [he] at e1
      rcases List.append_eq_append_iff.1 e1 with ⟨as, ea, eb⟩ | ⟨as, ea, eb⟩
      · cases as with
        | nil =>
          rw [List.nil_append] at eb
          rw [← eb]
          exact le_occurrences [.intro x [] it] post _
        | cons d as =>
          injection eb with _ eb
          refine absurd ?_ (?_ : ¬ ∃ a' i', PCmd.intro x a' i' ∈ post)
          · cases p2 with
            | nil => cases e3
            | cons d2 p2 =>
              injection e3 with e3 _
              subst e3
              cases d2 with
              | rules rs => cases hc'
              | intro y a' i' =>
                obtain rfl : x = y := congrArg PSymb.name hc'
                exact ⟨a', i', by rw [eb]; simp⟩
          · rintro ⟨a', i', hin⟩
            exact hi x hxn pre [] it post he a' i' hin
      · rw [eb]
        exact (le_occurrences [.intro x [] it] post _).trans (le_occurrences as _ _)
    refine le_trans (le_of_eq ?_) hle
    rw [occurrences, List.flatMap_map]
    have hb' : ∀ c ∈ post, ¬ c.Binds x := fun c hc => hb x hxn c (by rw [he]; simp [hc])
    clear hi hle he e1
    induction post with
    | nil => rfl
    | cons c post ih =>
      rw [List.flatMap_cons, List.flatMap_cons, List.count_append, List.count_append, PCmd.scope_count hT c (hb' c (.head _)),
        ih fun d hd => hb' d (.tail _ hd)]
  · refine absurd ?_ (hno (PCmd.scope (.intro x [] it)) (List.mem_map.2 ⟨_, by rw [he]; simp, rfl⟩))
    exact rfl

/-- Inlined names are expanded in later bodies that are inlined, too, and applied to the arguments; a definition with arguments is kept,
and so is a name that is not in the list. -/
example : inline (str "b\nc\nd\r\n") (str "A : Type. a : A. def b : A -> A := x : A => x. thm c : A := b a. def d (x : A) := x. def e := b. def f := d c.") =
    (str "A : Type.\na : A.\ndef d (x : A) := x.\ndef e := b.\ndef f := (d ((x : A => x) a)).\n", true) := by decide +kernel

/-- C55. Occurrences in rules are neither counted nor replaced: following the documentation, a program that the web checker accepts can become
one that it refuses. -/
theorem C55_pipeline_false : ∃ names text m, symcount text = some m ∧ (∀ x ∈ splitLines [] names, m (.new x) = some 1) ∧
    (∃ gc, CheckSingle (Kern.std 30 fun _ => true) text false 3 gc (.ok ())) ∧
    ∃ out, inline names text = (out, true) ∧ ∃ gc e, CheckSingle (Kern.std 30 fun _ => true) out false 3 gc (.err e) := by
  obtain ⟨m, hm, h1⟩ := Counts.any_elim (o := symcount (str "A : Type. a : A. def c : A := a. def d : A := c. def f : A. [] f --> c."))
    (p := fun m => (splitLines [] (str "c")).all fun x => decide (m (.new x) = some 1)) (by decide +kernel)
  refine ⟨str "c", str "A : Type. a : A. def c : A := a. def d : A := c. def f : A. [] f --> c.", m, hm,
    fun x hx => of_decide_eq_true (List.all_eq_true.1 h1 x hx), ?_,
    str "A : Type.\na : A.\ndef d : A := a.\ndef f : A.\n[] f --> c.\n", by decide +kernel, ?_⟩
  · have := Example.web [(str "main", str "A : Type. a : A. def c : A := a. def d : A := c. def f : A. [] f --> c.")]
    rwa [List.flatMap_singleton, Out.isOk_unit
      (o := Example.webVerdict [(str "main", str "A : Type. a : A. def c : A := a. def d : A := c. def f : A. [] f --> c.")])
      (by decide +kernel)] at this
  · obtain ⟨gc, h⟩ := Example.web [(str "main", str "A : Type.\na : A.\ndef d : A := a.\ndef f : A.\n[] f --> c.\n")]
    rw [List.flatMap_singleton] at h
    have hres : (Example.webVerdict [(str "main", str "A : Type.\na : A.\ndef d : A := a.\ndef f : A.\n[] f --> c.\n")]).isErr = true := by
      decide +kernel
    generalize Example.webVerdict [(str "main", str "A : Type.\na : A.\ndef d : A := a.\ndef f : A.\n[] f --> c.\n")] = res at h hres
    cases res with
    | err e => exact ⟨gc, e, h⟩
    | ok => cases hres
    | panic => cases hres
    | timeout => cases hres

/-- a case of `C55_pipeline_partial` -/
example : ∃ ds, Expansion [str "c"] (fun _ => none)
      [.intro (str "A") [] (.declaration false (symbTerm (.new (str "Type")))), .intro (str "c") [] (.definition none (some (symbTerm (.new (str "A"))))),
        .intro (str "d") [] (.declaration false (symbTerm (.new (str "c"))))] ds ∧
    inline (str "c") (str "A : Type. def c := A. d : c.") = (ds.flatMap fun c => c.show ++ str ".\n", true) := by
  have h : strict scopeSymb (str "A : Type. def c := A. d : c.") = List.map .ok
      [.intro (str "A") [] (.declaration false (symbTerm (.new (str "Type")))), .intro (str "c") [] (.definition none (some (symbTerm (.new (str "A"))))),
        .intro (str "d") [] (.declaration false (symbTerm (.new (str "c"))))] := by rfl
  obtain ⟨m, hm, h1⟩ := Counts.any_elim (o := symcount (str "A : Type. def c := A. d : c."))
    (p := fun m => (splitLines [] (str "c")).all fun x => decide (m (.new x) = some 1)) (by decide +kernel)
  have hs : splitLines [] (str "c") = [str "c"] := by decide
  refine hs ▸ C55_pipeline_partial (str "c") _ _ h ?_ m hm (fun x hx => of_decide_eq_true (List.all_eq_true.1 h1 x hx)) ?_ ?_
  · exact (textOf_iff _ _).2 (by rfl)
  · rw [hs]
    simp [PCmd.Binds, Intro.given, Intro.body, bindsOpt, symbTerm, PTerm.Binds, PHead.Binds, bindsArgs]
  · rw [hs]
    intro x hx pre args it post he args' it' hin
    obtain rfl := List.mem_singleton.1 hx
    rcases pre with _ | ⟨_, _ | ⟨_, _ | ⟨_, pre⟩⟩⟩
    · exact absurd (PCmd.intro.inj (List.cons.inj he).1).1 (by decide)
    · obtain rfl := (List.cons.inj (List.cons.inj he).2).2
      exact absurd (PCmd.intro.inj (List.mem_singleton.1 hin)).1 (by decide)
    · obtain rfl := (List.cons.inj (List.cons.inj (List.cons.inj he).2).2).2
      cases hin
    · simp at he

#print axioms C55_expands_partial
#print axioms C55_output
#print axioms C55_fails
#print axioms C55_twice_false
#print axioms C55_capture_false
#print axioms C55_rules_false
#print axioms C55_pipeline_partial
#print axioms C55_pipeline_false

end Kontroli
