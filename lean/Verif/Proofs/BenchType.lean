import Verif.Proofs.BenchText

/-!
# The commands of the benchmarks are right
-/

namespace Kontroli

attribute [local irreducible] decimal

theorem num_ne {x pre : Str} (h : x.take pre.length ≠ pre ∨ x.length ≤ pre.length ∨ (x.drop pre.length).all Char.isDigit = false) (n : Nat) :
    x ≠ pre ++ decimal n := by
  rintro rfl
  rw [List.take_left, List.drop_left] at h
  rcases h with h | h | h
  · exact h rfl
  · rw [List.length_append] at h
    have := List.length_pos_of_ne_nil (decimal_ne n)
    omega
  · rw [List.all_eq_true.2 (fun c hc => decimal_digit hc)] at h
    cases h

theorem names_inj {hs : List Str} {pre : Str} {off : Nat} {name : Nat → Str} (h1 : hs = (List.range hs.length).map name)
    (h2 : ∀ k, name (k + hs.length) = pre ++ decimal (k + off)) (hn : hs.Nodup)
    (hd : ∀ x ∈ hs, x.take pre.length ≠ pre ∨ x.length ≤ pre.length ∨ (x.drop pre.length).all Char.isDigit = false) :
    ∀ i j, i < j → name i ≠ name j := by
  have hm : ∀ i, i < hs.length → hs[i]? = some (name i) := by
    intro i hi
    have e := congrArg (·[i]?) h1
    rw [e]
    simp [List.getElem?_range hi]
  intro i j hij e
  by_cases hj : j < hs.length
  · have k1 := hm i (by omega)
    have k2 := hm j hj
    rw [← e, ← k1] at k2
    have := (List.getElem?_inj (by omega) hn).1 k2
    omega
  · obtain ⟨j', rfl⟩ := Nat.exists_eq_add_of_le' (Nat.le_of_not_lt hj)
    rw [h2] at e
    by_cases hi : i < hs.length
    · exact num_ne (hd _ (List.mem_of_getElem? (hm i hi))) _ e
    · obtain ⟨i', rfl⟩ := Nat.exists_eq_add_of_le' (Nat.le_of_not_lt hi)
      rw [h2] at e
      have := decimal_inj (List.append_cancel_left e)
      omega

/-- the number of a name among some names -/
def numberIn (hs : List Str) (c : PSymb) : Nat := hs.findIdx (· = c.name)

theorem Gen.introduces_decl {g : Gen} {k : Nat} {T : Theory} {t : PTerm PSymb} (h1 : g.args k = []) (h2 : g.it k = .declaration false t)
    (h3 : (t.scope []).den g.f = g.ty k) (h4 : T.IsType (g.ty k)) : ∃ rs, Introduces T k (g.it' k) (g.ty k) rs := by
  have e : g.it' k = .declaration false ((t.scope []).resolve g.f) := by rw [Gen.it', h1, h2]; rfl
  rw [← h3] at h4 ⊢
  rw [e, ← resolve_den] at *
  exact ⟨_, .declared h4⟩

theorem Gen.introduces_def {g : Gen} {k : Nat} {T : Theory} {t : PTerm PSymb} (h2 : g.it k = .definition none (some t))
    (h3 : Strict T [] ((telescopeTerm (scopeTele PTerm.scope [] (g.args k)) (t.scope (teleEnv ((g.args k).map Prod.fst)))).den g.f) (g.ty k))
    (h4 : T.IsType (g.ty k)) : ∃ rs, Introduces T k (g.it' k) (g.ty k) rs := by
  rw [← resolve_den] at h3
  have e : g.it' k = .definition none (some ((telescopeTerm (scopeTele PTerm.scope [] (g.args k)) (t.scope (teleEnv ((g.args k).map Prod.fst)))).resolve g.f)) := by
    rw [Gen.it', h2]; rfl
  rw [e]
  exact ⟨_, .inferred h4 h3⟩

/-! ## Types -/

/-- `a -> ... -> a`, where `a` is the first symbol -/
def chainTy : Nat → Tm
  | 0 => .const 0
  | n + 1 => .pi (.const 0) (chainTy n)

theorem chainTy_strict {T : Theory} (h : T.ty 0 = some .type) (n : Nat) : ∀ Γ, Strict T Γ (chainTy n) .type := by
  induction n with
  | zero => exact fun Γ => .const h
  | succ n ih => exact fun Γ => .pi (.const h) (ih _) .type

/-- a name that is not bound -/
theorem resolve_free {env : List (Option Str)} {x : Str} (h : some x ∉ env) (ht : x ≠ str "Type") : resolve env ⟨[], x⟩ = .const ⟨[], x⟩ := by
  have hb : binderOf env x = none := by
    rw [binderOf, List.findIdx?_eq_none_iff]
    intro o ho
    simp only [decide_eq_false_iff_not]
    rintro rfl
    exact h ho
  simp only [resolve, hb, if_true, if_neg ht]

theorem resolve_first (env : List (Option Str)) (x : Str) : resolve (some x :: env) ⟨[], x⟩ = .var 0 := by
  simp [resolve, binderOf, List.findIdx?_cons]

theorem prodChain_den (f : PSymb → Sym) (hf : f ⟨[], str "a"⟩ = 0) (n : Nat) : ∀ env, (∀ o ∈ env, o = none) →
    ((prodChainTy n).scope env).den f = chainTy n ∧ ∀ c ∈ ((prodChainTy n).scope env).consts, c = ⟨[], str "a"⟩ := by
  induction n with
  | zero =>
    intro env h
    have := resolve_free (env := env) (x := str "a") (fun hm => by cases h _ hm) (by decide)
    simp only [prodChainTy, named, symbTerm, PTerm.scope, PHead.scope, scopeArgs, this]
    exact ⟨congrArg Tm.const hf, by simp [PTerm.consts, PHead.consts, PTerm.constsList]⟩
  | succ n ih =>
    intro env h
    have h1 := resolve_free (env := env) (x := str "a") (fun hm => by cases h _ hm) (by decide)
    obtain ⟨h2, h3⟩ := ih (none :: env) (by simpa using h)
    simp only [prodChainTy, arrowOf, named, symbTerm, PTerm.scope, PHead.scope, scopeArgs, h1]
    constructor
    · simp only [PTerm.den, PHead.den, PTerm.denList, Tm.apps, h2, hf, chainTy]
    · intro c hc
      simp only [PTerm.consts, PHead.consts, PTerm.constsList, List.append_nil, List.mem_append] at hc
      rcases hc with hc | hc
      · simpa using hc
      · exact h3 c hc

/-! ## The chain of abstractions -/

/-- `x : a => ... => x` -/
def abstDen : Nat → Tm
  | 0 => .var 0
  | n + 1 => .lam (.const 0) (abstDen n)

theorem abstChain_den (f : PSymb → Sym) (hf : f ⟨[], str "a"⟩ = 0) (n : Nat) : ∀ env, (∀ o ∈ env, o = some (str "x")) → (n = 0 → env ≠ []) →
    ((abstChainTm n).scope env).den f = abstDen n ∧ ∀ c ∈ ((abstChainTm n).scope env).consts, c = ⟨[], str "a"⟩ := by
  induction n with
  | zero =>
    intro env h h0
    cases env with
    | nil => exact absurd rfl (h0 rfl)
    | cons o env =>
      cases h o List.mem_cons_self
      simp only [abstChainTm, named, symbTerm, PTerm.scope, PHead.scope, scopeArgs, resolve_first]
      exact ⟨rfl, by simp [PTerm.consts, PHead.consts, PTerm.constsList]⟩
  | succ n ih =>
    intro env h _
    have h1 := resolve_free (env := env) (x := str "a") (fun hm => absurd (Option.some.inj (h _ hm)) (by decide)) (by decide)
    obtain ⟨h2, h3⟩ := ih (some (str "x") :: env) (by simpa using h) (fun _ => by simp)
    simp only [abstChainTm, named, symbTerm, PTerm.scope, PHead.scope, scopeArgs, h1]
    constructor
    · simp only [PTerm.den, PHead.den, PTerm.denList, Tm.apps, h2, hf, abstDen]
    · intro c hc
      simp only [PTerm.consts, PHead.consts, PTerm.constsList, List.append_nil, List.mem_append] at hc
      rcases hc with hc | hc
      · simpa [PTerm.constsOpt, PTerm.consts, PHead.consts, PTerm.constsList] using hc
      · exact h3 c hc

theorem abstDen_strict {T : Theory} (h : T.ty 0 = some .type) (n : Nat) : ∀ Γ, (n = 0 → Γ.head? = some (.const 0)) → Strict T Γ (abstDen n) (chainTy n) := by
  induction n with
  | zero =>
    intro Γ h0
    cases Γ with
    | nil => cases h0 rfl
    | cons A Γ =>
      cases h0 rfl
      exact Strict.var (n := 0) (A := .const 0) rfl
  | succ n ih => exact fun Γ _ => .lam (.const h) (ih _ fun _ => rfl) (chainTy_strict h n _) .type

theorem named_known (b : Bool) (x : Str) : (named x).Known b := ⟨trivial, trivial⟩

def abstGen : Gen where
  name := fun
    | 0 => str "a"
    | n + 1 => str "a" ++ decimal (n + 1)
  args := fun _ => []
  it := fun
    | 0 => .declaration false (named (str "Type"))
    | n + 1 => .definition none (some (abstChainTm (n + 1)))
  f := numberIn [str "a"]
  ty := fun
    | 0 => .type
    | n + 1 => chainTy (n + 1)

theorem abstGen_cmd (n : Nat) : abstGen.cmd n = abstChainCmds n := by cases n <;> rfl

theorem typeScope (env : List (Option Str)) (h : some (str "Type") ∉ env) : (named (str "Type")).scope env = .app (.atom .type) [] := by
  have hb : binderOf env (str "Type") = none := by
    rw [binderOf, List.findIdx?_eq_none_iff]
    intro o ho
    simp only [decide_eq_false_iff_not]
    rintro rfl
    exact h ho
  simp only [named, symbTerm, PTerm.scope, PHead.scope, scopeArgs, resolve, hb, if_true]

theorem abstGen_good : abstGen.Good where
  inj := names_inj (hs := [str "a"]) (pre := str "a") (off := 1) rfl (fun k => rfl) (by decide) (by decide)
  consts := by
    intro k c hc
    match k with
    | 0 =>
      have e : (Intro.scope [] (.declaration false (named (str "Type")))).consts = [] := by
        rw [Intro.scope, typeScope [] (by simp)]; rfl
      rcases hc with hc | hc
      · exact absurd (e ▸ hc) (by simp)
      · exact absurd hc (by simp [abstGen, argConsts, scopeTele])
    | k + 1 =>
      rcases hc with hc | hc
      · have := (abstChain_den abstGen.f rfl (k + 1) [] (by simp) (by simp)).2 c (by simpa [abstGen, Intro.scope, Intro.consts, PTerm.constsOpt, teleEnv] using hc)
        subst this
        exact ⟨rfl, Nat.succ_pos k, rfl⟩
      · exact absurd hc (by simp [abstGen, argConsts, scopeTele])
  intro := by
    intro k T hT
    match k with
    | 0 => exact Gen.introduces_decl (t := named (str "Type")) rfl rfl (by rw [typeScope [] (by simp)]; rfl) ⟨.kind, .kind, .type⟩
    | k + 1 =>
      have h0 := hT 0 (Nat.succ_pos k)
      refine Gen.introduces_def (t := abstChainTm (k + 1)) rfl ?_ ⟨.type, .type, chainTy_strict h0 (k + 1) []⟩
      have e := (abstChain_den abstGen.f rfl (k + 1) [] (by simp) (by simp)).1
      show Strict T [] (((abstChainTm (k + 1)).scope []).den abstGen.f) (chainTy (k + 1))
      rw [e]
      exact abstDen_strict h0 (k + 1) [] (by simp)
  known := by
    have key : ∀ n, (abstChainTm n).Known false := by
      intro n
      induction n with
      | zero => exact named_known _ _
      | succ n ih => exact ⟨⟨named_known _ _, ih⟩, trivial⟩
    intro k
    match k with
    | 0 => exact ⟨by rintro a ⟨⟩, by rintro ty ⟨⟩; exact named_known _ _, by rintro tm ⟨⟩⟩
    | k + 1 => exact ⟨by rintro a ⟨⟩, by rintro ty ⟨⟩, by rintro tm ⟨⟩; exact key _⟩

/-! ## The chain of products -/

def prodGen : Gen where
  name := fun
    | 0 => str "a"
    | n + 1 => str "a" ++ decimal (n + 1)
  args := fun _ => []
  it := fun
    | 0 => .declaration false (named (str "Type"))
    | n + 1 => .declaration false (prodChainTy n)
  f := numberIn [str "a"]
  ty := fun
    | 0 => .type
    | n + 1 => chainTy n

theorem prodGen_cmd (n : Nat) : prodGen.cmd n = prodChainCmds n := by cases n <;> rfl

theorem prodChain_known (n : Nat) : (prodChainTy n).Known false := by
  induction n with
  | zero => exact named_known _ _
  | succ n ih => exact ⟨⟨named_known _ _, ih⟩, trivial⟩

theorem prodGen_good : prodGen.Good where
  inj := names_inj (hs := [str "a"]) (pre := str "a") (off := 1) rfl (fun k => rfl) (by decide) (by decide)
  consts := by
    intro k c hc
    rcases hc with hc | hc
    · match k with
      | 0 => exact absurd hc (by decide +revert)
      | k + 1 =>
        have := (prodChain_den prodGen.f rfl k [] (by simp)).2 c hc
        subst this
        exact ⟨rfl, Nat.succ_pos k, rfl⟩
    · exact absurd hc (by simp [prodGen, argConsts, scopeTele])
  intro := by
    intro k T hT
    match k with
    | 0 => exact Gen.introduces_decl (t := named (str "Type")) rfl rfl rfl ⟨.kind, .kind, .type⟩
    | k + 1 =>
      have h0 := hT 0 (Nat.succ_pos k)
      exact Gen.introduces_decl (t := prodChainTy k) rfl rfl (prodChain_den prodGen.f rfl k [] (by simp)).1 ⟨.type, .type, chainTy_strict h0 k []⟩
  known := by
    intro k
    match k with
    | 0 => exact ⟨by rintro a ⟨⟩, by rintro ty ⟨⟩; exact named_known _ _, by rintro tm ⟨⟩⟩
    | k + 1 => exact ⟨by rintro a ⟨⟩, by rintro ty ⟨⟩; exact prodChain_known k, by rintro tm ⟨⟩⟩

/-! ## The trees of applications -/

/-- a tree of applications of the symbol 3 to the symbol 1 -/
def btreeDen : Nat → Tm
  | 0 => .const 1
  | n + 1 => .app (.app (.const 3) (btreeDen n)) (btreeDen n)

theorem btree_den (f : PSymb → Sym) (hf : f ⟨[], str "f"⟩ = 3) (h0 : f ⟨[], str "0"⟩ = 1) (n : Nat) :
    ((btreeTm n).scope []).den f = btreeDen n ∧ ∀ c ∈ ((btreeTm n).scope []).consts, c = ⟨[], str "f"⟩ ∨ c = ⟨[], str "0"⟩ := by
  have r0 : resolve [] ⟨[], str "0"⟩ = .const ⟨[], str "0"⟩ := rfl
  have rf : resolve [] ⟨[], str "f"⟩ = .const ⟨[], str "f"⟩ := rfl
  induction n with
  | zero =>
    simp only [btreeTm, named, symbTerm, PTerm.scope, PHead.scope, scopeArgs, r0]
    exact ⟨congrArg Tm.const h0, by simp [PTerm.consts, PHead.consts, PTerm.constsList]⟩
  | succ n ih =>
    obtain ⟨h1, h2⟩ := ih
    simp only [btreeTm, applied, PTerm.scope, PHead.scope, scopeArgs, rf]
    constructor
    · simp only [PTerm.den, PHead.den, PTerm.denList, Tm.apps, h1, hf, btreeDen]
    · intro c hc
      simp only [PTerm.consts, PHead.consts, PTerm.constsList, List.append_nil, List.mem_append, List.mem_singleton] at hc
      rcases hc with hc | hc | hc
      · exact .inl hc
      · exact h2 c hc
      · exact h2 c hc

theorem btreeDen_strict {T : Theory} (h1 : T.ty 1 = some (.const 0)) (h3 : T.ty 3 = some (chainTy 2)) (n : Nat) : Strict T [] (btreeDen n) (.const 0) := by
  induction n with
  | zero => exact .const h1
  | succ n ih =>
    have k1 : Strict T [] (.app (.const 3) (btreeDen n)) (.pi (.const 0) (.const 0)) := Strict.app (A := .const 0) (B := chainTy 1) (.const h3) ih
    exact Strict.app (A := .const 0) (B := .const 0) k1 ih

theorem btree_known (b : Bool) (n : Nat) : (btreeTm n).Known b := by
  induction n generalizing b with
  | zero => exact named_known _ _
  | succ n ih => exact ⟨trivial, ih true, ih true, trivial⟩

def btreeGen : Gen where
  name := fun
    | 0 => str "a"
    | 1 => str "0"
    | 2 => str "p"
    | 3 => str "f"
    | n + 4 => str "a" ++ decimal n
  args := fun _ => []
  it := fun
    | 0 => .declaration false (named (str "Type"))
    | 1 => .declaration false (named (str "a"))
    | 2 => .declaration false (arrowOf (named (str "a")) (named (str "Type")))
    | 3 => .declaration false (prodChainTy 2)
    | n + 4 => .declaration false (applied (str "p") [btreeTm (n + 1)])
  f := numberIn [str "a", str "0", str "p", str "f"]
  ty := fun
    | 0 => .type
    | 1 => .const 0
    | 2 => .pi (.const 0) .type
    | 3 => chainTy 2
    | n + 4 => .app (.const 2) (btreeDen (n + 1))

theorem btreeGen_cmd (n : Nat) : btreeGen.cmd n = btreeCmds n := by
  match n with
  | 0 => rfl
  | 1 => rfl
  | 2 => rfl
  | 3 => rfl
  | n + 4 => rfl

theorem btreeGen_good : btreeGen.Good where
  inj := names_inj (hs := [str "a", str "0", str "p", str "f"]) (pre := str "a") (off := 0) rfl (fun k => rfl) (by decide) (by decide)
  consts := by
    intro k c hc
    rcases hc with hc | hc
    · match k with
      | 0 => exact absurd hc (by simp [show ((btreeGen.it 0).scope (teleEnv ((btreeGen.args 0).map Prod.fst))).consts = [] from rfl])
      | 1 =>
        rw [show ((btreeGen.it 1).scope (teleEnv ((btreeGen.args 1).map Prod.fst))).consts = [⟨[], str "a"⟩] from rfl, List.mem_singleton] at hc
        subst hc
        exact ⟨rfl, by decide, rfl⟩
      | 2 =>
        rw [show ((btreeGen.it 2).scope (teleEnv ((btreeGen.args 2).map Prod.fst))).consts = [⟨[], str "a"⟩] from rfl, List.mem_singleton] at hc
        subst hc
        exact ⟨rfl, by decide, rfl⟩
      | 3 =>
        have := (prodChain_den btreeGen.f rfl 2 [] (by simp)).2 c hc
        subst this
        exact ⟨rfl, by decide, rfl⟩
      | k + 4 =>
        have hc : c ∈ ⟨[], str "p"⟩ :: (((btreeTm (k + 1)).scope []).consts ++ []) := hc
        rw [List.append_nil, List.mem_cons] at hc
        rcases hc with rfl | hc
        · exact ⟨rfl, Nat.lt_add_left k (by decide : btreeGen.f ⟨[], str "p"⟩ < 4), rfl⟩
        · rcases (btree_den btreeGen.f rfl rfl (k + 1)).2 c hc with rfl | rfl
          · exact ⟨rfl, Nat.lt_add_left k (by decide : btreeGen.f ⟨[], str "f"⟩ < 4), rfl⟩
          · exact ⟨rfl, Nat.lt_add_left k (by decide : btreeGen.f ⟨[], str "0"⟩ < 4), rfl⟩
    · exact absurd hc (by simp [btreeGen, argConsts, scopeTele])
  intro := by
    intro k T hT
    match k with
    | 0 => exact Gen.introduces_decl (t := named (str "Type")) rfl rfl rfl ⟨.kind, .kind, .type⟩
    | 1 => exact Gen.introduces_decl (t := named (str "a")) rfl rfl rfl ⟨.type, .type, .const (hT 0 (by decide))⟩
    | 2 => exact Gen.introduces_decl (t := arrowOf (named (str "a")) (named (str "Type"))) rfl rfl rfl ⟨.kind, .kind, .pi (.const (hT 0 (by decide))) .type .kind⟩
    | 3 => exact Gen.introduces_decl (t := prodChainTy 2) rfl rfl (prodChain_den btreeGen.f rfl 2 [] (by simp)).1 ⟨.type, .type, chainTy_strict (hT 0 (by decide)) 2 []⟩
    | k + 4 =>
      have h1 := hT 1 (Nat.lt_add_left k (by decide : 1 < 4))
      have h2 := hT 2 (Nat.lt_add_left k (by decide : 2 < 4))
      have h3 := hT 3 (Nat.lt_add_left k (by decide : 3 < 4))
      refine Gen.introduces_decl (t := applied (str "p") [btreeTm (k + 1)]) rfl rfl ?_ ⟨.type, .type, ?_⟩
      · show Tm.app (.const 2) (((btreeTm (k + 1)).scope []).den btreeGen.f) = _
        rw [(btree_den btreeGen.f rfl rfl (k + 1)).1]
        rfl
      · exact Strict.app (A := .const 0) (B := .type) (.const h2) (btreeDen_strict h1 h3 (k + 1))
  known := by
    intro k
    match k with
    | 0 => exact ⟨by rintro a ⟨⟩, by rintro ty ⟨⟩; exact named_known _ _, by rintro tm ⟨⟩⟩
    | 1 => exact ⟨by rintro a ⟨⟩, by rintro ty ⟨⟩; exact named_known _ _, by rintro tm ⟨⟩⟩
    | 2 => exact ⟨by rintro a ⟨⟩, by rintro ty ⟨⟩; exact ⟨⟨named_known _ _, named_known _ _⟩, trivial⟩, by rintro tm ⟨⟩⟩
    | 3 => exact ⟨by rintro a ⟨⟩, by rintro ty ⟨⟩; exact prodChain_known 2, by rintro tm ⟨⟩⟩
    | k + 4 => exact ⟨by rintro a ⟨⟩, by rintro ty ⟨⟩; exact ⟨trivial, btree_known _ _, trivial⟩, by rintro tm ⟨⟩⟩

/-! ## Projections -/

/-- the tree of projections, with the number of the first one -/
def fsDen (f : Nat) : Nat → Tm
  | 0 => .app (.app (.const f) (.var 1)) (.var 0)
  | n + 1 => .app (.app (.const f) (fsDen 1 n)) (fsDen 2 n)

/-- the variables of the projections -/
def xyEnv : List (Option Str) := [some (str "y"), some (str "x")]

theorem fs_den (f : PSymb → Sym) (h1 : f ⟨[], str "fst"⟩ = 1) (h2 : f ⟨[], str "snd"⟩ = 2) (n : Nat) : ∀ g, g = str "fst" ∨ g = str "snd" →
    ((fsTm g n).scope xyEnv).den f = fsDen (f ⟨[], g⟩) n ∧ ∀ c ∈ ((fsTm g n).scope xyEnv).consts, c = ⟨[], str "fst"⟩ ∨ c = ⟨[], str "snd"⟩ := by
  have rg : ∀ g, g = str "fst" ∨ g = str "snd" → resolve xyEnv ⟨[], g⟩ = .const ⟨[], g⟩ := by
    rintro g (rfl | rfl) <;> rfl
  have rx : resolve xyEnv ⟨[], str "x"⟩ = .var 1 := rfl
  have ry : resolve xyEnv ⟨[], str "y"⟩ = .var 0 := rfl
  induction n with
  | zero =>
    intro g hg
    simp only [fsTm, applied, named, symbTerm, PTerm.scope, PHead.scope, scopeArgs, rg g hg, rx, ry]
    refine ⟨rfl, fun c hc => ?_⟩
    simp only [PTerm.consts, PHead.consts, PTerm.constsList, List.append_nil, List.mem_singleton] at hc
    subst hc
    rcases hg with rfl | rfl <;> simp
  | succ n ih =>
    intro g hg
    obtain ⟨k1, k2⟩ := ih (str "fst") (.inl rfl)
    obtain ⟨k3, k4⟩ := ih (str "snd") (.inr rfl)
    simp only [fsTm, applied, PTerm.scope, PHead.scope, scopeArgs, rg g hg]
    constructor
    · simp only [PTerm.den, PHead.den, PTerm.denList, Tm.apps, k1, k3, h1, h2, fsDen]
    · intro c hc
      simp only [PTerm.consts, PHead.consts, PTerm.constsList, List.append_nil, List.mem_append, List.mem_singleton] at hc
      rcases hc with hc | hc | hc
      · subst hc
        rcases hg with rfl | rfl <;> simp
      · exact k2 c hc
      · exact k4 c hc

theorem fsDen_strict {T : Theory} (h1 : T.ty 1 = some (chainTy 2)) (h2 : T.ty 2 = some (chainTy 2)) (n : Nat) : ∀ g, g = 1 ∨ g = 2 →
    Strict T [.const 0, .const 0] (fsDen g n) (.const 0) := by
  have key : ∀ g a b, g = 1 ∨ g = 2 → Strict T [.const 0, .const 0] a (.const 0) → Strict T [.const 0, .const 0] b (.const 0) →
      Strict T [.const 0, .const 0] (.app (.app (.const g) a) b) (.const 0) := by
    intro g a b hg ha hb
    have hc : Strict T [.const 0, .const 0] (.const g) (chainTy 2) := by
      rcases hg with rfl | rfl
      · exact .const h1
      · exact .const h2
    have k1 : Strict T [.const 0, .const 0] (.app (.const g) a) (.pi (.const 0) (.const 0)) := Strict.app (A := .const 0) (B := chainTy 1) hc ha
    exact Strict.app (A := .const 0) (B := .const 0) k1 hb
  induction n with
  | zero => exact fun g hg => key g _ _ hg (Strict.var (n := 1) (A := .const 0) rfl) (Strict.var (n := 0) (A := .const 0) rfl)
  | succ n ih => exact fun g hg => key g _ _ hg (ih 1 (.inl rfl)) (ih 2 (.inr rfl))

theorem fs_known (b : Bool) (n : Nat) : ∀ g, (fsTm g n).Known b := by
  induction n generalizing b with
  | zero => exact fun g => ⟨trivial, named_known _ _, named_known _ _, trivial⟩
  | succ n ih => exact fun g => ⟨trivial, ih true _, ih true _, trivial⟩

/-- `(x : A) (y : A)` -/
def xyArgs : List (Str × PTerm PSymb) := [(str "x", named (str "A")), (str "y", named (str "A"))]

def fsGen : Gen where
  name := fun
    | 0 => str "A"
    | 1 => str "fst"
    | 2 => str "snd"
    | n + 3 => str "fs" ++ decimal (n + 1)
  args := fun
    | 0 => []
    | _ + 1 => xyArgs
  it := fun
    | 0 => .declaration false (named (str "Type"))
    | 1 => .definition none (some (named (str "x")))
    | 2 => .definition none (some (named (str "y")))
    | n + 3 => .definition none (some (fsTm (str "fst") (n + 1)))
  f := numberIn [str "A", str "fst", str "snd"]
  ty := fun
    | 0 => .type
    | _ + 1 => chainTy 2

theorem fsGen_cmd (n : Nat) : fsGen.cmd n = fstSndCmds n := by
  match n with
  | 0 => rfl
  | 1 => rfl
  | 2 => rfl
  | n + 3 => rfl

theorem fsGen_good : fsGen.Good where
  inj := names_inj (hs := [str "A", str "fst", str "snd"]) (pre := str "fs") (off := 1) rfl (fun k => rfl) (by decide) (by decide)
  consts := by
    intro k c hc
    have hargs : ∀ c, c ∈ argConsts (scopeTele PTerm.scope [] xyArgs) → c = ⟨[], str "A"⟩ := by
      rw [show argConsts (scopeTele PTerm.scope [] xyArgs) = [⟨[], str "A"⟩, ⟨[], str "A"⟩] from rfl]
      simp
    match k with
    | 0 =>
      rcases hc with hc | hc
      · exact absurd hc (by simp [show ((fsGen.it 0).scope (teleEnv ((fsGen.args 0).map Prod.fst))).consts = [] from rfl])
      · exact absurd hc (by simp [fsGen, argConsts, scopeTele])
    | k + 1 =>
      rcases hc with hc | hc
      · match k with
        | 0 => exact absurd hc (by simp [show ((fsGen.it 1).scope (teleEnv ((fsGen.args 1).map Prod.fst))).consts = [] from rfl])
        | 1 => exact absurd hc (by simp [show ((fsGen.it 2).scope (teleEnv ((fsGen.args 2).map Prod.fst))).consts = [] from rfl])
        | k + 2 =>
          have hc : c ∈ ((fsTm (str "fst") (k + 1)).scope xyEnv).consts := hc
          rcases (fs_den fsGen.f rfl rfl (k + 1) _ (.inl rfl)).2 c hc with rfl | rfl
          · exact ⟨rfl, Nat.lt_add_left k (by decide : fsGen.f ⟨[], str "fst"⟩ < 3), rfl⟩
          · exact ⟨rfl, Nat.lt_add_left k (by decide : fsGen.f ⟨[], str "snd"⟩ < 3), rfl⟩
      · have := hargs c hc
        subst this
        exact ⟨rfl, Nat.succ_pos k, rfl⟩
  intro := by
    intro k T hT
    match k with
    | 0 => exact Gen.introduces_decl (t := named (str "Type")) rfl rfl rfl ⟨.kind, .kind, .type⟩
    | k + 1 =>
      have h0 := hT 0 (Nat.succ_pos k)
      have hA : ∀ Γ, Strict T Γ (.const 0) .type := fun Γ => .const h0
      have hlam : ∀ t, Strict T [.const 0, .const 0] t (.const 0) → Strict T [] (.lam (.const 0) (.lam (.const 0) t)) (chainTy 2) := fun t ht =>
        .lam (hA _) (.lam (hA _) ht (hA _) .type) (chainTy_strict h0 1 _) .type
      match k with
      | 0 =>
        refine Gen.introduces_def (t := named (str "x")) rfl ?_ ⟨.type, .type, chainTy_strict h0 2 []⟩
        exact hlam (.var 1) (Strict.var (n := 1) (A := .const 0) rfl)
      | 1 =>
        refine Gen.introduces_def (t := named (str "y")) rfl ?_ ⟨.type, .type, chainTy_strict h0 2 []⟩
        exact hlam (.var 0) (Strict.var (n := 0) (A := .const 0) rfl)
      | k + 2 =>
        have h1 := hT 1 (Nat.lt_add_left k (by decide : 1 < 3))
        have h2 := hT 2 (Nat.lt_add_left k (by decide : 2 < 3))
        refine Gen.introduces_def (t := fsTm (str "fst") (k + 1)) rfl ?_ ⟨.type, .type, chainTy_strict h0 2 []⟩
        have e := (fs_den fsGen.f rfl rfl (k + 1) _ (.inl rfl)).1
        have := hlam _ (fsDen_strict h1 h2 (k + 1) 1 (.inl rfl))
        rw [show fsDen 1 (k + 1) = _ from e.symm] at this
        exact this
  known := by
    intro k
    have ha : ∀ a ∈ xyArgs, a.2.Known false := by
      intro a ha
      simp only [xyArgs, List.mem_cons, List.not_mem_nil, or_false] at ha
      rcases ha with rfl | rfl <;> exact named_known _ _
    match k with
    | 0 => exact ⟨by rintro a ⟨⟩, by rintro ty ⟨⟩; exact named_known _ _, by rintro tm ⟨⟩⟩
    | 1 => exact ⟨ha, by rintro ty ⟨⟩, by rintro tm ⟨⟩; exact named_known _ _⟩
    | 2 => exact ⟨ha, by rintro ty ⟨⟩, by rintro tm ⟨⟩; exact named_known _ _⟩
    | k + 3 => exact ⟨ha, by rintro ty ⟨⟩, by rintro tm ⟨⟩; exact fs_known _ _ _⟩

/-! ## The identity -/

def idDen : Nat → Tm
  | 0 => .var 0
  | n + 1 => .app (.const 1) (idDen n)

theorem id_den (f : PSymb → Sym) (h1 : f ⟨[], str "id"⟩ = 1) (n : Nat) :
    ((idTm n).scope [some (str "x")]).den f = idDen n ∧ ∀ c ∈ ((idTm n).scope [some (str "x")]).consts, c = ⟨[], str "id"⟩ := by
  have ri : resolve [some (str "x")] ⟨[], str "id"⟩ = .const ⟨[], str "id"⟩ := rfl
  have rx : resolve [some (str "x")] ⟨[], str "x"⟩ = .var 0 := rfl
  induction n with
  | zero =>
    simp only [idTm, named, symbTerm, PTerm.scope, PHead.scope, scopeArgs, rx]
    exact ⟨rfl, by simp [PTerm.consts, PHead.consts, PTerm.constsList]⟩
  | succ n ih =>
    obtain ⟨k1, k2⟩ := ih
    simp only [idTm, applied, PTerm.scope, PHead.scope, scopeArgs, ri]
    constructor
    · simp only [PTerm.den, PHead.den, PTerm.denList, Tm.apps, k1, h1, idDen]
    · intro c hc
      simp only [PTerm.consts, PHead.consts, PTerm.constsList, List.append_nil, List.mem_append, List.mem_singleton] at hc
      rcases hc with hc | hc
      · exact hc
      · exact k2 c hc

theorem idDen_strict {T : Theory} (h1 : T.ty 1 = some (chainTy 1)) (n : Nat) : Strict T [.const 0] (idDen n) (.const 0) := by
  induction n with
  | zero => exact Strict.var (n := 0) (A := .const 0) rfl
  | succ n ih => exact Strict.app (A := .const 0) (B := .const 0) (.const h1) ih

theorem id_known (b : Bool) (n : Nat) : (idTm n).Known b := by
  induction n generalizing b with
  | zero => exact named_known _ _
  | succ n ih => exact ⟨trivial, ih true, trivial⟩

def idGen : Gen where
  name := fun
    | 0 => str "A"
    | 1 => str "id"
    | n + 2 => str "id" ++ decimal (n + 1)
  args := fun
    | 0 => []
    | _ + 1 => [(str "x", named (str "A"))]
  it := fun
    | 0 => .declaration false (named (str "Type"))
    | 1 => .definition none (some (named (str "x")))
    | n + 2 => .definition none (some (idTm (n + 1)))
  f := numberIn [str "A", str "id"]
  ty := fun
    | 0 => .type
    | _ + 1 => chainTy 1

theorem idGen_cmd (n : Nat) : idGen.cmd n = idCmds n := by
  match n with
  | 0 => rfl
  | 1 => rfl
  | n + 2 => rfl

theorem idGen_good : idGen.Good where
  inj := names_inj (hs := [str "A", str "id"]) (pre := str "id") (off := 1) rfl (fun k => rfl) (by decide) (by decide)
  consts := by
    intro k c hc
    have hargs : ∀ c, c ∈ argConsts (scopeTele PTerm.scope [] [(str "x", named (str "A"))]) → c = ⟨[], str "A"⟩ := by
      rw [show argConsts (scopeTele PTerm.scope [] [(str "x", named (str "A"))]) = [⟨[], str "A"⟩] from rfl]
      simp
    match k with
    | 0 =>
      rcases hc with hc | hc
      · exact absurd hc (by simp [show ((idGen.it 0).scope (teleEnv ((idGen.args 0).map Prod.fst))).consts = [] from rfl])
      · exact absurd hc (by simp [idGen, argConsts, scopeTele])
    | k + 1 =>
      rcases hc with hc | hc
      · match k with
        | 0 => exact absurd hc (by simp [show ((idGen.it 1).scope (teleEnv ((idGen.args 1).map Prod.fst))).consts = [] from rfl])
        | k + 1 =>
          have hc : c ∈ ((idTm (k + 1)).scope [some (str "x")]).consts := hc
          have := (id_den idGen.f rfl (k + 1)).2 c hc
          subst this
          exact ⟨rfl, Nat.lt_add_left k (by decide : idGen.f ⟨[], str "id"⟩ < 2), rfl⟩
      · have := hargs c hc
        subst this
        exact ⟨rfl, Nat.succ_pos k, rfl⟩
  intro := by
    intro k T hT
    match k with
    | 0 => exact Gen.introduces_decl (t := named (str "Type")) rfl rfl rfl ⟨.kind, .kind, .type⟩
    | k + 1 =>
      have h0 := hT 0 (Nat.succ_pos k)
      have hA : ∀ Γ, Strict T Γ (.const 0) .type := fun Γ => .const h0
      have hlam : ∀ t, Strict T [.const 0] t (.const 0) → Strict T [] (.lam (.const 0) t) (chainTy 1) := fun t ht => .lam (hA _) ht (hA _) .type
      match k with
      | 0 =>
        refine Gen.introduces_def (t := named (str "x")) rfl ?_ ⟨.type, .type, chainTy_strict h0 1 []⟩
        exact hlam (.var 0) (Strict.var (n := 0) (A := .const 0) rfl)
      | k + 1 =>
        have h1 := hT 1 (Nat.lt_add_left k (by decide : 1 < 2))
        refine Gen.introduces_def (t := idTm (k + 1)) rfl ?_ ⟨.type, .type, chainTy_strict h0 1 []⟩
        have e := (id_den idGen.f rfl (k + 1)).1
        have := hlam _ (idDen_strict h1 (k + 1))
        rw [← e] at this
        exact this
  known := by
    intro k
    have ha : ∀ a ∈ [(str "x", named (str "A"))], a.2.Known false := by
      intro a ha
      rw [List.mem_singleton] at ha
      subst ha
      exact named_known _ _
    match k with
    | 0 => exact ⟨by rintro a ⟨⟩, by rintro ty ⟨⟩; exact named_known _ _, by rintro tm ⟨⟩⟩
    | 1 => exact ⟨ha, by rintro ty ⟨⟩, by rintro tm ⟨⟩; exact named_known _ _⟩
    | k + 2 => exact ⟨ha, by rintro ty ⟨⟩, by rintro tm ⟨⟩; exact id_known _ _⟩

end Kontroli
