import Verif.Model.Inline
import Verif.Spec.Inline
import Verif.Proofs.Parsed

/-! # Lemmas on inlining -/

namespace Kontroli

/-! ## Expansion -/

/-- The bodies that are still there are as they should be, for all names that remain to be read. -/
def InStore (m σ : Bodies) (l : List PSymb) : Prop := ∀ c, (m c = σ c ∧ (m c ≠ none → l.count c ≤ 1)) ∨ l.count c = 0

theorem InStore.count {m σ : Bodies} {l l' : List PSymb} (h : InStore m σ l) (hl : ∀ c, l'.count c = l.count c) : InStore m σ l' := by
  intro c
  rw [hl c]
  exact h c

theorem InStore.right {m σ : Bodies} {l l' : List PSymb} (h : InStore m σ (l ++ l')) : InStore m σ l' := by
  intro c
  rcases h c with ⟨h1, h2⟩ | h
  · exact .inl ⟨h1, fun hm => by have := h2 hm; rw [List.count_append] at this; omega⟩
  · rw [List.count_append] at h
    exact .inr (by omega)

mutual
  theorem PTerm.inl_expand (σ : Bodies) : ∀ (t : PTerm PSymb) (m : Bodies) (l : List PSymb), InStore m σ (t.symbs ++ l) →
      (t.inl m).1 = t.expand σ ∧ InStore (t.inl m).2 σ l
    | .app h args, m, l, hr => by
      have h1 := inlArgs_expand σ args m (h.symbs ++ l) (hr.count fun c => by
        rw [PTerm.symbs]; simp only [List.count_append]; omega)
      have h2 := PHead.inl_expand σ h (inlArgs m args).2 l h1.2
      rw [PTerm.inl, PTerm.expand, ← h1.1, ← h2.1]
      generalize hb : PHead.inl (inlArgs m args).2 h = b at h2
      obtain ⟨⟨hd, as⟩, m'⟩ := b
      simp only [hb]
      exact ⟨rfl, h2.2⟩
  theorem PHead.inl_expand (σ : Bodies) : ∀ (t : PHead PSymb) (m : Bodies) (l : List PSymb), InStore m σ (t.symbs ++ l) →
      (t.inl m).1 = t.expand σ ∧ InStore (t.inl m).2 σ l
    | .atom a, m, l, hr => by
      have h1 := hr a
      rw [PHead.symbs, List.count_append, List.count_singleton_self] at h1
      rcases h1 with ⟨h1, h2⟩ | h1
      · rw [PHead.inl, PHead.expand, ← h1]
        cases hm : m a with
        | none => exact ⟨rfl, hr.right⟩
        | some t =>
          refine ⟨rfl, fun c => ?_⟩
          by_cases hc : c = a
          · subst hc
            have := h2 (by simp [hm])
            exact .inr (by omega)
          · have := hr.right c
            simpa [Bodies.remove, hc] using this
      · omega
    | .abst x ty tm, m, l, hr => by
      have h1 := inlOpt_expand σ ty m (tm.symbs ++ l) (hr.count fun c => by
        rw [PHead.symbs]; simp only [List.count_append]; omega)
      have h2 := PTerm.inl_expand σ tm (inlOpt m ty).2 l h1.2
      rw [PHead.inl, PHead.expand, ← h1.1, ← h2.1]
      exact ⟨rfl, h2.2⟩
    | .prod x ty tm, m, l, hr => by
      have h1 := PTerm.inl_expand σ ty m (tm.symbs ++ l) (hr.count fun c => by
        rw [PHead.symbs]; simp only [List.count_append]; omega)
      have h2 := PTerm.inl_expand σ tm (ty.inl m).2 l h1.2
      rw [PHead.inl, PHead.expand, ← h1.1, ← h2.1]
      exact ⟨rfl, h2.2⟩
  theorem inlArgs_expand (σ : Bodies) : ∀ (ts : List (PTerm PSymb)) (m : Bodies) (l : List PSymb), InStore m σ (symbsArgs ts ++ l) →
      (inlArgs m ts).1 = expandArgs σ ts ∧ InStore (inlArgs m ts).2 σ l
    | [], m, l, hr => ⟨rfl, hr⟩
    | t :: ts, m, l, hr => by
      have h1 := PTerm.inl_expand σ t m (symbsArgs ts ++ l) (hr.count fun c => by
        rw [symbsArgs]; simp only [List.count_append]; omega)
      have h2 := inlArgs_expand σ ts (t.inl m).2 l h1.2
      rw [inlArgs, expandArgs, ← h1.1, ← h2.1]
      exact ⟨rfl, h2.2⟩
  theorem inlOpt_expand (σ : Bodies) : ∀ (t : Option (PTerm PSymb)) (m : Bodies) (l : List PSymb), InStore m σ (symbsOpt t ++ l) →
      (inlOpt m t).1 = expandOpt σ t ∧ InStore (inlOpt m t).2 σ l
    | none, m, l, hr => ⟨rfl, hr⟩
    | some t, m, l, hr => by
      have h1 := PTerm.inl_expand σ t m l hr
      rw [inlOpt, expandOpt, ← h1.1]
      exact ⟨rfl, h1.2⟩
end

theorem inlParams_expand (σ : Bodies) : ∀ (as : List (Str × PTerm PSymb)) (m : Bodies) (l : List PSymb),
    InStore m σ (as.flatMap (fun a => a.2.symbs) ++ l) →
    (inlParams m as).1 = as.map (fun a => (a.1, a.2.expand σ)) ∧ InStore (inlParams m as).2 σ l
  | [], m, l, hr => ⟨rfl, hr⟩
  | (x, t) :: as, m, l, hr => by
    have h1 := PTerm.inl_expand σ t m (as.flatMap (fun a => a.2.symbs) ++ l) (hr.count fun c => by
      rw [List.flatMap_cons]; simp only [List.count_append]; omega)
    have h2 := inlParams_expand σ as (t.inl m).2 l h1.2
    rw [inlParams, List.map_cons, ← h1.1, ← h2.1]
    exact ⟨rfl, h2.2⟩

theorem expandOpt_map (σ : Bodies) (t : Option (PTerm PSymb)) : expandOpt σ t = t.map (PTerm.expand σ) := by cases t <;> rfl

theorem inlIntro_expand (σ : Bodies) (it : Intro (PTerm PSymb)) (m : Bodies) (l : List PSymb)
    (hr : InStore m σ (symbsOpt it.given ++ (symbsOpt it.body ++ l))) :
    (inlTerm (inlType m it).2 (inlType m it).1).1 = it.map (PTerm.expand σ) ∧ InStore (inlTerm (inlType m it).2 (inlType m it).1).2 σ l := by
  cases it with
  | definition ty tm =>
    have h1 := inlOpt_expand σ ty m _ hr
    have h2 := inlOpt_expand σ tm _ _ h1.2
    refine ⟨?_, h2.2⟩
    show Intro.definition (inlOpt m ty).1 (inlOpt (inlOpt m ty).2 tm).1 = .definition (ty.map _) (tm.map _)
    rw [h1.1, h2.1, expandOpt_map, expandOpt_map]
  | theorem_ ty tm =>
    have h1 := PTerm.inl_expand σ ty m _ hr
    have h2 := PTerm.inl_expand σ tm _ _ h1.2
    refine ⟨?_, h2.2⟩
    show Intro.theorem_ (ty.inl m).1 (tm.inl (ty.inl m).2).1 = .theorem_ (ty.expand σ) (tm.expand σ)
    rw [h1.1, h2.1]
  | declaration inj ty =>
    have h1 := PTerm.inl_expand σ ty m _ hr
    refine ⟨?_, h1.2⟩
    show Intro.declaration inj (ty.inl m).1 = .declaration inj (ty.expand σ)
    rw [h1.1]

theorem inlines_iff (names : List Str) (x : Str) (args : List (Str × PTerm PSymb)) (it : Intro (PTerm PSymb)) (tm : PTerm PSymb) :
    inlines names x args it = some tm ↔ Expands names (.intro x args it) x tm := by
  have h0 : (names.contains x && args.isEmpty) = true ↔ x ∈ names ∧ args = [] := by simp
  constructor
  · intro h
    unfold inlines at h
    split at h
    · split at h
      next hc =>
        obtain ⟨h1, rfl⟩ := h0.1 hc
        exact ⟨h1, _, rfl, h⟩
      next => cases h
    · split at h
      next hc =>
        obtain ⟨h1, rfl⟩ := h0.1 hc
        exact ⟨h1, _, rfl, h⟩
      next => cases h
    · cases h
  · rintro ⟨h1, it', he, hb⟩
    obtain ⟨rfl, rfl⟩ : args = [] ∧ it = it' := by cases he; exact ⟨rfl, rfl⟩
    cases it with
    | definition ty tm' =>
      obtain rfl : tm' = some tm := hb
      simp [inlines, h1]
    | theorem_ ty tm' =>
      obtain rfl : tm' = tm := Option.some.inj hb
      simp [inlines, h1]
    | declaration inj ty => cases hb

theorem expands_name {names : List Str} {x y : Str} {args : List (Str × PTerm PSymb)} {it : Intro (PTerm PSymb)} {tm : PTerm PSymb}
    (h : Expands names (.intro x args it) y tm) : y = x := by
  obtain ⟨-, _, h, -⟩ := h
  cases h
  rfl

/-- what is left to be read -/
def laterSymbs (cs : List (PCmd (PTerm PSymb))) : List PSymb := cs.flatMap PCmd.symbs

theorem inlineLoop_expansion (names : List Str) : ∀ (cs : List (PCmd (PTerm PSymb))) (m σ : Bodies), InStore m σ (laterSymbs cs) →
    UsedOnce names cs → ∃ ds, inlineLoop names m (cs.map .ok) = (ds, true) ∧ Expansion names σ cs ds
  | [], m, σ, _, _ => ⟨[], rfl, .nil⟩
  | .rules rs :: cs, m, σ, hr, hu => by
    obtain ⟨ds, h1, h2⟩ := inlineLoop_expansion names cs m σ hr fun pre c post x tm he hx => hu (_ :: pre) c post x tm (by rw [he]; rfl) hx
    refine ⟨.rules rs :: ds, ?_, .keep ?_ h2⟩
    · rw [List.map_cons, inlineLoop, inlineCmd]
      simp only [h1]
      rfl
    · rintro x tm ⟨-, it, h, -⟩
      cases h
  | .intro x args it :: cs, m, σ, hr, hu => by
    have hu' : UsedOnce names cs := fun pre c post y tm he hx => hu (_ :: pre) c post y tm (by rw [he]; rfl) hx
    cases hi : inlines names x args it with
    | some tm =>
      have hx := (inlines_iff ..).1 hi
      have hb : it.body = some tm := by
        obtain ⟨-, _, h, hb⟩ := hx
        cases h
        exact hb
      have hr' : InStore m σ (tm.symbs ++ laterSymbs cs) := by
        refine InStore.right (l := args.flatMap (fun a => a.2.symbs) ++ symbsOpt it.given) (hr.count fun c => ?_)
        rw [laterSymbs, laterSymbs, List.flatMap_cons, PCmd.symbs, hb, symbsOpt]
        simp only [List.count_append]
        omega
      have h1 := PTerm.inl_expand σ tm m _ hr'
      have hc := hu [] _ cs x tm rfl hx
      have hr2 : InStore ((tm.inl m).2.insert (.new x) (tm.inl m).1) (Bodies.insert σ (.new x) (tm.expand σ)) (laterSymbs cs) := by
        intro c
        by_cases hcx : c = .new x
        · subst hcx
          refine .inl ⟨?_, fun _ => hc⟩
          simp [Bodies.insert, h1.1]
        · simpa [Bodies.insert, hcx] using h1.2 c
      obtain ⟨ds, h2, h3⟩ := inlineLoop_expansion names cs _ _ hr2 hu'
      refine ⟨ds, ?_, .drop hx (by simp [Bodies.insert]) (fun y hy => by simp [Bodies.insert, hy]) h3⟩
      rw [List.map_cons, inlineLoop, inlineCmd, hi]
      simp only [h2]
      rfl
    | none =>
      have h1 := inlParams_expand σ args m (symbsOpt it.given ++ (symbsOpt it.body ++ laterSymbs cs)) (hr.count fun c => by
        rw [laterSymbs, laterSymbs, List.flatMap_cons, PCmd.symbs]
        simp only [List.count_append]
        omega)
      have h2 := inlIntro_expand σ it _ _ h1.2
      obtain ⟨ds, h3, h4⟩ := inlineLoop_expansion names cs _ _ h2.2 hu'
      refine ⟨_ :: ds, ?_, .keep (fun y tm hy => ?_) h4⟩
      · rw [List.map_cons, inlineLoop, inlineCmd, hi]
        simp only [h3, h1.1, h2.1]
        rfl
      · obtain rfl := expands_name hy
        rw [(inlines_iff ..).2 hy] at hi
        cases hi

/-! ## Names in the output -/

section
variable {Q : PSymb → Prop}

theorem allArgs_append : ∀ {as bs : List (PTerm PSymb)}, AllArgs Q as → AllArgs Q bs → AllArgs Q (as ++ bs)
  | [], _, _, h => h
  | _ :: _, _, h, h' => ⟨h.1, allArgs_append h.2 h'⟩

/-- the names in all bodies satisfy `Q` -/
def Bodies.All (Q : PSymb → Prop) (m : Bodies) : Prop := ∀ c t, m c = some t → t.All Q

theorem Bodies.All.remove {m : Bodies} (h : m.All Q) (a : PSymb) : (m.remove a).All Q := by
  intro c t ht
  unfold Bodies.remove at ht
  split at ht
  · cases ht
  · exact h c t ht

theorem Bodies.All.insert {m : Bodies} (h : m.All Q) (a : PSymb) {u : PTerm PSymb} (hu : u.All Q) : (m.insert a u).All Q := by
  intro c t ht
  unfold Bodies.insert at ht
  split at ht
  · cases ht; exact hu
  · exact h c t ht

mutual
  theorem PTerm.inl_all : ∀ (t : PTerm PSymb) (m : Bodies), t.All Q → m.All Q → (t.inl m).1.All Q ∧ (t.inl m).2.All Q
    | .app h args, m, ht, hm => by
      have h1 := inlArgs_all args m ht.2 hm
      have h2 := PHead.inl_all h _ ht.1 h1.2
      rw [PTerm.inl]
      generalize hb : PHead.inl (inlArgs m args).2 h = b at h2
      obtain ⟨⟨hd, as⟩, m'⟩ := b
      simp only [hb]
      exact ⟨⟨h2.1.1, allArgs_append h2.1.2 h1.1⟩, h2.2⟩
  theorem PHead.inl_all : ∀ (t : PHead PSymb) (m : Bodies), t.All Q → m.All Q → (t.inl m).1.All Q ∧ (t.inl m).2.All Q
    | .atom a, m, ht, hm => by
      rw [PHead.inl]
      cases ha : m a with
      | none => exact ⟨⟨ht, trivial⟩, hm⟩
      | some t => exact ⟨hm a t ha, hm.remove a⟩
    | .abst x ty tm, m, ht, hm => by
      have h1 := inlOpt_all ty m ht.2.1 hm
      have h2 := PTerm.inl_all tm _ ht.2.2 h1.2
      rw [PHead.inl]
      exact ⟨⟨⟨ht.1, h1.1, h2.1⟩, trivial⟩, h2.2⟩
    | .prod x ty tm, m, ht, hm => by
      have h1 := PTerm.inl_all ty m ht.2.1 hm
      have h2 := PTerm.inl_all tm _ ht.2.2 h1.2
      rw [PHead.inl]
      exact ⟨⟨⟨ht.1, h1.1, h2.1⟩, trivial⟩, h2.2⟩
  theorem inlArgs_all : ∀ (ts : List (PTerm PSymb)) (m : Bodies), AllArgs Q ts → m.All Q → AllArgs Q (inlArgs m ts).1 ∧ (inlArgs m ts).2.All Q
    | [], _, ht, hm => ⟨ht, hm⟩
    | t :: ts, m, ht, hm => by
      have h1 := PTerm.inl_all t m ht.1 hm
      have h2 := inlArgs_all ts _ ht.2 h1.2
      rw [inlArgs]
      exact ⟨⟨h1.1, h2.1⟩, h2.2⟩
  theorem inlOpt_all : ∀ (t : Option (PTerm PSymb)) (m : Bodies), AllOpt Q t → m.All Q → AllOpt Q (inlOpt m t).1 ∧ (inlOpt m t).2.All Q
    | none, _, ht, hm => ⟨ht, hm⟩
    | some t, m, ht, hm => PTerm.inl_all t m ht hm
end

theorem inlParams_all : ∀ (as : List (Str × PTerm PSymb)) (m : Bodies), (∀ a ∈ as, Q (.new a.1) ∧ a.2.All Q) → m.All Q →
    (∀ a ∈ (inlParams m as).1, Q (.new a.1) ∧ a.2.All Q) ∧ (inlParams m as).2.All Q
  | [], _, ha, hm => ⟨ha, hm⟩
  | (x, t) :: as, m, ha, hm => by
    have h0 := ha _ (.head _)
    have h1 := PTerm.inl_all t m h0.2 hm
    have h2 := inlParams_all as _ (fun a h => ha a (.tail _ h)) h1.2
    rw [inlParams]
    refine ⟨fun a h => ?_, h2.2⟩
    rcases List.mem_cons.1 h with rfl | h
    · exact ⟨h0.1, h1.1⟩
    · exact h2.1 a h

theorem allOpt_iff {t : Option (PTerm PSymb)} : AllOpt Q t ↔ ∀ u, t = some u → u.All Q := by
  cases t with
  | none => simp [AllOpt]
  | some t => simp [AllOpt]

/-- all names in an introduction satisfy `Q` -/
def Intro.All (Q : PSymb → Prop) (it : Intro (PTerm PSymb)) : Prop := AllOpt Q it.given ∧ AllOpt Q it.body ∧ it.Full

theorem inlType_all (it : Intro (PTerm PSymb)) (m : Bodies) (h : it.All Q) (hm : m.All Q) : (inlType m it).1.All Q ∧ (inlType m it).2.All Q := by
  cases it with
  | definition ty tm =>
    have h1 := inlOpt_all ty m h.1 hm
    refine ⟨⟨h1.1, h.2.1, ?_⟩, h1.2⟩
    have := h.2.2
    cases ty <;> cases tm <;> first | exact this | trivial
  | theorem_ ty tm =>
    have h1 := PTerm.inl_all ty m h.1 hm
    exact ⟨⟨h1.1, h.2.1, trivial⟩, h1.2⟩
  | declaration inj ty =>
    have h1 := PTerm.inl_all ty m h.1 hm
    exact ⟨⟨h1.1, h.2.1, trivial⟩, h1.2⟩

theorem inlTerm_all (it : Intro (PTerm PSymb)) (m : Bodies) (h : it.All Q) (hm : m.All Q) : (inlTerm m it).1.All Q ∧ (inlTerm m it).2.All Q := by
  cases it with
  | definition ty tm =>
    have h1 := inlOpt_all tm m h.2.1 hm
    refine ⟨⟨h.1, h1.1, ?_⟩, h1.2⟩
    have := h.2.2
    cases ty <;> cases tm <;> first | exact this | trivial
  | theorem_ ty tm =>
    have h1 := PTerm.inl_all tm m h.2.1 hm
    exact ⟨⟨h.1, h1.1, trivial⟩, h1.2⟩
  | declaration inj ty => exact ⟨h, hm⟩

theorem inlineCmd_all (names : List Str) (m : Bodies) (c : PCmd (PTerm PSymb)) (h : c.All Q) (hm : m.All Q) :
    (∀ d, (inlineCmd names m c).1 = some d → d.All Q) ∧ (inlineCmd names m c).2.All Q := by
  cases c with
  | rules rs => exact ⟨by rintro d ⟨⟩; exact h, hm⟩
  | intro x args it =>
    rw [inlineCmd]
    cases hi : inlines names x args it with
    | some tm =>
      obtain ⟨-, _, he, hb⟩ := (inlines_iff ..).1 hi
      cases he
      have h1 := PTerm.inl_all tm m (h.2.2.2.1 tm hb) hm
      exact ⟨by rintro d ⟨⟩, h1.2.insert _ h1.1⟩
    | none =>
      have h1 := inlParams_all args m h.2.1 hm
      have h2 := inlType_all it _ ⟨allOpt_iff.2 h.2.2.1, allOpt_iff.2 h.2.2.2.1, h.2.2.2.2⟩ h1.2
      have h3 := inlTerm_all _ _ h2.1 h2.2
      refine ⟨?_, h3.2⟩
      rintro d ⟨⟩
      exact ⟨h.1, h1.1, allOpt_iff.1 h3.1.1, allOpt_iff.1 h3.1.2.1, h3.1.2.2⟩

theorem inlineLoop_all (names : List Str) : ∀ (cs : List (PCmd (PTerm PSymb))) (m : Bodies), (∀ c ∈ cs, c.All Q) → m.All Q →
    ∃ ds, inlineLoop names m (cs.map .ok) = (ds, true) ∧ ∀ d ∈ ds, d.All Q
  | [], _, _, _ => ⟨[], rfl, by simp⟩
  | c :: cs, m, h, hm => by
    have h1 := inlineCmd_all names m c (h c (.head _)) hm
    obtain ⟨ds, h2, h3⟩ := inlineLoop_all names cs (inlineCmd names m c).2 (fun c hc => h c (.tail _ hc)) h1.2
    refine ⟨(inlineCmd names m c).1.toList ++ ds, ?_, fun d hd => ?_⟩
    · rw [List.map_cons, inlineLoop]
      simp only [h2]
    · rcases List.mem_append.1 hd with hd | hd
      · exact h1.1 d (by simpa using hd)
      · exact h3 d hd

theorem inlineLoop_false (names : List Str) : ∀ (l : List (POut ParseError (PCmd (PTerm PSymb)))) (m : Bodies),
    (∀ cs : List (PCmd (PTerm PSymb)), l ≠ cs.map .ok) → (inlineLoop names m l).2 = false
  | [], _, h => absurd rfl (h [])
  | .ok c :: l, m, h => by
    have := inlineLoop_false names l (inlineCmd names m c).2 fun cs hc => h (c :: cs) (by rw [hc]; rfl)
    rw [inlineLoop]
    exact this
  | .err _ :: _, _, _ => rfl
  | .panic :: _, _, _ => rfl

end

end Kontroli
