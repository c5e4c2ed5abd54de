import Verif.Props.Parse
import Verif.Proofs.TextGrammar

/-! # The commands of a text, strictly -/

namespace Kontroli

/-! ## There are no points in commands -/

mutual
  theorem GTerm.noDot {ts : List Token} {t : PTerm PSymb} : GTerm ts t → .dot ∉ ts
    | .app h => h.noDot
    | .arrow h1 h2 => by
      have h1 := h1.noDot
      have h2 := h2.noDot
      simp [h1, h2]
    | .prod h1 h2 => by
      have h1 := h1.noDot
      have h2 := h2.noDot
      simp [h1, h2, nameTok]
    | .abstTy h1 h2 => by
      have h1 := h1.noDot
      have h2 := h2.noDot
      simp [h1, h2, nameTok]
    | .abst h => by
      have h := h.noDot
      simp [h, nameTok]
  theorem GApp.noDot {ts : List Token} {t : PTerm PSymb} : GApp ts t → .dot ∉ ts
    | .symb => by simp
    | .par h => by
      have h := h.noDot
      simp [h]
    | .symbArg h => by
      have h := h.noDot
      simp [h]
    | .parArg h1 h2 => by
      have h1 := h1.noDot
      have h2 := h2.noDot
      simp [h1, h2]
end

theorem GArgs.noDot {ts : List Token} {as : List (Str × PTerm PSymb)} (h : GArgs ts as) : .dot ∉ ts := by
  induction h with
  | nil => simp
  | cons h _ ih => have := h.noDot; simp [this, ih, nameTok]

theorem GVar.noDot {ts : List Token} {v : Str × Option (PTerm PSymb)} (h : GVar ts v) : .dot ∉ ts := by
  cases h with
  | name => simp [nameTok]
  | typed h => have := h.noDot; simp [this, nameTok]

theorem GVars.noDot {ts : List Token} {vs : List (Str × Option (PTerm PSymb))} (h : GVars ts vs) : .dot ∉ ts := by
  induction h with
  | nil => simp
  | one h => exact h.noDot
  | cons h _ ih => have := h.noDot; simp [this, ih]

theorem GRules.noDot {ts : List Token} {rs : List (PRule (PTerm PSymb))} (h : GRules ts rs) : .dot ∉ ts := by
  induction h with
  | nil => simp
  | cons h1 h2 h3 _ ih =>
    have h1 := h1.noDot
    have h2 := h2.noDot
    have h3 := h3.noDot
    simp [h1, h2, h3, ih]

theorem GCmd.noDot {ts : List Token} {c : PCmd (PTerm PSymb)} (h : GCmd ts c) : .dot ∉ ts := by
  cases h with
  | decl h1 h2 => have h1 := h1.noDot; have h2 := h2.noDot; simp [h1, h2, nameTok]
  | inj h1 h2 => have h1 := h1.noDot; have h2 := h2.noDot; simp [h1, h2, nameTok]
  | defTy h1 h2 => have h1 := h1.noDot; have h2 := h2.noDot; simp [h1, h2, nameTok]
  | defTm h1 h2 => have h1 := h1.noDot; have h2 := h2.noDot; simp [h1, h2, nameTok]
  | defBoth h1 h2 h3 => have h1 := h1.noDot; have h2 := h2.noDot; have h3 := h3.noDot; simp [h1, h2, h3, nameTok]
  | thm h1 h2 h3 => have h1 := h1.noDot; have h2 := h2.noDot; have h3 := h3.noDot; simp [h1, h2, h3, nameTok]
  | rules _ h => exact h.noDot

/-! ## What is seen since the last command -/

theorem noDot_run {st : PState PSymb} {ctx : PCtx PSymb} {ts : List Token} (h : .dot ∉ ts) : (pRun scopeSymb st ctx ts).1 = [] := by
  induction ts generalizing st ctx with
  | nil => rfl
  | cons tok ts ih =>
    have ih := @ih
    have ih : ∀ st ctx, (pRun scopeSymb st ctx ts).1 = [] := fun st ctx => ih fun hm => h (.tail _ hm)
    rcases hp : tok.plain with _ | _
    · obtain ⟨o, rfl⟩ := Token.not_plain hp
      rw [pRun_comment]
      exact ih _ _
    · rw [pRun_cons _ _ _ _ _ hp]
      cases hs : pstep scopeSymb ctx st tok with
      | more st1 ctx1 => exact ih _ _
      | cmd c ctx1 => exact absurd (pstep_dot hs) (fun e => h (e ▸ .head _))
      | err e ctx1 => rfl
      | panic ctx1 => rfl

/-- over tokens up to a point -/
theorem pSeen_dot (seen : Bool) (st : PState PSymb) (ctx : PCtx PSymb) (ts us : List Token) (hp : ∀ t ∈ ts, t.plain = true) (hd : .dot ∉ ts)
    {cs : List (PCmd (PTerm PSymb))} {st' : PState PSymb} {ctx' : PCtx PSymb}
    (h : pRun scopeSymb st ctx (ts ++ [.dot]) = (cs, .more st' ctx')) :
    pSeen scopeSymb seen st ctx (ts ++ .dot :: us) = pSeen scopeSymb cs.isEmpty st' ctx' us := by
  induction ts generalizing seen st ctx with
  | nil =>
    rw [List.nil_append, pRun_cons _ _ _ _ _ rfl] at h
    rw [List.nil_append, pSeen]
    simp only [Token.plain, if_true]
    cases hs : pstep scopeSymb ctx st .dot with
    | more st1 ctx1 => rw [hs] at h; cases h; rfl
    | cmd c ctx1 => rw [hs] at h; cases h; rfl
    | err e ctx1 => rw [hs] at h; cases h
    | panic ctx1 => rw [hs] at h; cases h
  | cons tok ts ih =>
    have hp1 := hp tok (.head _)
    rw [List.cons_append, pRun_cons _ _ _ _ _ hp1] at h
    rw [List.cons_append, pSeen]
    simp only [hp1, if_true]
    cases hs : pstep scopeSymb ctx st tok with
    | more st1 ctx1 =>
      rw [hs] at h
      exact ih _ _ _ (fun t ht => hp t (.tail _ ht)) (fun hm => hd (.tail _ hm)) h
    | cmd c ctx1 => exact absurd (pstep_dot hs) (fun e => hd (e ▸ .head _))
    | err e ctx1 => rw [hs] at h; cases h
    | panic ctx1 => rw [hs] at h; cases h

theorem GText.seen {ts : List Token} {cs : List (PCmd (PTerm PSymb))} (h : GText ts cs) (hp : ∀ t ∈ ts, t.plain = true) (b : Bool)
    (hs : pSeen scopeSymb b PState.new PCtx.new ts = false) : GStrict ts cs ∧ (ts = [] → b = false) := by
  induction h generalizing b with
  | nil => exact ⟨.nil, fun _ => hs⟩
  | @cmd c cs ts us hc _ ih =>
    have hr := text_run (.cmd hc .nil)
    rw [pSeen_dot _ _ _ _ _ (fun t ht => hp t (List.mem_append_left _ ht)) hc.noDot hr] at hs
    exact ⟨.cmd hc (ih (fun t ht => hp t (by simp [ht])) _ hs).1, by simp⟩
  | @pragma cs ps us hd hu ih =>
    have hr := text_run (.pragma hd .nil)
    rw [pSeen_dot _ _ _ _ _ (fun t ht => hp t (List.mem_append_left _ ht)) (by simp [hd]) hr] at hs
    have := ih (fun t ht => hp t (by simp [ht])) _ hs
    exact ⟨.pragma hd this.1 (fun e => by cases this.2 e), by simp⟩

theorem GStrict.text {ts : List Token} {cs : List (PCmd (PTerm PSymb))} (h : GStrict ts cs) : GText ts cs := by
  induction h with
  | nil => exact .nil
  | cmd h _ ih => exact .cmd h ih
  | pragma h _ _ ih => exact .pragma h ih

theorem GStrict.seen {ts : List Token} {cs : List (PCmd (PTerm PSymb))} (h : GStrict ts cs) (hp : ∀ t ∈ ts, t.plain = true) (b : Bool)
    (hb : ts = [] → b = false) : pSeen scopeSymb b PState.new PCtx.new ts = false := by
  induction h generalizing b with
  | nil => exact hb rfl
  | @cmd c cs ts us hc _ ih =>
    have hr := text_run (.cmd hc .nil)
    rw [pSeen_dot _ _ _ _ _ (fun t ht => hp t (List.mem_append_left _ ht)) hc.noDot hr]
    exact ih (fun t ht => hp t (by simp [ht])) _ fun _ => rfl
  | @pragma cs ps us hd _ hne ih =>
    have hr := text_run (.pragma hd .nil)
    rw [pSeen_dot _ _ _ _ _ (fun t ht => hp t (List.mem_append_left _ ht)) (by simp [hd]) hr]
    exact ih (fun t ht => hp t (by simp [ht])) _ fun e => absurd e hne

theorem lex_parts (s : Str) : lex s = (lex s).filter Token.plain ++ if openOf (lex s) = 0 then [] else [.comment (openOf (lex s))] := by
  have h1 := lex_commentLast s
  have h2 : ∀ o, .comment o ∈ lex s → 0 < o := fun o ho => lex_comment_pos ho
  generalize lex s = ts at h1 h2
  induction ts with
  | nil => rfl
  | cons t ts ih =>
    rcases ht : t.plain with _ | _
    · obtain ⟨o, rfl⟩ := Token.not_plain ht
      simp only [CommentLast] at h1
      subst h1
      have := h2 o (.head _)
      have e : openOf [.comment o] = o := rfl
      rw [e, if_neg (by omega)]
      rfl
    · rw [List.filter_cons_of_pos ht, openOf_cons _ ht, List.cons_append, ← ih h1.tail fun o ho => h2 o (.tail _ ho)]

end Kontroli
