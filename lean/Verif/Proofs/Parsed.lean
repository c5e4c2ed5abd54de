import Verif.Props.Grammar
import Verif.Proofs.Print
import Verif.Spec.Web

/-! # What is parsed can be written down -/

namespace Kontroli

mutual
  /-- all names in a term satisfy `Q` -/
  def PTerm.All (Q : PSymb → Prop) : PTerm PSymb → Prop
    | .app h args => h.All Q ∧ AllArgs Q args
  /-- all names in a head satisfy `Q` -/
  def PHead.All (Q : PSymb → Prop) : PHead PSymb → Prop
    | .atom s => Q s
    | .abst x ty tm => Q (.new x) ∧ AllOpt Q ty ∧ tm.All Q
    | .prod x ty tm => (∀ y, x = some y → Q (.new y)) ∧ ty.All Q ∧ tm.All Q
  /-- all names in the arguments satisfy `Q` -/
  def AllArgs (Q : PSymb → Prop) : List (PTerm PSymb) → Prop
    | [] => True
    | a :: as => a.All Q ∧ AllArgs Q as
  /-- all names in the type of an abstraction satisfy `Q` -/
  def AllOpt (Q : PSymb → Prop) : Option (PTerm PSymb) → Prop
    | none => True
    | some t => t.All Q
end

/-- there is a type or a term -/
def Intro.Full {Tm : Type} : Intro Tm → Prop
  | .definition none none => False
  | _ => True

/-- all names in a rule satisfy `Q` -/
def PRule.All (Q : PSymb → Prop) (r : PRule (PTerm PSymb)) : Prop :=
  (∀ v ∈ r.ctx, Q (.new v.1) ∧ ∀ ty, v.2 = some ty → ty.All Q) ∧ r.lhs.All Q ∧ r.rhs.All Q

/-- all names in a command satisfy `Q`, definitions have a type or a term, and there are rules in a list of rules -/
def PCmd.All (Q : PSymb → Prop) : PCmd (PTerm PSymb) → Prop
  | .intro x args it => Q (.new x) ∧ (∀ a ∈ args, Q (.new a.1) ∧ a.2.All Q) ∧ (∀ t, it.given = some t → t.All Q) ∧
      (∀ t, it.body = some t → t.All Q) ∧ it.Full
  | .rules rs => rs ≠ [] ∧ ∀ r ∈ rs, r.All Q

variable {Q : PSymb → Prop}

/-- all symbols among some tokens satisfy `Q` -/
def SymbsAll (Q : PSymb → Prop) (ts : List Token) : Prop := ∀ s, .symb s ∈ ts → Q s

theorem SymbsAll.left {ts us : List Token} (h : SymbsAll Q (ts ++ us)) : SymbsAll Q ts := fun s hs => h s (by simp [hs])

theorem SymbsAll.right {ts us : List Token} (h : SymbsAll Q (ts ++ us)) : SymbsAll Q us := fun s hs => h s (by simp [hs])

theorem SymbsAll.tail {t : Token} {ts : List Token} (h : SymbsAll Q (t :: ts)) : SymbsAll Q ts := fun s hs => h s (by simp [hs])

theorem SymbsAll.head {x : Str} {ts : List Token} (h : SymbsAll Q (nameTok x :: ts)) : Q (.new x) := h _ (.head _)

theorem SymbsAll.append {ts us : List Token} (h : SymbsAll Q ts) (h' : SymbsAll Q us) : SymbsAll Q (ts ++ us) := by
  intro s hs
  rcases List.mem_append.1 hs with hs | hs
  · exact h s hs
  · exact h' s hs

theorem allArgs_snoc : ∀ (as : List (PTerm PSymb)) (a : PTerm PSymb), AllArgs Q as → a.All Q → AllArgs Q (as ++ [a])
  | [], _, _, h => ⟨h, trivial⟩
  | _ :: as, a, h, h' => ⟨h.1, allArgs_snoc as a h.2 h'⟩

mutual
  theorem GTerm.all : ∀ {ts : List Token} {t : PTerm PSymb}, GTerm ts t → SymbsAll Q ts → t.All Q
    | _, _, .app h, hv => h.all hv
    | _, _, .arrow h h', hv => ⟨⟨by simp, h.all hv.left, h'.all hv.right.tail⟩, trivial⟩
    | _, _, .prod h h', hv => ⟨⟨by simpa using hv.head, h.all (SymbsAll.left (hv.tail.tail)), h'.all (SymbsAll.right hv.tail.tail).tail⟩, trivial⟩
    | _, _, .abstTy h h', hv => ⟨⟨hv.head, h.all (SymbsAll.left (hv.tail.tail)), h'.all (SymbsAll.right hv.tail.tail).tail⟩, trivial⟩
    | _, _, .abst h, hv => ⟨⟨hv.head, trivial, h.all hv.tail.tail⟩, trivial⟩
  theorem GApp.all : ∀ {ts : List Token} {t : PTerm PSymb}, GApp ts t → SymbsAll Q ts → t.All Q
    | _, _, .symb, hv => ⟨hv _ (by simp), trivial⟩
    | _, _, .par h, hv => h.all (SymbsAll.left hv.tail)
    | _, _, .symbArg h, hv => ⟨(h.all hv.left).1, allArgs_snoc _ _ (h.all hv.left).2 ⟨hv.right _ (by simp), trivial⟩⟩
    | _, _, .parArg h h', hv =>
      ⟨(h.all hv.left.left).1, allArgs_snoc _ _ (h.all hv.left.left).2 (h'.all hv.left.right.tail)⟩
end

theorem GArgs.all {ts : List Token} {as : List (Str × PTerm PSymb)} (h : GArgs ts as) (hv : SymbsAll Q ts) :
    ∀ a ∈ as, Q (.new a.1) ∧ a.2.All Q := by
  induction h with
  | nil => simp
  | cons h _ ih =>
    have h2 := hv.tail
    intro a ha
    rcases List.mem_cons.1 ha with rfl | ha
    · exact ⟨h2.head, h.all (SymbsAll.left h2.tail.tail)⟩
    · exact ih (SymbsAll.right h2.tail.tail).tail a ha

theorem GVar.all {ts : List Token} {v : Str × Option (PTerm PSymb)} (h : GVar ts v) (hv : SymbsAll Q ts) :
    Q (.new v.1) ∧ ∀ ty, v.2 = some ty → ty.All Q := by
  cases h with
  | name => exact ⟨hv.head, by simp⟩
  | typed h =>
    refine ⟨hv.head, ?_⟩
    rintro ty ⟨⟩
    exact h.all hv.tail.tail

theorem GVars.all {ts : List Token} {vs : List (Str × Option (PTerm PSymb))} (h : GVars ts vs) (hv : SymbsAll Q ts) :
    ∀ v ∈ vs, Q (.new v.1) ∧ ∀ ty, v.2 = some ty → ty.All Q := by
  induction h with
  | nil => simp
  | one h => simpa using h.all hv
  | cons h _ ih =>
    intro v hm
    rcases List.mem_cons.1 hm with rfl | hm
    · exact h.all hv.left
    · exact ih hv.right.tail v hm

theorem GRules.all {ts : List Token} {rs : List (PRule (PTerm PSymb))} (h : GRules ts rs) (hv : SymbsAll Q ts) : ∀ r ∈ rs, r.All Q := by
  induction h with
  | nil => simp
  | cons h1 h2 h3 _ ih =>
    intro r hr
    rcases List.mem_cons.1 hr with rfl | hr
    · refine ⟨h1.all (SymbsAll.left (SymbsAll.left (SymbsAll.left hv).tail)), ?_, ?_⟩
      · exact h2.all (SymbsAll.right (SymbsAll.left (SymbsAll.left hv).tail)).tail
      · exact h3.all (SymbsAll.left hv).right.tail
    · exact ih hv.right r hr

theorem GCmd.all {ts : List Token} {c : PCmd (PTerm PSymb)} (h : GCmd ts c) (hv : SymbsAll Q ts) : c.All Q := by
  cases h with
  | decl h1 h2 =>
    refine ⟨hv.head, h1.all (SymbsAll.left hv.tail), ?_, ?_, trivial⟩
    · rintro _ ⟨⟩; exact h2.all (SymbsAll.right hv.tail).tail
    · rintro _ ⟨⟩
  | inj h1 h2 =>
    refine ⟨hv.tail.head, h1.all (SymbsAll.left hv.tail.tail), ?_, ?_, trivial⟩
    · rintro _ ⟨⟩; exact h2.all (SymbsAll.right hv.tail.tail).tail
    · rintro _ ⟨⟩
  | defTy h1 h2 =>
    refine ⟨hv.tail.head, h1.all (SymbsAll.left hv.tail.tail), ?_, ?_, trivial⟩
    · rintro _ ⟨⟩; exact h2.all (SymbsAll.right hv.tail.tail).tail
    · rintro _ ⟨⟩
  | defTm h1 h2 =>
    refine ⟨hv.tail.head, h1.all (SymbsAll.left hv.tail.tail), ?_, ?_, trivial⟩
    · rintro _ ⟨⟩
    · rintro _ ⟨⟩; exact h2.all (SymbsAll.right hv.tail.tail).tail
  | defBoth h1 h2 h3 =>
    have hl := (SymbsAll.left hv)
    refine ⟨hl.tail.head, h1.all (SymbsAll.left hl.tail.tail), ?_, ?_, trivial⟩
    · rintro _ ⟨⟩; exact h2.all (SymbsAll.right hl.tail.tail).tail
    · rintro _ ⟨⟩; exact h3.all hv.right.tail
  | thm h1 h2 h3 =>
    have hl := (SymbsAll.left hv)
    refine ⟨hl.tail.head, h1.all (SymbsAll.left hl.tail.tail), ?_, ?_, trivial⟩
    · rintro _ ⟨⟩; exact h2.all (SymbsAll.right hl.tail.tail).tail
    · rintro _ ⟨⟩; exact h3.all hv.right.tail
  | rules h1 h2 => exact ⟨h1, h2.all hv⟩

theorem GText.all {ts : List Token} {cs : List (PCmd (PTerm PSymb))} (h : GText ts cs) (hv : SymbsAll Q ts) : ∀ c ∈ cs, c.All Q := by
  induction h with
  | nil => simp
  | cmd h _ ih =>
    intro c hc
    rcases List.mem_cons.1 hc with rfl | hc
    · exact h.all hv.left
    · exact ih hv.right.tail c hc
  | pragma _ _ ih => exact ih hv.right.tail

/-! ## Lexically valid names -/

theorem validName_of {x : Str} (h : ValidSymb (.new x)) : ValidName x := ⟨h.2.1, h.2.2 x rfl⟩

mutual
  theorem PTerm.All.valid : ∀ {t : PTerm PSymb}, t.All ValidSymb → t.Valid
    | .app _ _, h => ⟨h.1.valid, allArgs_valid h.2⟩
  theorem PHead.All.valid : ∀ {t : PHead PSymb}, t.All ValidSymb → t.Valid
    | .atom _, h => h
    | .abst _ none _, h => ⟨validName_of h.1, h.2.2.valid⟩
    | .abst _ (some _) _, h => ⟨validName_of h.1, h.2.1.valid, h.2.2.valid⟩
    | .prod none _ _, h => ⟨h.2.1.valid, h.2.2.valid⟩
    | .prod (some x) _ _, h => ⟨validName_of (h.1 x rfl), h.2.1.valid, h.2.2.valid⟩
  theorem allArgs_valid : ∀ {as : List (PTerm PSymb)}, AllArgs ValidSymb as → ValidArgs as
    | [], _ => trivial
    | _ :: _, h => ⟨h.1.valid, allArgs_valid h.2⟩
end

theorem PCmd.All.valid {c : PCmd (PTerm PSymb)} (h : c.All ValidSymb) : c.Valid := by
  cases c with
  | intro x args it =>
    obtain ⟨h1, h2, h3, h4, h5⟩ := h
    refine ⟨validName_of h1, fun a ha => ⟨validName_of (h2 a ha).1, (h2 a ha).2.valid⟩, ?_⟩
    cases it with
    | definition ty tm =>
      cases ty <;> cases tm
      · exact h5
      · exact (h4 _ rfl).valid
      · exact (h3 _ rfl).valid
      · exact ⟨(h3 _ rfl).valid, (h4 _ rfl).valid⟩
    | theorem_ ty tm => exact ⟨(h3 _ rfl).valid, (h4 _ rfl).valid⟩
    | declaration inj ty => exact (h3 _ rfl).valid
  | rules rs =>
    refine ⟨h.1, fun r hr => ?_⟩
    obtain ⟨h1, h2, h3⟩ := h.2 r hr
    exact ⟨fun v hv => ⟨validName_of (h1 v hv).1, fun ty hy => ((h1 v hv).2 ty hy).valid⟩, h2.valid, h3.valid⟩

/-! ## Names on one line -/

/-- a name without the end of a line -/
def OnLine (s : PSymb) : Prop := '\n' ∉ s.display

theorem OnLine.name {x : Str} (h : OnLine (.new x)) : '\n' ∉ x := by simpa [OnLine, PSymb.display, PSymb.new] using h

mutual
  theorem PTerm.All.line : ∀ {t : PTerm PSymb}, t.All OnLine → '\n' ∉ t.show
    | .app hd args, h => by
      have h1 := h.1.line
      have h2 := allArgs_line h.2
      rw [PTerm.show, PTerm.display]
      cases args <;> simp [str] at h1 h2 ⊢ <;> simp_all
  theorem PHead.All.line : ∀ {t : PHead PSymb}, t.All OnLine → '\n' ∉ t.display PSymb.display
    | .atom _, h => h
    | .abst _ none _, h => by
      have h1 := h.1.name
      have h2 := h.2.2.line
      rw [PHead.display]
      simp [str] at h1 h2 ⊢
      simp_all
    | .abst _ (some _) _, h => by
      have h1 := h.1.name
      have h2 := h.2.1.line
      have h3 := h.2.2.line
      rw [PHead.display]
      simp [str] at h1 h2 h3 ⊢
      simp_all
    | .prod none _ _, h => by
      have h2 := h.2.1.line
      have h3 := h.2.2.line
      rw [PHead.display]
      simp [str] at h2 h3 ⊢
      simp_all
    | .prod (some x) _ _, h => by
      have h1 := (h.1 x rfl).name
      have h2 := h.2.1.line
      have h3 := h.2.2.line
      rw [PHead.display]
      simp [str] at h1 h2 h3 ⊢
      simp_all
  theorem allArgs_line : ∀ {as : List (PTerm PSymb)}, AllArgs OnLine as → '\n' ∉ displayArgs PSymb.display as
    | [], _ => by simp [displayArgs]
    | _ :: _, h => by
      have h1 := h.1.line
      have h2 := allArgs_line h.2
      rw [displayArgs]
      simp [str] at h1 h2 ⊢
      simp_all
end

theorem nl_append {a b : Str} (ha : '\n' ∉ a) (hb : '\n' ∉ b) : '\n' ∉ a ++ b := by
  intro h
  rcases List.mem_append.1 h with h | h
  · exact ha h
  · exact hb h

theorem displayCtx_line : ∀ (l : List (Str × Option (PTerm PSymb))), (∀ v ∈ l, OnLine (.new v.1) ∧ ∀ ty, v.2 = some ty → ty.All OnLine) →
    '\n' ∉ displayCtx PTerm.show l
  | [], _ => by simp [displayCtx]
  | (x, ty) :: l, h => by
    have h1 := displayCtx_line l fun v hv => h v (.tail _ hv)
    obtain ⟨h2, h3⟩ := h _ (.head _)
    have h4 : '\n' ∉ (if l.isEmpty then [] else str ", ") := by split <;> decide
    cases ty with
    | none => exact nl_append (nl_append (nl_append h2.name (by simp)) h4) h1
    | some ty => exact nl_append (nl_append (nl_append h2.name (nl_append (by decide) (h3 ty rfl).line)) h4) h1

theorem PCmd.All.line {c : PCmd (PTerm PSymb)} (h : c.All OnLine) : '\n' ∉ c.show := by
  cases c with
  | intro x args it =>
    obtain ⟨h1, h2, h3, h4, -⟩ := h
    have h1 := h1.name
    have h2 : '\n' ∉ args.flatMap (fun (x, ty) => str " (" ++ x ++ str " : " ++ PTerm.show ty ++ str ")") := by
      intro hm
      obtain ⟨a, ha, hm⟩ := List.mem_flatMap.1 hm
      exact nl_append (nl_append (nl_append (nl_append (by decide) (h2 a ha).1.name) (by decide)) (h2 a ha).2.line) (by decide) hm
    cases it with
    | definition ty tm =>
      refine nl_append (nl_append (nl_append (show '\n' ∉ str "def " by decide) h1) h2) (nl_append ?_ ?_)
      · cases ty with
        | none => exact List.not_mem_nil
        | some ty => exact nl_append (by decide) (h3 ty rfl).line
      · cases tm with
        | none => exact List.not_mem_nil
        | some tm => exact nl_append (by decide) (h4 tm rfl).line
    | theorem_ ty tm =>
      exact nl_append (nl_append (nl_append (show '\n' ∉ str "thm " by decide) h1) h2) (nl_append (nl_append (nl_append (by decide) (h3 ty rfl).line) (by decide)) (h4 tm rfl).line)
    | declaration inj ty =>
      refine nl_append (nl_append (nl_append ?_ h1) h2) (nl_append (by decide) (h3 ty rfl).line)
      cases inj
      · exact List.not_mem_nil
      · exact (show '\n' ∉ str "injective " by decide)
  | rules rs =>
    intro hm
    obtain ⟨r, hr, hm⟩ := List.mem_flatMap.1 hm
    obtain ⟨h1, h2, h3⟩ := h.2 r hr
    exact nl_append (nl_append (nl_append (nl_append (nl_append (by decide) (displayCtx_line _ h1)) (by decide)) h2.line) (by decide)) h3.line hm

/-! ## The tokens of texts -/

theorem Lexes.valid {s : Str} {ts : List Token} {n : Nat} (h : Lexes s ts n) : SymbsAll ValidSymb ts := by
  obtain ⟨rfl, -⟩ := (lexes_iff _ _ _).1 h
  exact fun y hy => lex_valid (List.mem_of_mem_filter hy)

theorem Scans.rest {s r : Str} {t : Option Token} (h : Scans s t r) : ∃ p, s = p ++ r ∧ ∀ y, t = some (.symb y) → p = symbText y := by
  cases h with
  | space _ => exact ⟨[_], rfl, by simp⟩
  | comment _ => exact ⟨_, rfl, by simp⟩
  | word h _ =>
    refine ⟨_, rfl, ?_⟩
    rintro y ⟨⟩
    obtain ⟨h, -⟩ := h
    cases h with
    | sign h => simp [signs] at h
    | symb _ => rfl
  | cut _ _ => exact ⟨_, rfl, by simp⟩
  | moustache _ => exact ⟨_, rfl, by simp⟩
  | unknown _ _ _ => exact ⟨[_], rfl, by simp⟩

theorem Lexes.line {s : Str} {ts : List Token} {n : Nat} (h : Lexes s ts n) (hn : '\n' ∉ s) : SymbsAll OnLine ts := by
  induction h with
  | nil => exact fun s hs => absurd hs (by simp)
  | opened _ => exact fun s hs => absurd hs (by simp)
  | skip h _ ih =>
    obtain ⟨p, rfl, -⟩ := h.rest
    exact ih (by simp_all)
  | tok h _ ih =>
    obtain ⟨p, rfl, hp⟩ := h.rest
    intro y hy
    rcases List.mem_cons.1 hy with rfl | hy
    · rw [hp y rfl, symbText_eq] at hn
      exact fun h => hn (by simp [h])
    · exact ih (by simp_all) y hy

theorem LexesFrom.valid {d n : Nat} {s : Str} {ts : List Token} (h : LexesFrom d s ts n) : SymbsAll ValidSymb ts := by
  cases h with
  | out h => exact h.valid
  | closes _ h => exact h.valid
  | stays _ => exact fun s hs => absurd hs (by simp)

theorem LexesFrom.line {d n : Nat} {s : Str} {ts : List Token} (h : LexesFrom d s ts n) (hn : '\n' ∉ s) : SymbsAll OnLine ts := by
  cases h with
  | out h => exact h.line hn
  | closes _ h => exact h.line (by simp_all)
  | stays _ => exact fun s hs => absurd hs (by simp)

theorem LexesLines.valid {d : Nat} {ls : List Str} {ts : List Token} (h : LexesLines d ls ts) : SymbsAll ValidSymb ts := by
  induction h with
  | nil => exact fun s hs => absurd hs (by simp)
  | cons h _ ih => exact h.valid.append ih

theorem LexesLines.line {d : Nat} {ls : List Str} {ts : List Token} (h : LexesLines d ls ts) (hn : ∀ l ∈ ls, '\n' ∉ l) : SymbsAll OnLine ts := by
  induction h with
  | nil => exact fun s hs => absurd hs (by simp)
  | cons h _ ih => exact (h.line (hn _ (.head _))).append (ih fun l hl => hn l (.tail _ hl))

theorem LinesOf.line {text : Str} {ls : List Str} (h : LinesOf text ls) : ∀ l ∈ ls, '\n' ∉ l := by
  induction h with
  | nil => simp
  | last _ h => simpa using h
  | lf h _ _ ih => simpa using ⟨h, ih⟩
  | crlf h _ ih => simpa using ⟨h, ih⟩

theorem TextOf.valid {text : Str} {cs : List (PCmd (PTerm PSymb))} (h : TextOf text cs) : ∀ c ∈ cs, c.All ValidSymb := by
  obtain ⟨_, _, _, h, h'⟩ := h
  exact h'.all h.valid

theorem TextOf.line {text : Str} {cs : List (PCmd (PTerm PSymb))} (h : TextOf text cs) : ∀ c ∈ cs, c.All OnLine := by
  obtain ⟨_, _, hl, h, h'⟩ := h
  exact h'.all (h.line hl.line)

theorem WholeTextOf.valid {text : Str} {cs : List (PCmd (PTerm PSymb))} (h : WholeTextOf text cs) : ∀ c ∈ cs, c.All ValidSymb := by
  obtain ⟨_, h, h'⟩ := h
  exact h'.text.all h.valid

/-! ## Printed texts -/

theorem print_whole (cs : List (PCmd (PTerm PSymb))) (h : ∀ c ∈ cs, c.All ValidSymb) :
    strict scopeSymb (printCmds cs) = cs.map .ok := by
  rw [strict_eq]
  exact printCmds_parse cs fun c hc => (h c hc).valid

theorem print_lexes (c : PCmd (PTerm PSymb)) (h : c.All ValidSymb) : ∃ ts, Lexes (c.show ++ str ".") ts 0 ∧ GText ts [c] := by
  have h1 : lex (c.show ++ str ".") = c.toks ++ [.dot] := by
    rw [cmd_lex c h.valid (str ".") trivial]
    rfl
  have h2 : lex (c.show ++ str ".\n") = c.toks ++ [.dot] := by
    rw [cmd_lex c h.valid (str ".\n") (endsSymb_dot [])]
    rfl
  obtain ⟨ts, h3, h4⟩ := (C47_strict _ _).1 (print_whole [c] (by simpa using h))
  refine ⟨ts, ?_, h4.text⟩
  rw [lexes_iff] at h3 ⊢
  rw [show printCmds [c] = c.show ++ str ".\n" by simp [printCmds], h2] at h3
  rwa [h1]

theorem print_lines (cs : List (PCmd (PTerm PSymb))) (h : ∀ c ∈ cs, c.All ValidSymb) (h' : ∀ c ∈ cs, c.All OnLine) :
    TextOf (printCmds cs) cs := by
  induction cs with
  | nil => exact ⟨[], [], .nil, .nil, .nil⟩
  | cons c cs ih =>
    obtain ⟨ls, ts, h1, h2, h3⟩ := ih (fun c hc => h c (.tail _ hc)) fun c hc => h' c (.tail _ hc)
    obtain ⟨us, h4, h5⟩ := print_lexes c (h c (.head _))
    refine ⟨(c.show ++ str ".") :: ls, us ++ ts, ?_, .cons (.out h4) h2, h5.append h3⟩
    have := LinesOf.lf (l := c.show ++ str ".") (s := printCmds cs) (ls := ls) ?_ (by simp [str]) h1
    · simpa [printCmds, str] using this
    · have := (h' c (.head _)).line
      simp_all [str]

end Kontroli
