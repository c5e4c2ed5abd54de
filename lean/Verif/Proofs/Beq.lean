import Verif.Model.Reduce

/-!
# The equality test is reflexive
-/

namespace Kontroli

mutual
  theorem LTerm.beq_refl (t : LTerm) : LTerm.beq t t = true := by
    cases t with
    | comb c => simp only [LTerm.beq]; exact LComb.beq_refl c
    | _ => simp [LTerm.beq]
  theorem LComb.beq_refl (c : Comb Str LTerm) : LComb.beq c c = true := by
    cases c with
    | appl f as => simp [LComb.beq, LTerm.beq_refl f, LTerm.beqList_refl as]
    | prod id a b => simp [LComb.beq, LTerm.beq_refl a, LTerm.beq_refl b]
    | abst id a b => simp [LComb.beq, LTerm.beqOpt_refl a, LTerm.beq_refl b]
  theorem LTerm.beqList_refl (ts : List LTerm) : LTerm.beqList ts ts = true := by
    cases ts with
    | nil => simp [LTerm.beqList]
    | cons t ts => simp [LTerm.beqList, LTerm.beq_refl t, LTerm.beqList_refl ts]
  theorem LTerm.beqOpt_refl (o : Option LTerm) : LTerm.beqOpt o o = true := by
    cases o with
    | none => simp [LTerm.beqOpt]
    | some t => simp [LTerm.beqOpt, LTerm.beq_refl t]
end

mutual
  theorem STerm.beq_refl (t : STerm) : STerm.beq t t = true := by
    cases t with
    | lcomb c => simp only [STerm.beq]; exact LComb.beq_refl c
    | scomb c => simp only [STerm.beq]; exact SComb.beq_refl c
    | _ => simp [STerm.beq]
  theorem SComb.beq_refl (c : Comb Str STerm) : SComb.beq c c = true := by
    cases c with
    | appl f as => simp [SComb.beq, STerm.beq_refl f, STerm.beqList_refl as]
    | prod id a b => simp [SComb.beq, STerm.beq_refl a, STerm.beq_refl b]
    | abst id a b => simp [SComb.beq, STerm.beqOpt_refl a, STerm.beq_refl b]
  theorem STerm.beqList_refl (ts : List STerm) : STerm.beqList ts ts = true := by
    cases ts with
    | nil => simp [STerm.beqList]
    | cons t ts => simp [STerm.beqList, STerm.beq_refl t, STerm.beqList_refl ts]
  theorem STerm.beqOpt_refl (o : Option STerm) : STerm.beqOpt o o = true := by
    cases o with
    | none => simp [STerm.beqOpt]
    | some t => simp [STerm.beqOpt, STerm.beq_refl t]
end

end Kontroli
