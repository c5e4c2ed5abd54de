import Verif.Model.Raw

/-!
# Texts as bytes
-/

namespace Kontroli

/-- UTF-8: `String.utf8EncodeChar` is the table of RFC 3629 in Lean's core library -/
def utf8 (t : Str) : List UInt8 := t.flatMap String.utf8EncodeChar

/-- The file can be read to its end, and contains the text in UTF-8. -/
def Raw.Encodes (r : Raw) (t : Str) : Prop := r.broken = false ∧ r.bytes = utf8 t

/-- The files that are opened contain texts in UTF-8; `fs'` and `stdin'` are these texts. -/
structure Texts (fs : Str → Option Raw) (stdin : Raw) (paths : List Str) (fs' : FileSystem) (stdin' : Str) : Prop where
  none : ∀ p ∈ paths, isDash p = false → fs p = none → fs' p = none
  some : ∀ p ∈ paths, isDash p = false → ∀ r, fs p = some r → ∃ t, fs' p = some t ∧ r.Encodes t
  stdin : ∀ p ∈ paths, isDash p = true → stdin.Encodes stdin'

/-- The first line cannot be read: reading fails before its end, or it is not UTF-8. -/
inductive Unreadable : Raw → Prop
  | broken {bs : List UInt8} : 10 ∉ bs → Unreadable ⟨bs, true⟩
  | last {bs : List UInt8} : 10 ∉ bs → (∀ t, bs ≠ utf8 t) → Unreadable ⟨bs, false⟩
  | line {bs rest : List UInt8} {broken : Bool} : 10 ∉ bs → (∀ t, bs ≠ utf8 t) → Unreadable ⟨bs ++ 10 :: rest, broken⟩

end Kontroli
