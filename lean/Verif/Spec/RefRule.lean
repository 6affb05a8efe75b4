import Verif.Spec.RuleLine
import Verif.Spec.Makefile
/-
Specification of lines that consist of a reference.
-/
namespace Hastur

/-- The line is a single reference `$(name)`, without quoting. -/
inductive RefLine : (line name : List LChar) → Prop
  | mk {l l' l'' : Location} {name : List LChar} : Balanced name → calls name = none → (∀ x ∈ name, x.1 ∉ [';', '#', '\\']) →
      RefLine (('$', l) :: ('(', l') :: (name ++ [(')', l'')])) name

/-- The value is the text `t`, stored in one piece: as it is written, or as the result of an expansion. -/
inductive StoredText : Ast → (t : List LChar) → Prop
  | constant (l : Location) (v : LStr) : StoredText (.constant l v) v.ltext
  | expanded (l : Location) {b : Block} : b.content.length ≤ 1 → Block.Mono b → StoredText (.preEvaluated l b) (Block.ltext b)

/-- The value of the variable `s` is the text `t`, stored in one piece. -/
def St.HoldsText (st : St) (s : Str) (t : List LChar) : Prop := ∃ p, st.lookup s = some p ∧ StoredText p.value t

end Hastur
