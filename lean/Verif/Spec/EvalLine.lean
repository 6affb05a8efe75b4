import Verif.Spec.RuleLine
/-
Specification of lines that consist of a call of `eval`.
-/
namespace Hastur

/-- The line is a single call `$(eval arg)`, without quoting. -/
inductive EvalLine : (line arg : List LChar) → Prop
  | mk {l l' l'' : Location} {kw gap arg : List LChar} : textOf kw = "eval".toList → Blanks gap → gap ≠ [] →
      (∀ x, arg.head? = some x → ¬ (x.1 = ' ' ∨ x.1 = '\t')) → Balanced arg → (∀ x ∈ arg, x.1 ∉ [';', '#', '\\']) →
      EvalLine (('$', l) :: ('(', l') :: (kw ++ (gap ++ (arg ++ [(')', l'')])))) arg

end Hastur
