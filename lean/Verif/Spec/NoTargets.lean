import Verif.Spec.RuleLine

/-!
Rules without targets.
-/

namespace Hastur

/-- The line is a rule without targets: it begins with one or two colons, and this is not the beginning of an assignment
operator. -/
inductive NoTargets : List LChar → Prop
  | mk {cs u : List LChar} : (textOf cs = ":".toList ∨ textOf cs = "::".toList) → (textOf u).head? ≠ some ':' →
      (textOf u).head? ≠ some '=' → NoTargets (cs ++ u)

end Hastur
