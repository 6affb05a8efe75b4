import Verif.Spec.Unsupported
import Verif.Spec.Include
/-
Vocabulary for lines of which an expression is not well-formed.
-/
namespace Hastur

/-- The line is an assignment or an include line, and its first expression that is not well-formed is malformed in the way
that `k` names: a reference that is not closed, a function call with too few or too many arguments. -/
inductive BadLine : (line : List LChar) → (k : ParseErrorKind) → Prop
  | name {line name value : List LChar} {ty : AssignType} {k : ParseErrorKind} : AssignText line name ty value →
      Reads name (.error k) → BadLine line k
  | value {line name value : List LChar} {ty : AssignType} {nes : List Expr} {k : ParseErrorKind} :
      AssignText line name ty value → Reads name (.ok nes) → Reads value (.error k) → BadLine line k
  | files {line args : List LChar} {soft : Bool} {k : ParseErrorKind} : IncludeText line soft args → ¬ VarLike line →
      Reads args (.error k) → BadLine line k

/-- The line starts a definition, `define name op` with nothing after the operator, and the text of the name is malformed in
the way that `k` names. -/
inductive BadDefine : (line : List LChar) → (k : ParseErrorKind) → Prop
  | mk {kw gap rest name : List LChar} {ty : AssignType} {k : ParseErrorKind} :
      (textOf kw).map lower = "define".toList → Blanks gap → (∀ x, rest.head? = some x → ¬ (x.1 = ' ' ∨ x.1 = '\t')) →
      (∀ n ty v, ¬ AssignText (kw ++ (gap ++ rest)) n ty v) → AssignText rest name ty [] → Reads name (.error k) →
      BadDefine (kw ++ (gap ++ rest)) k

end Hastur
