import Verif.Model.Access
/-
What an error with positions says.
-/
namespace Hastur

/-- The positions and kinds an error context reports, in order. -/
def ErrContext.entries {ι ε : Type} : ErrContext ι ε → List (ι × ε)
  | .code i e => [(i, e)]
  | .list v => v

/-- The positions and kinds an error reports, in order. -/
def VErr.entries {ι ε : Type} : VErr ι ε → List (ι × ε)
  | .incomplete => []
  | .error c => c.entries
  | .failure c => c.entries

/-- How severe an error is. -/
inductive Severity
  /-- more input is needed -/
  | incomplete
  /-- another alternative may be tried -/
  | soft
  /-- no alternative is tried -/
  | hard
  deriving DecidableEq, Repr

/-- How severe the error is. -/
def VErr.severity {ι ε : Type} : VErr ι ε → Severity
  | .incomplete => .incomplete
  | .error _ => .soft
  | .failure _ => .hard

end Hastur
