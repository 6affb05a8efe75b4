import Verif.Model.Engine
/-
The text of a file from some place on, and parsers that return.
-/
namespace Hastur

/-- `i` is what is left of the file `f` with the text `s` after `n` bytes. -/
def RestOfFile (f : FileName) (s : Str) (n : Nat) (i : Span) : Prop :=
  ∃ b, fileBlock f s = .ok b ∧ b.span.sliceFrom n = .ok i

/-- The computation returns a value: it neither aborts (`Res.panic`) nor runs out of rounds (`Res.fuel`). -/
def HasResult {α : Type} (x : Res α) : Prop := ∃ a, x = .ok a

end Hastur
