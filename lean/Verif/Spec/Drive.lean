import Verif.Spec.Lines
/-
Vocabulary for colons that belong to a drive specification, as in `c:/dir` (the comment of `find_non_drivespec_colon`).
-/
namespace Hastur

/-- A colon in the text, with what stands before and after it. -/
def ColonAt (t pre post : List LChar) : Prop := ∃ l, t = pre ++ (':', l) :: post

/-- What follows the colon begins with a slash or a backslash. -/
def SlashNext (post : List LChar) : Prop := ∃ x v, post = x :: v ∧ (x.1 = '/' ∨ x.1 = '\\')

/-- The colon between `pre` and `post` belongs to a drive specification: a letter stands before it, which is the first
character or follows whitespace or an opening parenthesis, and a slash or backslash stands behind it. -/
def DriveColon (pre post : List LChar) : Prop :=
  SlashNext post ∧ ∃ a x, pre = a ++ [x] ∧ isAlphabetic x.1 = true ∧
    ∀ y, a.getLast? = some y → isWhitespace y.1 = true ∨ y.1 = '('

/-- The colon between `pre` and `post` is the first one that belongs to no drive specification. -/
def FirstColon (t pre post : List LChar) : Prop :=
  ColonAt t pre post ∧ ¬ DriveColon pre post ∧ ∀ a b, ColonAt t a b → a.length < pre.length → DriveColon a b

/-- No colon is quoted by a backslash. -/
def UnquotedColons (t : List LChar) : Prop := ∀ pre post, ColonAt t pre post → ∀ x, pre.getLast? = some x → x.1 ≠ '\\'

end Hastur
