import Verif.Model.Location
/-
Source positions, specified without the step functions of the code (C08, C09).
-/
namespace Hastur

/-- The line reached after reading `text` from line `line`. -/
def lineAfter (line : Nat) (text : Str) : Nat := line + text.count '\n'

/-- The column reached after reading `text` from column `column`: columns are counted in characters
and start at 1 after a line feed. -/
def columnAfter (column : Nat) (text : Str) : Nat :=
  if '\n' ∈ text then 1 + (text.reverse.takeWhile (· ≠ '\n')).length else column + text.length

/-- The location reached after reading `text` from a location; synthetic text has no position. -/
def Location.after : Location → Str → Location
  | .source line column file, text => .source (lineAfter line text) (columnAfter column text) file
  | .eval node line column, text => .eval node (lineAfter line text) (columnAfter column text)
  | .synthetic, _ => .synthetic

/-- Lexicographic order of (line, column). -/
def posLt (l1 c1 l2 c2 : Nat) : Prop := l1 < l2 ∨ (l1 = l2 ∧ c1 < c2)

end Hastur
