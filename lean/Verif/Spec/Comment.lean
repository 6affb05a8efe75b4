import Verif.Spec.Lines
/-
Specification of comment lines.
-/
namespace Hastur

/-- The text begins with comment lines, and `rest` follows them.  A comment line begins with a comment character, possibly
after blanks, and is continued like any other line; there may be empty lines between comment lines. -/
inductive CommentLines : (t rest : List LChar) → Prop
  | last {blanks t rest : List LChar} {l : Location} : Blanks blanks → Leaves t rest →
      CommentLines (blanks ++ ('#', l) :: t) rest
  | more {blanks t gap next rest : List LChar} {l : Location} : Blanks blanks → Leaves t (gap ++ next) →
      (∀ x ∈ gap, x.1 = ' ' ∨ x.1 = '\t' ∨ x.1 = '\n') → CommentLines next rest →
      CommentLines (blanks ++ ('#', l) :: t) rest

/-- The text is `body`, perhaps preceded by comment lines; no other comments occur. -/
inductive Headed : (t body : List LChar) → Prop
  | none {t : List LChar} : Free '#' t → Headed t t
  | comments {t body : List LChar} : CommentLines t body → Free '#' body → Headed t body

/-- What the program takes for comments at a comment character, and what it leaves: the last comment character of the text
counts, and all up to the end of its line belongs to the comments, whatever it is. -/
inductive Swallowed : (t rest : List LChar) → Prop
  | one {u rest : List LChar} {l : Location} : Free '#' u → Leaves u rest → Swallowed (('#', l) :: u) rest
  | more {a b rest : List LChar} {l l' : Location} : Free '#' b → Leaves b rest →
      Swallowed (('#', l) :: (a ++ ('#', l') :: b)) rest

/-- The text without its comment lines, wherever they are. -/
inductive Uncommented : (t u : List LChar) → Prop
  | last {t : List LChar} : Free '#' t → Free '\n' t → Uncommented t t
  | line {l t u : List LChar} {loc : Location} : Free '#' l → Free '\n' l → Uncommented t u →
      Uncommented (l ++ ('\n', loc) :: t) (l ++ ('\n', loc) :: u)
  | comment {blanks t rest u : List LChar} {l : Location} : Blanks blanks → Leaves t rest → Uncommented rest u →
      Uncommented (blanks ++ ('#', l) :: t) u

end Hastur
