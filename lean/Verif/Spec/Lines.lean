import Verif.Spec.Text
import Verif.Model.Lines
/-
Specification of lines.
-/
namespace Hastur

/-- Number of backslashes at the end of a text. -/
def trailingSlashes (t : Str) : Nat := (t.reverse.takeWhile (· == '\\')).length

/-- No character of the text is the given one. -/
def Free (c : Char) (t : List LChar) : Prop := ∀ x ∈ t, x.1 ≠ c

/-- The characters are all blanks (space or tab). -/
def Blanks (t : List LChar) : Prop := ∀ x ∈ t, x.1 = ' ' ∨ x.1 = '\t'

/-- `rest` is what follows the logical line at the start of the text: a physical line that ends in an odd number of
backslashes is continued on the next one, any other ends the logical line, and so does the end of the text. -/
inductive Leaves : List LChar → List LChar → Prop
  | eof (l : List LChar) : Free '\n' l → Leaves l []
  | stop (l : List LChar) (loc : Location) (rest : List LChar) :
      Free '\n' l → trailingSlashes (textOf l) % 2 = 0 → Leaves (l ++ ('\n', loc) :: rest) rest
  | cont (l : List LChar) (loc : Location) (t rest : List LChar) :
      Free '\n' l → trailingSlashes (textOf l) % 2 = 1 → Leaves t rest → Leaves (l ++ ('\n', loc) :: t) rest

/-- A physical line that is continued: blanks, the body, blanks, one backslash, a line feed. -/
structure Continued where
  lead : List LChar
  body : List LChar
  trail : List LChar
  slash : Location
  feed : Location

/-- The text of a continued line. -/
def Continued.line (c : Continued) : List LChar :=
  c.lead ++ (c.body ++ (c.trail ++ [('\\', c.slash), ('\n', c.feed)]))

/-- The body is one line; either it is empty (and so are the blanks after it), or it neither begins nor ends with a
blank and does not end with a backslash. -/
structure Continued.OK (c : Continued) : Prop where
  lead : Blanks c.lead
  trail : Blanks c.trail
  free : Free '\n' c.body
  body : (c.body = [] ∧ c.trail = []) ∨
    ((∃ x l, c.body = x :: l ∧ ¬ (x.1 = ' ' ∨ x.1 = '\t')) ∧
     (∃ x l, c.body = l ++ [x] ∧ ¬ (x.1 = ' ' ∨ x.1 = '\t' ∨ x.1 = '\\')))

/-- The character is a space or a tab. -/
def lblank (x : LChar) : Bool := x.1 == ' ' || x.1 == '\t'

/-- Texts joined by single spaces. -/
def joinSpaces : List (List LChar) → List LChar
  | [] => []
  | [l] => l
  | l :: ls => l ++ (' ', .synthetic) :: joinSpaces ls

/-- `tail` is what follows the last physical line of a logical line: nothing, or a line feed and `rest`. -/
def EndsLine (tail rest : List LChar) : Prop :=
  (tail = [] ∧ rest = []) ∨ ∃ loc, tail = ('\n', loc) :: rest

/-- Cutting a text at the first unescaped stop character.  `run` holds the backslashes just read.  In front of a stop
character 2n+1 backslashes become n and the character is ordinary, 2n become n and the text is cut there; everywhere
else backslashes stand for themselves. -/
def unquote (stop : Char → Bool) : (run : List LChar) → List LChar → List LChar × Option (LChar × List LChar)
  | run, [] => (run, none)
  | run, x :: t =>
    if x.1 = '\\' then unquote stop (run ++ [x]) t
    else if stop x.1 then
      if run.length % 2 = 1 then
        (run.take (run.length / 2) ++ x :: (unquote stop [] t).1, (unquote stop [] t).2)
      else (run.take (run.length / 2), some (x, t))
    else (run ++ x :: (unquote stop [] t).1, (unquote stop [] t).2)

/-- How the engine reads the last file name of a list, a text without unescaped stop characters: half of the backslashes
at its end are dropped (rounded down), unless they are odd in number and no stop character, not even an escaped one,
is in the text. -/
def lastName (stop : Char → Bool) (t : List LChar) : List LChar :=
  if trailingSlashes (textOf t) % 2 = 1 ∧ ∀ x ∈ t, stop x.1 = false then (unquote stop [] t).1
  else (unquote stop [] t).1.take ((unquote stop [] t).1.length - trailingSlashes (textOf t) / 2)

/-- The names in a list of file names.  They are cut at the unescaped stop characters; `last` says how the text after the
last of these is read.  Empty names do not count. -/
inductive NamesIn (stop : Char → Bool) (last : List LChar → List LChar) : List LChar → List (List LChar) → Prop
  | next {t rest : List LChar} {x : LChar} {ns : List (List LChar)} : (unquote stop [] t).2 = some (x, rest) →
      NamesIn stop last rest ns → NamesIn stop last t ([(unquote stop [] t).1].filter (· ≠ []) ++ ns)
  | rest {t : List LChar} : (unquote stop [] t).2 = none → NamesIn stop last t ([last t].filter (· ≠ []))

/-- Names in a list are separated by white space, NUL and the extra stop characters of the caller. -/
def separates (extraStop : Str) (c : Char) : Bool := isWhitespace c || c == Char.ofNat 0 || extraStop.contains c

/-- A name without one `./` at its beginning. -/
def withoutDot (w : List LChar) : List LChar := if ['.', '/'] <+: textOf w then w.drop 2 else w

/-- How a name is written in a list of file names: a stop character gets a backslash in front, and backslashes in front
of a stop character or at the end are doubled.  `run` holds the backslashes just read. -/
def escapeName (stop : Char → Bool) : (run : List LChar) → List LChar → List LChar
  | run, [] => run ++ run
  | run, x :: t =>
    if x.1 = '\\' then escapeName stop (run ++ [x]) t
    else if stop x.1 then run ++ run ++ ('\\', x.2) :: x :: escapeName stop [] t
    else run ++ x :: escapeName stop [] t

/-- The maximal runs of characters that are not separators; `cur` is the run being read. -/
def fieldsFrom (sep : Char → Bool) : (cur : List LChar) → List LChar → List (List LChar)
  | cur, [] => if cur = [] then [] else [cur]
  | cur, x :: t =>
    if sep x.1 then (if cur = [] then fieldsFrom sep [] t else cur :: fieldsFrom sep [] t)
    else fieldsFrom sep (cur ++ [x]) t

/-- The maximal runs of characters that are not separators. -/
def fields (sep : Char → Bool) (t : List LChar) : List (List LChar) := fieldsFrom sep [] t

end Hastur
