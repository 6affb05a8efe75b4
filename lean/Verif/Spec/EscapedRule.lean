import Verif.Spec.RuleLine
/-
Specification of rule lines with backslashes.
-/
namespace Hastur

/-- A word in front of the colon of a rule as it is written, and what it stands for.  The characters of file names stand
for themselves, and so does a backslash in front of one of them; a colon is written with a backslash. -/
inductive EscapedWord : (written word : List LChar) → Prop
  | nil : EscapedWord [] []
  | char {x : LChar} {w n : List LChar} : WordChar x.1 → EscapedWord w n → EscapedWord (x :: w) (x :: n)
  | slash {l : Location} {x : LChar} {w n : List LChar} : WordChar x.1 → EscapedWord (x :: w) n →
      EscapedWord (('\\', l) :: x :: w) (('\\', l) :: n)
  | colon {l l' : Location} {w n : List LChar} : EscapedWord w n →
      EscapedWord (('\\', l) :: (':', l') :: w) ((':', l') :: n)

/-- The text in front of the colon of a rule, and the targets.  They are separated by blanks; a blank that belongs to a
target is written with a backslash, and further blanks after it do not count. -/
inductive EscapedTargets : (text : List LChar) → (targets : List (List LChar)) → Prop
  | last {w n gap : List LChar} : EscapedWord w n → w ≠ [] → Blanks gap → EscapedTargets (w ++ gap) [n]
  | more {w n gap t : List LChar} {ns : List (List LChar)} : EscapedWord w n → w ≠ [] → Blanks gap → gap ≠ [] →
      EscapedTargets t ns → EscapedTargets (w ++ (gap ++ t)) (n :: ns)
  | blank {w n gap t m : List LChar} {l : Location} {ns : List (List LChar)} : EscapedWord w n → Blanks gap → gap ≠ [] →
      EscapedTargets t (m :: ns) →
      EscapedTargets (w ++ (('\\', l) :: (gap ++ t))) ((n ++ (' ', .synthetic) :: m) :: ns)

/-- The characters that end the plain text of dependencies: what follows is an assignment, a command, a comment, or a
reference. -/
def depStops : List Char := ['=', ';', '#', '$']

/-- The line is `targets : dependencies` or `targets :: dependencies`, possibly followed by a semicolon and a command;
`after` is everything after the colons.  All colons in the dependencies are escaped. -/
inductive EscapedRuleText : (line targets : List LChar) → (doubleColon : Bool) → (after deps : List LChar) →
    (command : Option (List LChar)) → Prop
  | plain {ts cs ds : List LChar} {double : Bool} : textOf cs = (if double then "::".toList else ":".toList) →
      (∀ x ∈ ds, x.1 ∉ depStops) → (textOf ds).head? ≠ some '\\' → (unquote (· == ':') [] ds).2 = none →
      EscapedRuleText (ts ++ (cs ++ ds)) ts double ds ds none
  | command {ts cs ds cmd : List LChar} {double : Bool} {l : Location} :
      textOf cs = (if double then "::".toList else ":".toList) → (∀ x ∈ ds, x.1 ∉ depStops) →
      (textOf ds).head? ≠ some '\\' → (unquote (· == ':') [] ds).2 = none →
      (∀ x, ds.getLast? = some x → x.1 ≠ '\\') →
      EscapedRuleText (ts ++ (cs ++ (ds ++ (';', l) :: cmd))) ts double (ds ++ (';', l) :: cmd) ds (some cmd)

/-- How a name is written in a rule line: with a backslash in front of every colon and semicolon. -/
def writeName (n : List LChar) : List LChar :=
  n.flatMap fun x => if x.1 = ':' ∨ x.1 = ';' then [('\\', x.2), x] else [x]

/-- The rule line for these targets and dependencies, with a space after each target and one in front of each
dependency.  The locations are those of the spaces. -/
def writeRule (ts : List (List LChar × Location)) (colon : Location) (ds : List (List LChar × Location)) : List LChar :=
  (ts.flatMap fun p => writeName p.1 ++ [(' ', p.2)]) ++ (':', colon) :: ds.flatMap fun p => (' ', p.2) :: writeName p.1

end Hastur
