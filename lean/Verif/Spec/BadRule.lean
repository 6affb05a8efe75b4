import Verif.Spec.RuleLine
/-
Vocabulary for rule lines of which an expression is not well-formed.
-/
namespace Hastur

/-- In front of the colon of a rule, perhaps after some targets that are all right, stands a target with a reference or
function call that is malformed in the way that `k` names, or one that is not closed up to the end of the text. -/
inductive BadTargets (env : Env) : (t : List LChar) → (k : ParseErrorKind) → Prop
  | closed {p name q u : List LChar} {es : List Expr} {l l' l'' : Location} {k : ParseErrorKind} : Segment p →
      Reads p (.ok es) → Balanced name → Reads (('$', l) :: ('(', l') :: (name ++ [(')', l'')])) (.error k) → Segment q →
      (textOf u).head? ∈ [none, some ' ', some '\t', some ':'] →
      BadTargets env (p ++ ('$', l) :: ('(', l') :: (name ++ (')', l'') :: (q ++ u))) k
  | unclosed {p t : List LChar} {es : List Expr} {l l' : Location} : Segment p → Reads p (.ok es) →
      (∀ a l b, t = a ++ (')', l) :: b → ¬ Balanced a) →
      BadTargets env (p ++ ('$', l) :: ('(', l') :: t) .unterminatedVariable
  | more {w gap t ts : List LChar} {es : List Expr} {vs : List Str} {k : ParseErrorKind} : Segment w → w ≠ [] → Blanks gap →
      gap ≠ [] → Reads w (.ok es) → Expands env es t vs → FileNames t → t ≠ [] → BadTargets env ts k →
      BadTargets env (w ++ (gap ++ ts)) k

/-- The line begins, perhaps after some targets that are all right, with a target whose value contains a semicolon (that
is not escaped), so that everything after that is the command, and the rest of the line is malformed in the way that `k`
names. -/
inductive BadCommand (env : Env) : (t : List LChar) → (k : ParseErrorKind) → Prop
  | here {w pre post rest : List LChar} {es : List Expr} {vs : List Str} {l : Location} {k : ParseErrorKind} : Segment w →
      w ≠ [] → Reads w (.ok es) → Expands env es (pre ++ (';', l) :: post) vs → (∀ x ∈ pre, x.1 ∉ [';', '\\']) →
      (textOf rest).head? ∈ [some ' ', some '\t'] → Reads rest (.error k) → BadCommand env (w ++ rest) k
  | more {w gap t ts : List LChar} {es : List Expr} {vs : List Str} {k : ParseErrorKind} : Segment w → w ≠ [] → Blanks gap →
      gap ≠ [] → Reads w (.ok es) → Expands env es t vs → FileNames t → t ≠ [] → BadCommand env ts k →
      BadCommand env (w ++ (gap ++ ts)) k

/-- Nothing, or a semicolon and anything after it. -/
inductive Tail : List LChar → Prop
  | nil : Tail []
  | semicolon {l : Location} {cmd : List LChar} : Tail ((';', l) :: cmd)

/-- The line is `targets : dependencies ; command`, with one or two colons, perhaps without the command, and the targets,
the dependencies or the command are malformed in the way that `k` names; the semicolon may come from the value of a
target. -/
inductive BadRule (env : Env) : (line : List LChar) → (k : ParseErrorKind) → Prop
  | targets {ts tail : List LChar} {k : ParseErrorKind} : BadTargets env ts k → (∀ x ∈ ts, x.1 ∉ [';', '#', '\\']) →
      Tail tail → BadRule env (ts ++ tail) k
  | deps {ts tt cs ds tail : List LChar} {vs : List Str} {double : Bool} {k : ParseErrorKind} :
      TargetsExpand env ts tt vs → textOf cs = (if double then "::".toList else ":".toList) →
      (textOf ds).head? ∉ [some ':', some '='] → (∀ x ∈ ds, x.1 ∉ [';', '#', '\\']) → Reads ds (.error k) → Tail tail →
      BadRule env (ts ++ (cs ++ (ds ++ tail))) k
  | command {ts tt cs ds cmd : List LChar} {vs : List Str} {double : Bool} {l : Location} {k : ParseErrorKind} :
      TargetsExpand env ts tt vs → textOf cs = (if double then "::".toList else ":".toList) →
      (textOf ds).head? ∉ [some ':', some '='] → (∀ x ∈ ds, x.1 ∉ [';', '#', '\\']) → Reads cmd (.error k) →
      BadRule env (ts ++ (cs ++ (ds ++ (';', l) :: cmd))) k
  | hidden {line : List LChar} {k : ParseErrorKind} : BadCommand env line k → (∀ x ∈ line, x.1 ∉ [';', '#', '\\']) →
      BadRule env line k

/-- The malformed value of an assignment, as it is read when the line is taken for a rule line: with `:=` or `::=` the value
may be malformed anywhere; with the other operators the malformed reference or call stands in front of any semicolon, and
every word in front of it expands to something. -/
inductive BadValue (env : Env) : AssignType → (value : List LChar) → Prop
  | simple {value : List LChar} {k : ParseErrorKind} : (∀ x ∈ value, x.1 ∉ ['#', '\\']) → Reads value (.error k) →
      BadValue env .simple value
  | words {ty : AssignType} {ts tail : List LChar} {k : ParseErrorKind} : ty ≠ .simple → BadTargets env ts k →
      (∀ x ∈ ts, x.1 ∉ [';', '#', '\\']) → Tail tail → BadValue env ty (ts ++ tail)

end Hastur
