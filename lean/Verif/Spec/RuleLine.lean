import Verif.Spec.Makefile
import Verif.Spec.Rules
/-
Specification of rule lines and recipe lines.
-/
namespace Hastur

/-- The first physical line of the text is `line` (after blanks), it is not continued, and `rest` follows. -/
inductive Physical : (t line rest : List LChar) → Prop
  | mk {lead line tail rest : List LChar} : Blanks lead → Free '\n' line →
      (∀ x, line.head? = some x → ¬ (x.1 = ' ' ∨ x.1 = '\t')) → trailingSlashes (textOf line) % 2 = 0 →
      EndsLine tail rest → Physical (lead ++ (line ++ tail)) line rest

/-- The line can be taken for a variable definition: it is an assignment, or begins with `define` or `undefine` in
upper or lower case, possibly after modifiers. -/
inductive VarLike : List LChar → Prop
  | assign {line name value : List LChar} {ty : AssignType} : AssignText line name ty value → VarLike line
  | define {line : List LChar} : "define".toList <+: (textOf line).map lower → VarLike line
  | undefine {line : List LChar} : "undefine".toList <+: (textOf line).map lower → VarLike line
  | modifier {kw gap line : List LChar} :
      (textOf kw).map lower ∈ ["export".toList, "override".toList, "private".toList] → Blanks gap →
      (∀ x, line.head? = some x → ¬ (x.1 = ' ' ∨ x.1 = '\t')) → VarLike line → VarLike (kw ++ (gap ++ line))

/-- The keywords of directives. -/
def directiveWords : List Str :=
  ["export".toList, "unexport".toList, "vpath".toList, "include".toList, "sinclude".toList, "-include".toList,
    "load".toList, "-load".toList]

/-- The line begins with the keyword of a directive, in upper or lower case. -/
def DirectiveLike (line : List LChar) : Prop := ∃ w ∈ directiveWords, w <+: (textOf line).map lower

/-- A character of a file name: not white space, and without meaning in a rule line. -/
def WordChar (c : Char) : Prop := isWhitespace c = false ∧ c ∉ [Char.ofNat 0, ':', '=', ';', '#', '$', '\\']

/-- A target as it is written: file name characters, references in parentheses, references to variables of one letter,
and names in braces (which the program does not read as references, see C28). -/
inductive Segment : List LChar → Prop
  | nil : Segment []
  | char {x : LChar} {t : List LChar} : WordChar x.1 → Segment t → Segment (x :: t)
  | ref {l l' l'' : Location} {name t : List LChar} : Balanced name → calls name = none →
      (∀ x ∈ name, x.1 ∉ [';', '#', '\\']) → Segment t →
      Segment (('$', l) :: ('(', l') :: (name ++ (')', l'') :: t))
  | single {l : Location} {x : LChar} {t : List LChar} : WordChar x.1 → x.1 ∉ ['(', '{', '}'] → Segment t →
      Segment (('$', l) :: x :: t)
  | brace {l l' l'' : Location} {name t : List LChar} : (∀ x ∈ name, WordChar x.1 ∧ x.1 ∉ ['{', '}']) → Segment t →
      Segment (('$', l) :: ('{', l') :: (name ++ ('}', l'') :: t))

/-- Expanded file names, separated by white space. -/
def FileNames (t : List LChar) : Prop := ∀ x ∈ t, WordChar x.1 ∨ isWhitespace x.1 = true

/-- The text `ts` in front of the colon of a rule expands to `tt`, and the variables `vs` are consulted: there are one
or more words separated by blanks, and each of them expands to something. -/
inductive TargetsExpand (env : Env) : (ts tt : List LChar) → (vs : List Str) → Prop
  | last {w gap t : List LChar} {es : List Expr} {vs : List Str} : Segment w → w ≠ [] → Blanks gap →
      Reads w (.ok es) → Expands env es t vs → FileNames t → t ≠ [] → TargetsExpand env (w ++ gap) t vs
  | more {w gap t ts tt : List LChar} {es : List Expr} {vs us : List Str} : Segment w → w ≠ [] → Blanks gap → gap ≠ [] →
      Reads w (.ok es) → Expands env es t vs → FileNames t → t ≠ [] → TargetsExpand env ts tt us →
      TargetsExpand env (w ++ (gap ++ ts)) (t ++ (' ', .synthetic) :: tt) (vs ++ us)

/-- The file names in a text: its maximal runs of characters that are not white space. -/
def wordsOf (t : List LChar) : List (List LChar) := fields isWhitespace t

/-- The text `t` consists of the plain words `ws`: there is at least one, they are separated by blanks, and blanks may
follow the last one. -/
inductive WordList : (t : List LChar) → (ws : List (List LChar)) → Prop
  | last {w gap : List LChar} : w ≠ [] → (∀ x ∈ w, WordChar x.1) → Blanks gap → WordList (w ++ gap) [w]
  | more {w gap t : List LChar} {ws : List (List LChar)} : w ≠ [] → (∀ x ∈ w, WordChar x.1) → Blanks gap → gap ≠ [] →
      WordList t ws → WordList (w ++ (gap ++ t)) (w :: ws)

/-- The same, with blanks in front; and there need not be any word. -/
inductive WordList0 : (t : List LChar) → (ws : List (List LChar)) → Prop
  | none {gap : List LChar} : Blanks gap → WordList0 gap []
  | some {gap t : List LChar} {ws : List (List LChar)} : Blanks gap → WordList t ws → WordList0 (gap ++ t) ws

/-- The line is `targets : dependencies` or `targets :: dependencies`, possibly followed by a semicolon and a command;
`after` is everything after the colons.  The dependencies may contain references. -/
inductive RuleText : (line targets : List LChar) → (doubleColon : Bool) → (after deps : List LChar) →
    (command : Option (List LChar)) → Prop
  | plain {ts cs ds : List LChar} {double : Bool} : textOf cs = (if double then "::".toList else ":".toList) →
      (∀ x ∈ ds, x.1 ∉ [':', '=', ';', '#', '\\']) → RuleText (ts ++ (cs ++ ds)) ts double ds ds none
  | command {ts cs ds cmd : List LChar} {double : Bool} {l : Location} :
      textOf cs = (if double then "::".toList else ":".toList) → (∀ x ∈ ds, x.1 ∉ [':', '=', ';', '#', '\\']) →
      RuleText (ts ++ (cs ++ (ds ++ (';', l) :: cmd))) ts double (ds ++ (';', l) :: cmd) ds (some cmd)

/-- The command on a rule line, if any, is the first line of the recipe. -/
inductive CommandReads : (command : Option (List LChar)) → (recipe : List (List Expr)) → Prop
  | none : CommandReads none []
  | some {cmd : List LChar} {es : List Expr} : Reads cmd (.ok es) → CommandReads (some cmd) [es]

end Hastur
