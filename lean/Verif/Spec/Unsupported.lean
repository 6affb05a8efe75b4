import Verif.Spec.RuleLine
/-
Vocabulary for the constructs of make that the code does not implement.
-/
namespace Hastur

/-- Reading the line never succeeds, with any budget: it aborts, runs forever, or reports an error. -/
def Rejects (fs : Fs) (i : Span) (p : PState) (st : St) : Prop :=
  ∀ n j p' st', parseLine fs (recF fs n) p st i ≠ .ok (.done j (), p', st')

/-- The line is not an assignment. -/
def NoAssign (line : List LChar) : Prop := ∀ name ty value, ¬ AssignText line name ty value

/-- The line consists of the modifiers `ws`, perhaps none, and then of `u`. -/
inductive Modified : (ws : List Str) → (line u : List LChar) → Prop
  | nil {u : List LChar} : Modified [] u u
  | cons {ws : List Str} {kw gap line u : List LChar} :
      (textOf kw).map lower ∈ ["export".toList, "override".toList, "private".toList] → Blanks gap →
      (∀ x, line.head? = some x → ¬ (x.1 = ' ' ∨ x.1 = '\t')) → NoAssign (kw ++ (gap ++ line)) → Modified ws line u →
      Modified ((textOf kw).map lower :: ws) (kw ++ (gap ++ line)) u

/-- The line is an assignment or the first line of a definition, or it is the `undefine` of a variable; `ws` are the
modifiers in front, and `undefine`.  Expressions that have to be parsed have to be well-formed. -/
inductive VariableText : (ws : List Str) → (line : List LChar) → Prop
  | assign {ws : List Str} {line u name value : List LChar} {ty : AssignType} {nes ves : List Expr} :
      Modified ws line u → AssignText u name ty value → Reads name (.ok nes) → Reads value (.ok ves) → VariableText ws line
  | define {ws : List Str} {line kw u : List LChar} : Modified ws line (kw ++ u) → NoAssign (kw ++ u) →
      (textOf kw).map lower = "define".toList →
      (∀ name ty value, AssignText (u.dropWhile lblank) name ty value → ∃ es, Reads name (.ok es)) → VariableText ws line
  | undefine {ws : List Str} {line kw u : List LChar} : Modified ws line (kw ++ u) → NoAssign (kw ++ u) →
      (textOf kw).map lower = "undefine".toList → VariableText ("undefine".toList :: ws) line

/-- Conditionals (without leading blanks) that are not implemented: `ifdef`, `ifndef`, and `else` followed by something. -/
inductive UnsupportedCond : (line : List LChar) → Prop
  | ifdef {kw u : List LChar} : (textOf kw).map lower = "ifdef".toList → UnsupportedCond (kw ++ u)
  | ifndef {kw u : List LChar} : (textOf kw).map lower = "ifndef".toList → UnsupportedCond (kw ++ u)
  | elseIf {kw u : List LChar} {x : LChar} : (textOf kw).map lower = "else".toList → x ∈ u → ¬ (x.1 = ' ' ∨ x.1 = '\t') →
      UnsupportedCond (kw ++ u)

/-- Other lines (without leading blanks) that are not implemented: variables with modifiers, `undefine`, and the
directives `export`, `unexport`, `vpath`, `load` and `-load`. -/
inductive UnsupportedLine : (line : List LChar) → Prop
  | var {ws : List Str} {line : List LChar} : VariableText ws line → ws ≠ [] → UnsupportedLine line
  | directive {kw u : List LChar} : ¬ VarLike (kw ++ u) →
      (textOf kw).map lower ∈ ["export".toList, "unexport".toList, "vpath".toList, "load".toList, "-load".toList] →
      UnsupportedLine (kw ++ u)

/-- Lines that begin with targets and are not implemented: target-specific variables and static pattern rules. -/
inductive UnsupportedTarget (env : Env) : (line : List LChar) → Prop
  | var {ts cs ds tt : List LChar} {double : Bool} {vs ws : List Str} : TargetsExpand env ts tt vs →
      textOf cs = (if double then "::".toList else ":".toList) → (textOf ds).head? ∉ [some ':', some '='] →
      (∀ x ∈ ds, x.1 ∉ [';', '#', '\\']) → VariableText ws (ds.dropWhile lblank) →
      UnsupportedTarget env (ts ++ (cs ++ ds))
  | pattern {ts cs ds tt dt : List LChar} {double : Bool} {vs us : List Str} {des : List Expr} : TargetsExpand env ts tt vs →
      textOf cs = (if double then "::".toList else ":".toList) → (textOf ds).head? ∉ [some ':', some '='] →
      (∀ x ∈ ds, x.1 ∉ [';', '#', '\\']) → ¬ VarLike (ds.dropWhile lblank) → Reads ds (.ok des) → Expands env des dt us →
      ':' ∈ textOf dt → (∀ x ∈ dt, x.1 ∉ [';', '\\']) → UnsupportedTarget env (ts ++ (cs ++ ds))

/-- The expression calls `$(strip ...)`, `$(word ...)` or `$(words ...)`: at the top, inside the name of a reference, or
inside the argument of `$(eval ...)`. -/
inductive CallsFunction : List Expr → Prop
  | strip {l : Location} {a es : List Expr} : .strip l a ∈ es → CallsFunction es
  | word {l : Location} {i w es : List Expr} : .word l i w ∈ es → CallsFunction es
  | words {l : Location} {a es : List Expr} : .words l a ∈ es → CallsFunction es
  | name {l : Location} {name es : List Expr} : .ref l name ∈ es → CallsFunction name → CallsFunction es
  | eval {l : Location} {a es : List Expr} : .eval l a ∈ es → CallsFunction a → CallsFunction es

/-- The functions of GNU make, other than `eval`. -/
def gnuFunctions : List Str :=
  ["subst", "patsubst", "strip", "findstring", "filter", "filter-out", "sort", "word", "wordlist", "words", "firstword",
    "lastword", "dir", "notdir", "suffix", "basename", "addsuffix", "addprefix", "join", "wildcard", "realpath", "abspath",
    "if", "or", "and", "foreach", "call", "value", "origin", "flavor", "shell", "error", "warning", "info"].map (·.toList)

end Hastur
