import Verif.Spec.RuleLine
import Verif.Spec.EscapedRule
import Verif.Spec.NoTargets
import Verif.Spec.Conditional
import Verif.Spec.Define
/-
Specification of recipe lines, of the table of rules, and of what a whole makefile of assignments, definitions,
conditionals, rules and recipes means.
-/
namespace Hastur

/-- The text begins with a recipe line, marked by the character `c` at its start; `line` is its text without the marker
and `rest` follows.  A line that ends in an odd number of backslashes is continued by the next one if that is marked
too; the line break stays in the text, the marker of the next line does not. -/
inductive RecipeText (c : Char) : (t line rest : List LChar) → Prop
  | last {l : Location} {line tail rest : List LChar} : Free '\n' line → trailingSlashes (textOf line) % 2 = 0 →
      EndsLine tail rest → RecipeText c ((c, l) :: (line ++ tail)) line rest
  | stop {l : Location} {line tail rest : List LChar} : Free '\n' line → trailingSlashes (textOf line) % 2 = 1 →
      EndsLine tail rest → (textOf rest).head? ≠ some c →
      RecipeText c ((c, l) :: (line ++ tail)) (line ++ [('\n', .synthetic)]) rest
  | more {l : Location} {line tail next line' rest : List LChar} : Free '\n' line →
      trailingSlashes (textOf line) % 2 = 1 → EndsLine tail next → RecipeText c next line' rest →
      RecipeText c ((c, l) :: (line ++ tail)) (line ++ ('\n', .synthetic) :: line') rest

/-! ### The table of rules -/

/-- What is known about a target: the names of its dependencies, its commands, and whether it was written with one or
two colons. -/
structure RuleView where
  deps : List (List LChar)
  recipe : List (List Expr)
  ty : RuleType

/-- The rules by target. -/
abbrev Rules := Str → Option RuleView

/-- A rule under construction. -/
structure OpenRule where
  targets : List (List LChar)
  deps : List (List LChar)
  recipe : List (List Expr)
  ty : RuleType

/-- A rule with commands replaces what is known about the target; one without commands adds its dependencies. -/
def OpenRule.merge (o : OpenRule) (old : Option RuleView) : RuleView :=
  match o.recipe, old with
  | [], some v => { v with deps := v.deps ++ o.deps }
  | rs, _ => ⟨o.deps, rs, o.ty⟩

/-- The rules after one of them has been completed: it is filed under each of its targets. -/
def Rules.file (r : Rules) (o : OpenRule) : Rules :=
  o.targets.foldl (fun r t s => if s = textOf t then some (o.merge (r s)) else r s) r

/-- The rules of an engine state: the target's name is looked up in the name cache, the rule in the database. -/
def St.ruleTable (st : St) : Rules := fun s => ((st.names.fileName s).bind st.db.getRule).map fun r =>
  ⟨r.deps.map Block.ltext, r.recipe.map Ast.flat, r.ruleType⟩

/-- Every rule of the database is filed under a known file name, and no name is interned twice. -/
structure RulesKnown (db : Database) (names : NameCache) : Prop where
  nodup : names.files.strings.Nodup ∧ names.vars.strings.Nodup
  known : ∀ f r, db.getRule f = some r → ∃ s, names.resolveFile f = some s

/-! ### Makefiles -/

/-- What a makefile has defined so far: the variables, the completed rules, the open conditionals (the innermost is the
last one), and the rule to which recipe lines are added. -/
structure MakeState where
  vars : Vars
  rules : Rules
  branches : List Branch
  current : Option OpenRule

/-- The current rule is complete. -/
def MakeState.close (m : MakeState) : MakeState :=
  match m.current with
  | some o => { m with rules := m.rules.file o, current := none }
  | none => m

/-- The first line of the text `t` leads from one state of affairs to another, and `rest` follows it.  `c` marks recipe
lines.  A line that is no conditional takes effect if all open conditionals are in their taken branch.  `ok` restricts
which conditionals may be closed. -/
inductive LineMeans (c : Char) (ok : List Branch → Branch → Prop) :
    MakeState → (t rest : List LChar) → MakeState → Prop
  /-- an empty line -/
  | blank {m : MakeState} {t rest : List LChar} : t ≠ [] → Logical t [] rest →
      (m.current = none ∨ (textOf t).head? ≠ some c) → LineMeans c ok m t rest m
  /-- `name op value` -/
  | assign {m : MakeState} {v : Vars} {t line rest name value : List LChar} {ty : AssignType} {nes ves : List Expr} :
      AllTaken m.branches → (m.current = none ∨ (textOf t).head? ≠ some c) → Logical t line rest →
      AssignText line name ty value → ¬ CondLike (line.dropWhile lblank) → Reads name (.ok nes) →
      Reads value (.ok ves) → (ty = .simple → value ≠ []) → VarRun m.vars [⟨nes, ty, ves⟩] v →
      LineMeans c ok m t rest { m.close with vars := v }
  /-- `targets : dependencies` or `targets :: dependencies`, possibly followed by `; command` -/
  | rule {m : MakeState} {t line rest ts after ds tt dt : List LChar} {double : Bool} {command : Option (List LChar)}
      {vs us : List Str} {des : List Expr} {recipe : List (List Expr)} :
      AllTaken m.branches → (m.current = none ∨ (textOf t).head? ≠ some c) → Physical t line rest →
      (textOf line).head? ≠ some c → ¬ CondLike line → ¬ VarLike line → ¬ DirectiveLike line →
      RuleText line ts double after ds command → ¬ VarLike (after.dropWhile lblank) →
      TargetsExpand m.vars.env ts tt vs → Reads ds (.ok des) → Expands m.vars.env des dt us → FileNames dt →
      CommandReads command recipe →
      LineMeans c ok m t rest { m.close with
        current := some ⟨wordsOf tt, wordsOf dt, recipe, if double then .doubleColon else .standard⟩ }
  /-- a rule whose names contain escaped characters, and no references -/
  | escapedRule {m : MakeState} {t line rest ts after ds : List LChar} {double : Bool} {command : Option (List LChar)}
      {tns dns : List (List LChar)} {recipe : List (List Expr)} :
      AllTaken m.branches → (m.current = none ∨ (textOf t).head? ≠ some c) → Physical t line rest →
      (textOf line).head? ≠ some c → ¬ CondLike line → ¬ VarLike line → ¬ DirectiveLike line →
      EscapedRuleText line ts double after ds command → ¬ VarLike (after.dropWhile lblank) →
      EscapedTargets ts tns → NamesIn (separates [':']) (lastName (separates [':'])) ds dns → CommandReads command recipe →
      LineMeans c ok m t rest { m.close with
        current := some ⟨tns, dns, recipe, if double then .doubleColon else .standard⟩ }
  /-- a rule that goes over several physical lines; the first one, `k`, contains the beginning of the dependencies
  (otherwise the parser aborts, see C63) -/
  | continuedRule {m : MakeState} {k : Continued} {t line rest ts cs ds : List LChar} {double : Bool}
      {ws us : List (List LChar)} :
      AllTaken m.branches → (m.current = none ∨ (textOf (k.line ++ t)).head? ≠ some c) → Logical (k.line ++ t) line rest →
      k.OK → (ts ++ cs).length < k.body.length → (textOf line).head? ≠ some c → ¬ CondLike line → ¬ VarLike line →
      ¬ DirectiveLike line → line = ts ++ (cs ++ ds) → WordList ts ws →
      textOf cs = (if double then "::".toList else ":".toList) → WordList0 ds us → ¬ VarLike (ds.dropWhile lblank) →
      LineMeans c ok m (k.line ++ t) rest { m.close with
        current := some ⟨ws, us, [], if double then .doubleColon else .standard⟩ }
  /-- a rule without targets: make ignores it -/
  | noTargets {m : MakeState} {t line rest : List LChar} :
      AllTaken m.branches → (m.current = none ∨ (textOf t).head? ≠ some c) → Physical t line rest →
      (textOf line).head? ≠ some c → NoTargets line → LineMeans c ok m t rest m.close
  /-- a command of the current rule -/
  | recipe {m : MakeState} {o : OpenRule} {t line rest : List LChar} {es : List Expr} : m.current = some o →
      AllTaken m.branches → RecipeText c t line rest → Reads line (.ok es) →
      LineMeans c ok m t rest { m with current := some { o with recipe := o.recipe ++ [es] } }
  /-- a line in a branch that is not taken -/
  | skip {m : MakeState} {t line rest : List LChar} : ¬ AllTaken m.branches → Logical t line rest → line ≠ [] →
      (m.current = none ∨ (textOf t).head? ≠ some c) → ¬ CondLike (line.dropWhile lblank) → LineMeans c ok m t rest m
  /-- `ifeq` and `ifneq` -/
  | test {m : MakeState} {t line rest x y : List LChar} {inverted : Bool} {as bs : List Expr} {xs ys : List Str} :
      (m.current = none ∨ (textOf t).head? ≠ some c) → Logical t line rest →
      CondText (line.dropWhile lblank) (.test inverted as bs) → Expands m.vars.env as x xs → Expands m.vars.env bs y ys →
      LineMeans c ok m t rest
        { m with branches := m.branches ++ [⟨(trim (textOf x) == trim (textOf y)) != inverted, false⟩] }
  | else_ {m : MakeState} {bs : List Branch} {e : Bool} {t line rest : List LChar} :
      (m.current = none ∨ (textOf t).head? ≠ some c) → Logical t line rest → CondText (line.dropWhile lblank) .else_ →
      m.branches = bs ++ [⟨e, false⟩] → LineMeans c ok m t rest { m with branches := bs ++ [⟨!e, true⟩] }
  | endif {m : MakeState} {bs : List Branch} {b : Branch} {t line rest : List LChar} :
      (m.current = none ∨ (textOf t).head? ≠ some c) → Logical t line rest → CondText (line.dropWhile lblank) .endif →
      m.branches = bs ++ [b] → ok bs b → LineMeans c ok m t rest { m with branches := bs }

/-- What a definition of the variable `s` makes of the variables: `=` (or no operator) stores the content, `?=` defines an
undefined variable, and `+=` adds a space and the content; to a simple variable only a text is added. -/
inductive DefineSets (v : Vars) (s : Str) : AssignType → (es : List Expr) → Vars → Prop
  | recursive {es : List Expr} : DefineSets v s .recursive es (v.set s .recursive es)
  | conditional {es : List Expr} : v s = none → DefineSets v s .conditional es (v.set s .conditional es)
  | appendNew {es : List Expr} : v s = none → DefineSets v s .append es (v.set s .recursive es)
  | append {es old : List Expr} {f : Flavor} : v s = some (f, old) → (f = .simple → ∃ t, es = Expr.text t) →
      DefineSets v s .append es (v.set s f (old ++ .char (' ', .synthetic) :: es))

/-- The text `t` of a makefile leads from one state of affairs to another. -/
inductive Makes (c : Char) (ok : List Branch → Branch → Prop) : MakeState → (t : List LChar) → MakeState → Prop
  | nil {m : MakeState} : Makes c ok m [] m
  | cons {m m1 m' : MakeState} {t rest : List LChar} : LineMeans c ok m t rest m1 → Makes c ok m1 rest m' → Makes c ok m t m'
  /-- a definition of a variable by several lines -/
  | define {m m' : MakeState} {t line body rest : List LChar} {s : Str} {ty : AssignType} {es : List Expr} {v : Vars} :
      AllTaken m.branches → (m.current = none ∨ (textOf t).head? ≠ some c) → Logical t line body →
      DefineHead m.vars.env line s ty → DefineBody Begins 1 body es rest → DefineSets m.vars s ty es v →
      Makes c ok { m.close with vars := v } rest m' → Makes c ok m t m'

end Hastur
