import Verif.Spec.Program
import Verif.Spec.Comment
/-
Specification of what the program makes of a text that precedes the first comment of a makefile (C69).
-/
namespace Hastur

/-- The text `t` is `line`, possibly after blanks, then what counts as comments, and then `rest`, which has no comments.  So
`line` is all that precedes the first comment, be it one line or many. -/
inductive Trailed : (t line rest : List LChar) → Prop
  | mk {blanks line u rest : List LChar} {l : Location} : Blanks blanks →
      (∀ x, line.head? = some x → ¬ (x.1 = ' ' ∨ x.1 = '\t')) → Free '#' line → trailingSlashes (textOf line) % 2 = 0 →
      Swallowed (('#', l) :: u) rest → Trailed (blanks ++ (line ++ ('#', l) :: u)) line rest

/-- What the program does with a text that begins with something and then a comment: it takes all that precedes the
comment for one line.  `rest` follows the comments, and in the case of a definition its body. -/
inductive TrailedDoes (c : Char) : MakeState → (t rest : List LChar) → MakeState → Prop
  /-- an assignment: all up to the comment is the value, line feeds included -/
  | assign {m : MakeState} {v : Vars} {t line rest name value : List LChar} {ty : AssignType} {nes ves : List Expr} :
      (m.current = none ∨ (textOf t).head? ≠ some c) → Trailed t line rest →
      AssignText line name ty value → ¬ CondLike (line.dropWhile lblank) → Reads name (.ok nes) →
      Reads value (.ok ves) → (ty = .simple → value ≠ []) → VarRun m.vars [⟨nes, ty, ves⟩] v →
      TrailedDoes c m t rest { m.close with vars := v }
  /-- a rule: only the first line counts, and what follows it up to the comment is lost, commands included -/
  | rule {m : MakeState} {t line first tail more rest ts after ds tt dt : List LChar} {double : Bool}
      {command : Option (List LChar)} {vs us : List Str} {des : List Expr} {recipe : List (List Expr)} :
      (m.current = none ∨ (textOf t).head? ≠ some c) → Trailed t line rest → line = first ++ tail → EndsLine tail more →
      Free '\n' first → trailingSlashes (textOf first) % 2 = 0 →
      (textOf line).head? ≠ some c → ¬ CondLike line → ¬ VarLike line → ¬ DirectiveLike line →
      RuleText first ts double after ds command → ¬ VarLike (after.dropWhile lblank) →
      TargetsExpand m.vars.env ts tt vs → Reads ds (.ok des) → Expands m.vars.env des dt us → FileNames dt →
      CommandReads command recipe →
      TrailedDoes c m t rest { m.close with
        current := some ⟨wordsOf tt, wordsOf dt, recipe, if double then .doubleColon else .standard⟩ }
  /-- an empty line, and what follows it up to the comment unless it makes an assignment: all of it is lost -/
  | empty {m : MakeState} {t more rest : List LChar} {l : Location} : (m.current = none ∨ (textOf t).head? ≠ some c) →
      Trailed t (('\n', l) :: more) rest → c ≠ '\n' → ¬ VarLike (('\n', l) :: more) → TrailedDoes c m t rest m.close
  /-- `ifeq` and `ifneq`: what follows the test up to the comment is lost, an `endif` included -/
  | test {m : MakeState} {t line rest x y : List LChar} {inverted : Bool} {as bs : List Expr} {xs ys : List Str} :
      (m.current = none ∨ (textOf t).head? ≠ some c) → Trailed t line rest →
      CondText (line.dropWhile lblank) (.test inverted as bs) → Expands m.vars.env as x xs → Expands m.vars.env bs y ys →
      TrailedDoes c m t rest
        { m with branches := m.branches ++ [⟨(trim (textOf x) == trim (textOf y)) != inverted, false⟩] }
  /-- `define`: what precedes the comment is the line that opens the definition, so its name has several lines when the
  comment is not on the first one, and the body follows the comments -/
  | define {m : MakeState} {v : Vars} {t line body rest : List LChar} {s : Str} {ty : AssignType} {es : List Expr} :
      (m.current = none ∨ (textOf t).head? ≠ some c) → Trailed t line body → DefineHead m.vars.env line s ty →
      DefineBody Begins 1 body es rest → DefineSets m.vars s ty es v → TrailedDoes c m t rest { m.close with vars := v }

end Hastur
