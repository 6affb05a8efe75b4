import Verif.Spec.Unsupported
import Verif.Spec.Conditional
/-
Vocabulary for malformed conditional lines.
-/
namespace Hastur

/-- The keywords of conditionals that are implemented. -/
def condKeywords : List Str := ["ifeq".toList, "ifneq".toList, "else".toList, "endif".toList]

/-- The line (without leading blanks) begins with the keyword of a conditional, as a word of its own. -/
inductive CondWord : (line : List LChar) → Prop
  | mk {kw u : List LChar} : (textOf kw).map lower ∈ condKeywords →
      (∀ x, u.head? = some x → x.1 ∈ [' ', '\t', '(', '"', '\'']) → CondWord (kw ++ u)

/-- Malformed conditionals (without leading blanks): text after `else` that does not begin a conditional, text after
`endif`, and tests of which an argument is no well-formed expression. -/
inductive BadCond : (line : List LChar) → Prop
  | afterElse {kw u : List LChar} {x : LChar} : (textOf kw).map lower = "else".toList → x ∈ u →
      ¬ (x.1 = ' ' ∨ x.1 = '\t') → BadCond (kw ++ u)
  | afterEndif {kw u : List LChar} {x : LChar} : (textOf kw).map lower = "endif".toList → x ∈ u →
      ¬ (x.1 = ' ' ∨ x.1 = '\t') → BadCond (kw ++ u)
  | first {kw gap args a b : List LChar} {k : ParseErrorKind} :
      (textOf kw).map lower ∈ ["ifeq".toList, "ifneq".toList] → Blanks gap → EqArgs args a b → Reads a (.error k) →
      BadCond (kw ++ (gap ++ args))
  | second {kw gap args a b : List LChar} {as : List Expr} {k : ParseErrorKind} :
      (textOf kw).map lower ∈ ["ifeq".toList, "ifneq".toList] → Blanks gap → EqArgs args a b → Reads a (.ok as) →
      Reads b (.error k) → BadCond (kw ++ (gap ++ args))

/-- What follows `ifeq` or `ifneq` (and blanks) does not give two arguments: it begins neither with a parenthesis nor with a
quote, or an argument is not closed, or the second argument is not in quotes. -/
inductive Unclosed : (args : List LChar) → Prop
  | nothing {args : List LChar} : (textOf args).head? ∉ [some '(', some '"', some '\''] → Unclosed args
  | noComma {l : Location} {a : List LChar} : Free ',' a → Unclosed (('(', l) :: a)
  | noParen {l l' : Location} {a b : List LChar} {as : List Expr} : NoTopComma a → Reads a (.ok as) → Free ')' b →
      Unclosed (('(', l) :: (a ++ (',', l') :: b))
  | noQuote {l : Location} {q : Char} {a : List LChar} : q = '"' ∨ q = '\'' → Free q a → Unclosed ((q, l) :: a)
  | noSecond {l l' : Location} {q : Char} {a gap u : List LChar} {as : List Expr} : q = '"' ∨ q = '\'' → Free q a →
      Reads a (.ok as) → Blanks gap → (∀ x, u.head? = some x → x.1 ∉ [' ', '\t', '"', '\'']) →
      Unclosed ((q, l) :: (a ++ (q, l') :: (gap ++ u)))
  | noQuote2 {l l' l'' : Location} {q q' : Char} {a gap b : List LChar} {as : List Expr} : q = '"' ∨ q = '\'' → Free q a →
      Reads a (.ok as) → Blanks gap → q' = '"' ∨ q' = '\'' → Free q' b →
      Unclosed ((q, l) :: (a ++ (q, l') :: (gap ++ (q', l'') :: b)))

/-- The line (without leading blanks) is a test without two arguments. -/
inductive UnclosedTest : (line : List LChar) → Prop
  | mk {kw gap args : List LChar} : (textOf kw).map lower ∈ ["ifeq".toList, "ifneq".toList] → Blanks gap →
      (∀ x, args.head? = some x → ¬ (x.1 = ' ' ∨ x.1 = '\t')) → Unclosed args → UnclosedTest (kw ++ (gap ++ args))

end Hastur
