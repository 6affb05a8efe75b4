import Verif.Model.Engine
/-
The kinds of error that a line can be rejected with.
-/
namespace Hastur

/-- The kind an error carries, if it is one of the program's own kinds. -/
def NErr.kind : NErr → Option ParseErrorKind
  | .error (.custom k) => some k
  | .failure (.custom k) => some k
  | .error .code => none
  | .failure .code => none

/-- A list of kinds of errors.  Not in the list: `commentExpected`, `noRuleRecipe`, `missingSeparator`,
`conditionalExpected`, `malformedIfDef`, `malformedIfEq`, `internalFailure`, and other texts than those given here. -/
inductive Reportable : ParseErrorKind → Prop
  | extraTokensAfter {w : Str} : w ∈ ["else".toList, "endif".toList, "endef".toList] → Reportable (.extraTokensAfter w)
  | unattachedElse : Reportable .unattachedElse
  | unattachedEndIf : Reportable .unattachedEndIf
  | tooManyElses : Reportable .tooManyElses
  | recipeExpected : Reportable .recipeExpected
  | badIfEqSeparator : Reportable .badIfEqSeparator
  | unterminatedVariable : Reportable .unterminatedVariable
  | insufficientArguments : Reportable (.insufficientArguments "word".toList)
  | extraArguments {f : Str} : f ∈ ["strip".toList, "words".toList, "word".toList] → Reportable (.extraArguments f)
  | includeFailure {file : Str} : Reportable (.includeFailure file)

/-- Reading line after line, from the given place and state, a line is rejected with an error of the kind `k`. -/
inductive Reported (fs : Fs) (k : ParseErrorKind) : Span → PState → St → Prop
  | now {n : Nat} {i : Span} {p p' : PState} {st st' : St} :
      parseLine fs (recF fs n) p st i = .ok (.err (.failure (.custom k)), p', st') → Reported fs k i p st
  | later {n : Nat} {i j : Span} {p p' : PState} {st st' : St} :
      parseLine fs (recF fs n) p st i = .ok (.done j (), p', st') → Reported fs k j p' st' → Reported fs k i p st

end Hastur
