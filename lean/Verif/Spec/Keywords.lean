import Verif.Spec.RuleLine
/-
Vocabulary for names that begin with a keyword.
-/
namespace Hastur

/-- A character of an ordinary name. -/
def IdentChar (c : Char) : Prop := c.isAlphanum = true ∨ c ∈ ['_', '.', '-', '/']

/-- An ordinary name. -/
def IdentName (name : List LChar) : Prop := name ≠ [] ∧ ∀ x ∈ name, IdentChar x.1

/-- All keywords a line can begin with. -/
def keywords : List Str :=
  condWords ++ ["define".toList, "endef".toList, "undefine".toList, "override".toList, "private".toList] ++ directiveWords

/-- Keywords of conditionals that are recognised by their first letters alone. -/
def greedyConds : List Str := ["ifdef".toList, "ifndef".toList, "else".toList, "endif".toList]

/-- The word (in lower case) begins with no keyword other than `ifeq`, `ifneq`, `endef`, or, followed by another such
word, `override` and `private`. -/
inductive PlainStart : Str → Prop
  | plain {s : Str} :
      (∀ w ∈ greedyConds ++ ["define".toList, "undefine".toList, "override".toList, "private".toList] ++ directiveWords,
        ¬ w <+: s) → PlainStart s
  | modifier {kw s : Str} : kw ∈ ["override".toList, "private".toList] → s ≠ [] → PlainStart s → PlainStart (kw ++ s)

end Hastur
