import Verif.Model.Span
import Verif.Spec.Search
/-
Specification of C71: substring search on text that need not be ASCII.
-/
namespace Hastur

/-- The span shows the text `t`: iterating it yields the characters of `t`, and its length is the number of bytes of
`t`. -/
def Span.Shows (s : Span) (t : Str) : Prop := s.chars = ⟨t, false⟩ ∧ s.length = blen t

/-- The answer `r` of a search for `needle` in `text` is right: the byte index of the first occurrence, or nothing when
there is none. -/
def RightAnswer (needle text : Str) : Option Nat → Prop
  | some k => FirstAtByte needle text k
  | none => ¬ Occurs needle text

end Hastur
