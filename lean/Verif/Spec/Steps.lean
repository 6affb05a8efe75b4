import Verif.Spec.Makefile
/-
Vocabulary for statements about reading a text line by line.
-/
namespace Hastur

/-- Reading some lines (perhaps none), one after the other: each line starts where the one before it has stopped, in the
states it has left behind. -/
inductive LineSteps (fs : Fs) (r : Rec) : Span → PState → St → Span → PState → St → Prop
  | nil {i : Span} {p : PState} {st : St} : LineSteps fs r i p st i p st
  | cons {i j k : Span} {p p1 p' : PState} {st st1 st' : St} : i.length ≠ 0 →
      parseLine fs r p st i = .ok (.done j (), p1, st1) → LineSteps fs r j p1 st1 k p' st' → LineSteps fs r i p st k p' st'

end Hastur
