import Verif.Model.Engine
import Verif.Spec.Text
/-
Specification for the termination of parsing (C60).
-/
namespace Hastur

/-- A place in a text as the program keeps it: either nothing is left, or the offset lies inside the first piece. -/
def Span.Norm (s : Span) : Prop := s.length = 0 ∨ ∃ c cs, s.contents = c :: cs ∧ s.offset < c.length

/-- The recursive calls, for evaluating an expression and for processing a text (one without empty pieces, as every
block of the program is), return; and the value of the empty expression, if there is one, is empty. -/
structure Rec.Ends (r : Rec) : Prop where
  eval : ∀ (a : Ast) (st : St), r.evalInternal a st ≠ .fuel
  process : ∀ (b : Block) (st : St), b.Solid → r.processBlock b st ≠ .fuel
  empty : ∀ (l : Location) (st : St) (x : (Sens × List CRef) × St), r.evalInternal (.empty l) st = .ok x → x.1.2 = []

/-- The engine with a limit on how deep evaluations, `$(eval)` and `include` may nest, where exceeding the limit aborts
the program (as running out of stack does). -/
def limited (fs : Fs) : Nat → Rec
  | 0 => ⟨fun _ _ => .panic .explicit, fun _ _ => .panic .explicit⟩
  | n + 1 => ⟨evalStep (limited fs n), processStep fs (limited fs n)⟩

end Hastur
