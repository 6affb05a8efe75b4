import Verif.Spec.Text
/-
Specification of nested slices of a span.
-/
namespace Hastur

/-- One slicing call: `[a..]`, `[..b]` or `[a..b]`. -/
inductive SliceCall
  | «from» (a : Nat)
  | «to» (b : Nat)
  | range (a b : Nat)

/-- Make the call on a span. -/
def SliceCall.run (s : Span) : SliceCall → Res Span
  | .from a => s.sliceFrom a
  | .to b => .ok (s.sliceTo b)
  | .range a b => s.slice a b

/-- Make a sequence of calls, each on the result of the one before. -/
def SliceCall.runAll : Span → List SliceCall → Res Span
  | s, [] => .ok s
  | s, c :: cs => do
    let s ← c.run s
    SliceCall.runAll s cs

/-- The corresponding operation on a list. -/
def SliceCall.on {α : Type} (t : List α) : SliceCall → List α
  | .from a => t.drop a
  | .to b => t.take b
  | .range a b => (t.take b).drop a

/-- The corresponding sequence of operations on a list. -/
def SliceCall.onAll {α : Type} (t : List α) (cs : List SliceCall) : List α := cs.foldl (fun t c => c.on t) t

/-- The call is inside a text of the given length. -/
def SliceCall.inBounds (len : Nat) : SliceCall → Prop
  | .from a => a ≤ len
  | .to b => b ≤ len
  | .range a b => a ≤ b ∧ b ≤ len

/-- Every call of the sequence is inside the text it is made on. -/
def SliceCall.allInBounds {α : Type} : List α → List SliceCall → Prop
  | _, [] => True
  | t, c :: cs => c.inBounds t.length ∧ SliceCall.allInBounds (c.on t) cs

end Hastur
