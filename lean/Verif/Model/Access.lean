import Verif.Model.Span
/-
Model of the functions on spans, references and errors that the parsers do not use themselves, or whose result the engine
discards.
-/
namespace Hastur

namespace Span

/-- `InputIter::position` (src/evaluated/nom/mod.rs lines 30-36): the number of characters before the first one that
satisfies the predicate. -/
def position (s : Span) (p : Char → Bool) : Res (Option Nat) :=
  match s.chars.items.findIdx? p with
  | some n => .ok (some n)
  | none => if s.chars.crash then .panic .underflow else .ok none

/-- `InputTake::take` (src/evaluated/nom/mod.rs lines 130-134). -/
def take (s : Span) (count : Nat) : Res Span := do
  rassert (count ≤ s.length)
  return s.sliceTo count

/-- `split_at_position1` (src/evaluated/nom/mod.rs lines 105-126): (rest, prefix), or `none` for the error passed to it. -/
def splitAtPosition1 (s : Span) (p : Char → Bool) : Res (Option (Span × Span)) := do
  match ← s.findChar p with
  | some (0, _) => return none
  | some (i, _) =>
    let fst ← s.sliceFrom i
    return some (fst, s.sliceTo i)
  | none => if s.length = 0 then return none else return some (s.emptyAtEnd, s)

end Span

/-- `ContentReference::char_indices` and `ContentReferenceIndexIter::next`
(src/evaluated/content_reference.rs lines 78-85 and 157-178). -/
def CRef.charIndices (c : CRef) : Res (List (Nat × Char)) := do
  let t ← (CRef.chars c).all
  return Span.withIndices 0 t

/-! ### Errors with positions -/

/-- nom's `Context` with verbose errors: positions and kinds. (src/parsers/error_utils.rs lines 13-24 and 44-58
take it apart.) -/
inductive ErrContext (ι ε : Type)
  | code (i : ι) (e : ε)
  | list (v : List (ι × ε))
  deriving Repr

/-- nom's `Err`. (src/parsers/error_utils.rs lines 25-30 take it apart.) -/
inductive VErr (ι ε : Type)
  | incomplete
  | error (c : ErrContext ι ε)
  | failure (c : ErrContext ι ε)
  deriving Repr

/-- `map_context!` (src/parsers/error_utils.rs lines 13-24). -/
def ErrContext.inject {ι κ ε : Type} (loc : κ) : ErrContext ι ε → ErrContext κ ε
  | .code _ e => .code loc e
  | .list v => .list (v.map fun x => (loc, x.2))

/-- `lift_collapsed_span_error` (src/parsers/error_utils.rs lines 4-30). -/
def VErr.lift {ι κ ε : Type} (loc : κ) : VErr ι ε → VErr κ ε
  | .incomplete => .incomplete
  | .failure c => .failure (c.inject loc)
  | .error c => .error (c.inject loc)

/-- `add_error!` (src/parsers/error_utils.rs lines 44-57). -/
def ErrContext.add {ι ε : Type} (i : ι) (e : ε) : ErrContext ι ε → ErrContext ι ε
  | .list v => .list (v ++ [(i, e)])
  | .code j f => .list [(j, f), (i, e)]

/-- `add_error` (src/parsers/error_utils.rs lines 43-63). -/
def VErr.addError {ι ε : Type} (i : ι) (e : ε) : VErr ι ε → VErr ι ε
  | .incomplete => .failure (.code i e)
  | .failure c => .failure (c.add i e)
  | .error c => .error (c.add i e)

/-- `as_failure` (src/parsers/error_utils.rs lines 65-70). -/
def VErr.asFailure {ι ε : Type} : VErr ι ε → Res (VErr ι ε)
  | .incomplete => .panic .explicit
  | .failure c => .ok (.failure c)
  | .error c => .ok (.failure c)

end Hastur
