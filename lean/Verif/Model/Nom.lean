import Verif.Model.Span
/-
Model of the nom 4.2 combinators the parsers use, over `Span`.

nom itself is a dependency whose source is not in the repository; these definitions state what the
model assumes about it (see DESIGN.md, trusted base).  `BlockSpan::at_eof` is always true
(src/evaluated/nom/mod.rs lines 48-52), so nom never reports `Incomplete` on a span: every place
where it would report one, it reports a recoverable `Error` instead.
-/
namespace Hastur

/-- `ParseErrorKind` (src/lib.rs lines 58-126).  Simplified: `IncludeFailure` carries the file name
only, `NomError` and the codes of nom are merged into `NErrKind.code`. -/
inductive ParseErrorKind
  | extraTokensAfter (what : Str)
  | unattachedElse
  | unattachedEndIf
  | tooManyElses
  | commentExpected
  | noRuleRecipe
  | missingSeparator
  | recipeExpected
  | conditionalExpected
  | badIfEqSeparator
  | malformedIfDef
  | malformedIfEq
  | unterminatedVariable
  | insufficientArguments (fn : Str)
  | extraArguments (fn : Str)
  | includeFailure (file : Str)
  | internalFailure (what : Str)
  deriving DecidableEq, Repr

/-- The first entry of a nom error context, as `Context::into_error_kind` reports it. (src/parsers/mod.rs line
144.) -/
inductive NErrKind
  /-- an error code of a nom combinator -/
  | code
  | custom (k : ParseErrorKind)
  deriving DecidableEq, Repr

/-- `nom::Err` without `Incomplete`.  Simplified: only the first error kind of the context is kept;
the input positions stored in the context are dropped. (The type is used in src/parsers/error_utils.rs lines
25-30.) -/
inductive NErr
  | error (k : NErrKind)
  | failure (k : NErrKind)
  deriving DecidableEq, Repr

/-- `nom::IResult<BlockSpan, α, ParseErrorKind>`. (E.g. src/parsers/comment.rs line 9.) -/
inductive IRes (α : Type) where
  | done (rest : Span) (a : α)
  | err (e : NErr)

/-- Result of running a parser: it can also panic. -/
notation "PRes " α:max => Res (IRes α)

namespace Res

/-- Sequencing with `?`. (E.g. src/parsers/variable/mod.rs line 411.) -/
def andThen {α β : Type} (p : PRes α) (f : Span → α → PRes β) : PRes β :=
  p >>= fun
    | .done i a => f i a
    | .err e => .ok (.err e)

/-- `Ok((i, a))` (e.g. src/parsers/variable/mod.rs lines 376-425) -/
def done {α : Type} (i : Span) (a : α) : PRes α := .ok (.done i a)

/-- `error_out` (src/parsers/mod.rs lines 608-617). -/
def errorOut {α : Type} (k : ParseErrorKind) : PRes α := .ok (.err (.error (.custom k)))

/-- `fail_out` (src/parsers/mod.rs lines 619-628). -/
def failOut {α : Type} (k : ParseErrorKind) : PRes α := .ok (.err (.failure (.custom k)))

/-- A recoverable error of a nom combinator. (Nom; caught e.g. in src/parsers/directives/mod.rs line 99.) -/
def codeError {α : Type} : PRes α := .ok (.err (.error .code))

/-- `alt!`: try the second parser when the first reports a recoverable error. (E.g. src/parsers/directives/mod.rs
line 99.) -/
def orElse {α : Type} (p q : PRes α) : PRes α :=
  p >>= fun
    | .err (.error _) => q
    | r => .ok r

/-- Mapping the output of a parser. (E.g. src/parsers/ast/mod.rs line 28.) -/
def mapP {α β : Type} (f : α → β) (p : PRes α) : PRes β := andThen p fun i a => done i (f a)

/-- `return_error!`: recoverable errors become failures (the first kind is kept). (E.g. src/parsers/comment.rs
line 13.) -/
def returnError {α : Type} (p : PRes α) : PRes α :=
  p >>= fun
    | .err (.error k) => .ok (.err (.failure k))
    | r => .ok r

end Res

open Res

namespace Nom

/-- `tag!` (e.g. src/parsers/targets/mod.rs lines 425-426) -/
def tag (t : Str) (i : Span) : PRes Span := do
  match ← i.compare t with
  | .ok => do
    let (rest, pre) ← i.takeSplit (blen t)
    done rest pre
  | _ => codeError

/-- `tag_no_case!` (e.g. src/parsers/directives/mod.rs lines 100-102) -/
def tagNoCase (t : Str) (i : Span) : PRes Span := do
  match ← i.compareNoCase t with
  | .ok => do
    let (rest, pre) ← i.takeSplit (blen t)
    done rest pre
  | _ => codeError

/-- First character of a span: `iter_elements().next()` (e.g. src/parsers/targets/mod.rs line 592) -/
def firstChar (i : Span) : Res (Option Char) :=
  match i.chars with
  | ⟨c :: _, _⟩ => .ok (some c)
  | ⟨[], true⟩ => .panic .underflow
  | ⟨[], false⟩ => .ok none

/-- `char!` (e.g. src/parsers/comment.rs line 15) -/
def char (c : Char) (i : Span) : PRes Unit := do
  match ← firstChar i with
  | some d =>
    if d = c then do
      let rest ← i.sliceFrom c.utf8Size
      done rest ()
    else codeError
  | none => codeError

/-- `take!(n)` with `slice_index` of src/evaluated/nom/mod.rs lines 38-45. -/
def take (n : Nat) (i : Span) : PRes Span := do
  if n ≤ i.length then
    let (rest, pre) ← i.takeSplit n
    done rest pre
  else codeError

/-- `take_until!` (src/parsers/mod.rs lines 327-331) -/
def takeUntil (t : Str) (i : Span) : PRes Span := do
  match ← i.findSubstring t with
  | some idx => do
    let (rest, pre) ← i.takeSplit idx
    done rest pre
  | none => codeError

/-- `take_until_and_consume!` (src/ast/mod.rs lines 129-130) -/
def takeUntilAndConsume (t : Str) (i : Span) : PRes Span := do
  match ← i.findSubstring t with
  | some idx => do
    let rest ← i.sliceFrom (idx + blen t)
    let pre ← i.slice 0 idx
    done rest pre
  | none => codeError

/-- `eof!` (src/parsers/ast/mod.rs line 66) -/
def eof (i : Span) : PRes Unit := if i.length = 0 then done i () else codeError

/-- `nom::rest` (e.g. src/parsers/mod.rs line 341) -/
def rest (i : Span) : PRes Span := do
  let r ← i.sliceFrom i.length
  done r i

/-- `take_till!(p)` (e.g. src/parsers/mod.rs line 349) -/
def takeTill (p : Char → Bool) (i : Span) : PRes Span := do
  let (r, pre) ← i.splitAtPosition p
  done r pre

/-- `take_while!(p)` (e.g. src/parsers/variable/mod.rs line 411) -/
def takeWhile (p : Char → Bool) (i : Span) : PRes Span := takeTill (fun c => !p c) i

/-- `recognize!`: the part of the input the parser consumed. (E.g. src/parsers/variable/mod.rs lines 390-391.) -/
def recognize {α : Type} (p : Span → PRes α) (i : Span) : PRes Span :=
  (p i).andThen fun r _ => do
    let n ← i.offsetTo r
    done r (i.sliceTo n)

/-- The loop of `many1!` after the first success: stop on a recoverable error or when nothing is
consumed. (E.g. src/parsers/ast/mod.rs line 164.) -/
def many1Loop {α : Type} (p : Span → PRes α) : Nat → Span → PRes Unit
  | 0, _ => .fuel
  | n + 1, i => do
    match ← p i with
    | .err (.error _) => done i ()
    | .err (.failure k) => .ok (.err (.failure k))
    | .done i' _ => if i'.length = i.length then done i () else many1Loop p n i'

/-- `many1!` with the outputs thrown away (no caller uses them).  A success consumes at least one
byte or stops the loop, so the input length bounds the number of rounds. (E.g. src/parsers/ast/mod.rs line 164.) -/
def many1 {α : Type} (p : Span → PRes α) (i : Span) : PRes Unit := do
  match ← p i with
  | .err (.error _) => codeError
  | .err (.failure _) => .ok (.err (.failure .code))
  | .done i' _ => many1Loop p (i'.length + 1) i'

/-- `BlockSpan` equality for two spans of the same parent (derived, src/evaluated/block_span.rs line 6). -/
def sameSpan (a b : Span) : Bool := a.start == b.start && a.offset == b.offset && a.length == b.length

/-- The loop of `many0!`: stop on a recoverable error or when the input is unchanged
(`at_eof` is true, so that is a success). (src/parsers/ast/mod.rs line 188.) -/
def many0Loop {α : Type} (p : Span → PRes α) : Nat → Span → PRes Unit
  | 0, _ => .fuel
  | n + 1, i => do
    match ← p i with
    | .err (.error _) => done i ()
    | .err (.failure k) => .ok (.err (.failure k))
    | .done i' _ => if sameSpan i' i then done i () else many0Loop p n i'

/-- `many0!` with the outputs thrown away.  Used for whitespace only, where the third round at the
latest sees an unchanged input. (src/parsers/ast/mod.rs line 188.) -/
def many0 {α : Type} (p : Span → PRes α) (i : Span) : PRes Unit := many0Loop p (i.length + 3) i

end Nom
end Hastur
