import Verif.Model.Evaluated
/-
Model of src/evaluated/block_span.rs and of the nom traits in src/evaluated/nom/mod.rs.
-/
namespace Hastur

/-- `BlockSpan` (src/evaluated/block_span.rs lines 5-17).  The slice `contents` is always a suffix
of the parent's content, so it is represented by the index of its first element; comparing the
pointers of two such slices is comparing these indices. -/
structure Span where
  parent : Block
  start : Nat
  offset : Nat
  length : Nat

/-- `Block::span` (src/evaluated/mod.rs lines 70-79). -/
def Block.span (b : Block) : Span := ⟨b, 0, 0, b.len⟩

namespace Span

/-- The `contents` field (src/evaluated/block_span.rs line 11). -/
def contents (s : Span) : List CRef := s.parent.content.drop s.start

/-- `BlockSpan::empty` (src/evaluated/block_span.rs lines 20-27). -/
def empty : Span := ⟨Block.empty, 0, 0, 0⟩

/-- `BlockSpan::empty_with_parent(parent, &contents[contents.len()..])`
(src/evaluated/block_span.rs lines 29-42 as called in src/evaluated/nom/mod.rs line 99). -/
def emptyAtEnd (s : Span) : Span := ⟨s.parent, s.parent.content.length, 0, 0⟩

/-- `BlockSpan::len` (src/evaluated/block_span.rs lines 63-66). -/
def len (s : Span) : Nat := s.length

/-- The loop of `revalidate_offset` (src/evaluated/block_span.rs lines 50-55). -/
def revalLoop : List CRef → (start offset : Nat) → Res (Nat × Nat)
  | [], _, _ => .panic .index
  | c :: cs, start, offset =>
    if c.length ≤ offset then revalLoop cs (start + 1) (offset - c.length)
    else .ok (start, offset)

/-- `revalidate_offset` (src/evaluated/block_span.rs lines 44-56). -/
def revalidate (s : Span) : Res Span :=
  if s.length = 0 then .ok s
  else do
    let (start, offset) ← revalLoop s.contents s.start s.offset
    return { s with start := start, offset := offset }

/-- `Iter::new` and `Iter::next` (src/evaluated/block_span.rs lines 156-205): all characters. -/
def chars (s : Span) : CStream :=
  match s.contents with
  | [] => limitBytes s.length [] false
  | c :: cs =>
    let st := ((CRef.chars c).skip s.offset).append (CRef.charsList cs)
    limitBytes s.length st.items st.crash

/-- Attach byte indices to characters: `IndexIter` (src/evaluated/block_span.rs lines 207-234). -/
def withIndices : Nat → List Char → List (Nat × Char)
  | _, [] => []
  | n, c :: cs => (n, c) :: withIndices (n + c.utf8Size) cs

/-- `BlockSpan::into_string` (src/evaluated/block_span.rs lines 68-80). -/
def intoString (s : Span) : Res Str :=
  if s.length = 0 then .ok [] else s.chars.all

/-- `BlockSpan::segments` (src/evaluated/block_span.rs lines 98-101, 245-303). -/
def segments (s : Span) : SStream :=
  let st := CRef.segmentsList s.contents
  spanSegs s.offset s.length st.items st.crash

/-- `segments().next()` (src/evaluated/block_span.rs line 85) -/
def firstSegment (s : Span) : Res (Option LStr) :=
  match s.segments with
  | ⟨t :: _, _⟩ => .ok (some t)
  | ⟨[], true⟩ => .panic .assertion
  | ⟨[], false⟩ => .ok none

/-- `segments().collect()` (the iterator of src/evaluated/block_span.rs line 99) -/
def allSegments (s : Span) : Res (List LStr) :=
  let st := s.segments
  if st.crash then .panic .assertion else .ok st.items

/-- `BlockSpan::location` (src/evaluated/block_span.rs lines 82-86). -/
def location (s : Span) : Res (Option Location) := do
  let t ← s.firstSegment
  return t.map (·.loc)

/-- The copying loop shared by `to_new_block` (src/evaluated/block_span.rs lines 119-130) and
`push_all_contents` (src/evaluated/mod.rs lines 117-128). -/
def collectRefs (toPush : CRef) (rest : List CRef) (remaining : Nat) : Res (List CRef) :=
  if toPush.length < remaining then
    match rest with
    | [] => .panic .unwrap
    | r :: rs => (toPush :: ·) <$> collectRefs r rs (remaining - toPush.length)
  else .ok [{ toPush with length := remaining }]

/-- The references a (non-empty) span covers: asserts and first step of `to_new_block`
(src/evaluated/block_span.rs lines 109-130) and `push_all_contents` (src/evaluated/mod.rs lines 107-128). -/
def coveredRefs (s : Span) : Res (List CRef) :=
  match s.contents with
  | [] => .panic .assertion
  | c :: cs => do
    rassert (s.offset < c.length)
    collectRefs { c with offset := c.offset + s.offset, length := c.length - s.offset } cs s.length

/-- `BlockSpan::to_new_block` (src/evaluated/block_span.rs lines 103-133). -/
def toNewBlock (s : Span) : Res Block :=
  if s.length = 0 then .ok Block.empty
  else do
    let nodes ← s.coveredRefs
    Block.new s.parent.sens nodes

/-- `BlockSpan::to_content_reference` (src/evaluated/block_span.rs lines 135-138). -/
def toContentReference (s : Span) : Res CRef := do
  let b ← s.toNewBlock
  return CRef.ofNode (.concat b)

end Span

/-- `Block::push_all_contents` (src/evaluated/mod.rs lines 101-140).  The pointer test of line 135 is
always true: `self` is borrowed mutably, so it cannot be the parent of the (immutably borrowed) span. -/
def Block.pushAll (b : Block) (s : Span) : Res Block :=
  if s.length = 0 then .ok b
  else do
    let nodes ← s.coveredRefs
    return ⟨Sens.union b.sens s.parent.sens, b.content ++ nodes⟩

namespace Span

/-! ### nom traits -/

/-- `Slice<Range>` (src/evaluated/nom/mod.rs lines 54-63). -/
def slice (s : Span) (a b : Nat) : Res Span := do
  let length ← usub b a
  revalidate { s with offset := s.offset + a, length := length }

/-- `Slice<RangeFrom>` (src/evaluated/nom/mod.rs lines 65-74). -/
def sliceFrom (s : Span) (a : Nat) : Res Span := do
  let length ← usub s.length a
  revalidate { s with offset := s.offset + a, length := length }

/-- `Slice<RangeTo>` (src/evaluated/nom/mod.rs lines 76-83). -/
def sliceTo (s : Span) (b : Nat) : Span := { s with length := b }

/-- Search an iterator for an item: found, or the panic that stops the search. (The searches of
src/evaluated/nom/mod.rs lines 92 and 109.) -/
def findIn {α : Type} (p : α → Bool) (xs : List α) (crash : Bool) : Res (Option α) :=
  match xs.find? p with
  | some a => .ok (some a)
  | none => if crash then .panic .underflow else .ok none

/-- `iter_indices().find(|(_, c)| p(c))` (src/evaluated/nom/mod.rs lines 92 and 109) -/
def findChar (s : Span) (p : Char → Bool) : Res (Option (Nat × Char)) :=
  findIn (fun ic => p ic.2) (withIndices 0 s.chars.items) s.chars.crash

/-- `InputTake::take_split` (src/evaluated/nom/mod.rs lines 137-142). -/
def takeSplit (s : Span) (count : Nat) : Res (Span × Span) := do
  rassert (count ≤ s.length)
  let a ← s.sliceFrom count
  return (a, s.sliceTo count)

/-- `split_at_position` (src/evaluated/nom/mod.rs lines 88-103): (rest, prefix). -/
def splitAtPosition (s : Span) (p : Char → Bool) : Res (Span × Span) := do
  match ← s.findChar p with
  | some (i, _) =>
    let fst ← s.sliceFrom i
    return (fst, s.sliceTo i)
  | none => return (s.emptyAtEnd, s)

/-- `CompareResult` of nom. (src/evaluated/nom/mod.rs line 8.) -/
inductive CompareResult
  | ok
  | incomplete
  | error
  deriving DecidableEq, Repr

/-- The zip-and-compare loop of `compare` (src/evaluated/nom/mod.rs lines 153-156): is there a
mismatch before one of the two runs out?  The span side is pulled first by `zip`. -/
def mismatch (crash : Bool) : List Char → List Char → Res Bool
  | [], _ => if crash then .panic .underflow else .ok false
  | _ :: _, [] => .ok false
  | a :: as, b :: bs => if a ≠ b then .ok true else mismatch crash as bs

/-- `Compare::compare` (src/evaluated/nom/mod.rs lines 152-168). -/
def compare (s : Span) (t : Str) : Res CompareResult := do
  let m ← mismatch s.chars.crash s.chars.items t
  if m then return .error
  else if s.length ≥ blen t then return .ok else return .incomplete

/-- `Compare::compare_no_case` (src/evaluated/nom/mod.rs lines 170-187). -/
def compareNoCase (s : Span) (t : Str) : Res CompareResult := do
  let m ← mismatch s.chars.crash (s.chars.items.map lower) (t.map lower)
  if m then return .error
  else if s.length ≥ blen t then return .ok else return .incomplete

/-- UTF-8 bytes of a string (`str::as_bytes`). (src/evaluated/nom/mod.rs line 197.) -/
def bytesOf (t : Str) : List UInt8 := t.flatMap String.utf8EncodeChar

/-- Write bytes into the buffer at consecutive positions
(src/evaluated/nom/mod.rs lines 209-211); panics when out of range. -/
def writeAt (buf : List UInt8) : Nat → List UInt8 → Res (List UInt8)
  | _, [] => .ok buf
  | i, b :: bs => if i < buf.length then writeAt (buf.set i b) (i + 1) bs else .panic .index

/-- Initial fill of the search buffer (src/evaluated/nom/mod.rs lines 206-213).  Returns the buffer
and the characters not yet consumed. -/
def fillBuffer (n : Nat) (crash : Bool) :
    (selfIdx : Nat) → (buf : List UInt8) → List (Nat × Char) →
    Res (List UInt8 × List (Nat × Char))
  | selfIdx, buf, [] =>
    if selfIdx < n then (if crash then .panic .underflow else .panic .unwrap) else .ok (buf, [])
  | selfIdx, buf, (i, c) :: rest =>
    if selfIdx < n then do
      let buf ← writeAt buf selfIdx (String.utf8EncodeChar c)
      fillBuffer n crash (i + (String.utf8EncodeChar c).length) buf rest
    else .ok (buf, (i, c) :: rest)

/-- Overwrite ring-buffer positions (src/evaluated/nom/mod.rs lines 228-230). -/
def writeRing (n : Nat) (buf : List UInt8) : Nat → List UInt8 → List UInt8
  | _, [] => buf
  | i, b :: bs => writeRing n (buf.set (i % n) b) (i + 1) bs

/-- Compare the ring buffer, read from its start, with the needle
(src/evaluated/nom/mod.rs lines 233-239). -/
def ringMatches (n : Nat) (buf : List UInt8) : Nat → List UInt8 → Bool
  | _, [] => true
  | i, b :: bs => if buf[i % n]? = some b then ringMatches n buf (i + 1) bs else false

/-- The search loop (src/evaluated/nom/mod.rs lines 219-246). -/
def searchLoop (needle : List UInt8) (crash : Bool) :
    (bufStart : Nat) → (buf : List UInt8) → List (Nat × Char) → Res (Option Nat)
  | _, _, [] => if crash then .panic .underflow else .ok none
  | bufStart, buf, (i, c) :: rest =>
    let n := needle.length
    let buf := writeRing n buf bufStart (String.utf8EncodeChar c)
    let bufStart := (bufStart + (String.utf8EncodeChar c).length) % n
    if ringMatches n buf bufStart needle then do
      let k ← usub i n
      return some (k + 1)
    else searchLoop needle crash bufStart buf rest

/-- `FindSubstring::find_substring` (src/evaluated/nom/mod.rs lines 190-248). -/
def findSubstring (s : Span) (t : Str) : Res (Option Nat) :=
  let needle := bytesOf t
  let n := needle.length
  if n > s.length then .ok none
  else do
    let (buf, rest) ←
      fillBuffer n s.chars.crash 0 (List.replicate n 0) (withIndices 0 s.chars.items)
    if buf = needle then return some 0
    else searchLoop needle s.chars.crash 0 buf rest

/-- The walk of `Offset::offset` (src/evaluated/nom/mod.rs lines 262-268): the total length of
the references between the first one and the target. -/
def walkLengths : List CRef → Nat → Nat
  | [], _ => 0
  | _, 0 => 0
  | c :: cs, k + 1 => c.length + walkLengths cs k

/-- `Offset::offset` (src/evaluated/nom/mod.rs lines 250-271).  Simplified: the assertion that
both spans have the same parent is not modelled; every caller passes a tail of `self`. -/
def offsetTo (s second : Span) : Res Nat := do
  rassert (s.start ≤ second.start)
  rassert (second.start ≤ s.start + s.contents.length)
  if second.start = s.start then usub second.offset s.offset
  else
    match s.contents with
    | [] => .panic .index
    | c :: cs => do
      let tr ← usub c.length s.offset
      return tr + walkLengths cs (second.start - s.start - 1)

end Span
end Hastur
