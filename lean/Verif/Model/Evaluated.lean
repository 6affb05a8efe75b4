import Verif.Model.Location
/-
Model of src/evaluated/{mod,nodes,content_reference}.rs: blocks, content references and
evaluated nodes.
-/
namespace Hastur

/-- `Set<VariableName>` (src/types.rs): a list used as a set. -/
abbrev Sens := List VariableName

namespace Sens
/-- `HashSet::update` / `insert` (the set type is src/types.rs line 3; src/evaluated/mod.rs line 137) -/
def insert (s : Sens) (v : VariableName) : Sens := if v ∈ s then s else s ++ [v]
/-- `HashSet::union` (the set type is src/types.rs line 3; src/ast/mod.rs lines 67-69) -/
def union (a b : Sens) : Sens := b.foldl insert a
end Sens

/-- `ContentReference` (src/evaluated/content_reference.rs lines 6-14), generic in the node type. -/
structure CRefOf (ν : Type) where
  offset : Nat
  length : Nat
  node : ν

/-- `Block` (src/evaluated/mod.rs lines 19-28), generic in the node type. -/
structure BlockOf (ν : Type) where
  sens : Sens
  content : List (CRefOf ν)

/-- `EvaluatedNode` (src/evaluated/nodes.rs lines 8-22, 152-158, 174-182, 221-225). -/
inductive Node where
  | constant (s : LStr)
  | concat (b : BlockOf Node)
  | varRef (name value : BlockOf Node)
  | subRef (name key replacement value : BlockOf Node)
  | evaluated (value : BlockOf Node)

/-- `ContentReference` (src/evaluated/content_reference.rs lines 7-14) -/
abbrev CRef := CRefOf Node
/-- `Block` (src/evaluated/mod.rs lines 21-28) -/
abbrev Block := BlockOf Node

/-- `Block::empty` (src/evaluated/mod.rs lines 30-38). -/
def Block.empty : Block := ⟨[], []⟩

/-- `Block::len` (src/evaluated/mod.rs lines 65-68). -/
def Block.len (b : Block) : Nat := (b.content.map (·.length)).sum

/-- `EvaluatedNode::len` (src/evaluated/nodes.rs lines 52-61). -/
def Node.len : Node → Nat
  | .constant s => s.len
  | .concat v => Block.len v
  | .varRef _ v => Block.len v
  | .subRef _ _ _ v => Block.len v
  | .evaluated v => Block.len v

/-! ### Character iteration

An iterator is represented by everything it would yield: the items, and whether pulling one more
item after them panics (`crash`) or ends the iteration. -/

/-- Everything a character iterator yields. (No code of its own; the iterator of
src/evaluated/content_reference.rs line 140.) -/
structure CStream where
  items : List Char
  crash : Bool
  deriving DecidableEq, Repr

namespace CStream
/-- `Iterator::skip` (src/evaluated/content_reference.rs line 75) -/
def skip (s : CStream) (n : Nat) : CStream := ⟨s.items.drop n, s.crash⟩
/-- `Iterator::take` (src/evaluated/content_reference.rs line 75) -/
def take (s : CStream) (n : Nat) : CStream :=
  if n ≤ s.items.length then ⟨s.items.take n, false⟩ else s
/-- Exhaust the first iterator, then continue with the second (the `while tr.is_none()` loop of
src/evaluated/block_span.rs lines 190-199). -/
def append (a b : CStream) : CStream :=
  if a.crash then a else ⟨a.items ++ b.items, b.crash⟩
end CStream

/-- The byte budget of `block_span::Iter` (src/evaluated/block_span.rs lines 178-204): stop when
no bytes remain, subtract the size of every character, panic when the subtraction underflows. -/
def limitBytes : Nat → List Char → Bool → CStream
  | 0, _, _ => ⟨[], false⟩
  | _ + 1, [], crash => ⟨[], crash⟩
  | n + 1, c :: cs, crash =>
    if c.utf8Size ≤ n + 1 then
      let r := limitBytes (n + 1 - c.utf8Size) cs crash
      ⟨c :: r.items, r.crash⟩
    else ⟨[], true⟩

/-- `ContentReference::chars` given the characters of the node
(src/evaluated/content_reference.rs lines 73-76). -/
def refChars (offset length : Nat) (node : CStream) : CStream := (node.skip offset).take length

mutual
/-- `EvaluatedNode::chars` (src/evaluated/nodes.rs lines 63-76). -/
def Node.chars : Node → CStream
  | .constant s => ⟨s.contents, false⟩
  | .concat v => Block.chars v
  | .varRef _ v => Block.chars v
  | .subRef _ _ _ v => Block.chars v
  | .evaluated v => Block.chars v
/-- `block.span().chars()` (src/evaluated/block_span.rs lines 156-205, span of
src/evaluated/mod.rs lines 70-79): the offset is zero and the byte budget is the length. -/
def Block.chars : BlockOf Node → CStream
  | ⟨_, content⟩ =>
    let s := CRef.charsList content
    limitBytes (content.map (·.length)).sum s.items s.crash
/-- The concatenated characters of a list of content references. (The iteration over the contents in
src/evaluated/block_span.rs lines 175-205.) -/
def CRef.charsList : List (CRefOf Node) → CStream
  | [] => ⟨[], false⟩
  | c :: cs => (CRef.chars c).append (CRef.charsList cs)
/-- `ContentReference::chars` (src/evaluated/content_reference.rs lines 73-76). -/
def CRef.chars : CRefOf Node → CStream
  | ⟨offset, length, node⟩ => refChars offset length (Node.chars node)
end

/-- Consume a whole character iterator. (The loop of `into_string`, src/evaluated/mod.rs lines 53-63.) -/
def CStream.all (s : CStream) : Res Str := if s.crash then .panic .underflow else .ok s.items

/-- `Block::into_string` (src/evaluated/mod.rs lines 53-63, content_reference.rs lines 65-71):
append the characters of every reference. -/
def Block.intoString (b : Block) : Res Str := (CRef.charsList b.content).all

/-! ### Segments -/

/-- Everything a segment iterator yields. (No code of its own; the iterator of src/evaluated/content_reference.rs
lines 178-200.) -/
structure SStream where
  items : List LStr
  crash : Bool
  deriving DecidableEq, Repr

namespace SStream
/-- Put an item in front. (No code of its own.) -/
def cons (t : LStr) (s : SStream) : SStream := ⟨t :: s.items, s.crash⟩
/-- Exhaust the first iterator, then continue with the second (src/evaluated/block_span.rs lines 266-275). -/
def append (a b : SStream) : SStream :=
  if a.crash then a else ⟨a.items ++ b.items, b.crash⟩
end SStream

/-- `content_reference::SegmentsIter` (src/evaluated/content_reference.rs lines 178-200) over the
segments of the node. -/
def refSegs : (offset length : Nat) → List LStr → Bool → SStream
  | _, 0, _, _ => ⟨[], false⟩
  | _, _ + 1, [], crash => ⟨[], crash⟩
  | offset, length + 1, t :: ts, crash =>
    if t.len < offset then refSegs (offset - t.len) (length + 1) ts crash
    else
      match t.slice offset (t.len - offset) with
      | .ok t1 =>
        if t1.len > length + 1 then
          match t1.slice 0 (length + 1) with
          | .ok t2 => SStream.cons t2 (refSegs 0 (length + 1 - t2.len) ts crash)
          | _ => ⟨[], true⟩
        else SStream.cons t1 (refSegs 0 (length + 1 - t1.len) ts crash)
      | _ => ⟨[], true⟩

/-- `block_span::SegmentsIter` (src/evaluated/block_span.rs lines 257-303) over the segments of the
content references. -/
def spanSegs : (offset length : Nat) → List LStr → Bool → SStream
  | _, 0, _, _ => ⟨[], false⟩
  | _, _ + 1, [], crash => ⟨[], crash⟩
  | offset, length + 1, t :: ts, crash =>
    if t.len < offset then spanSegs (offset - t.len) (length + 1) ts crash
    else
      match (if offset ≠ 0 then t.slice offset (t.len - offset) else .ok t) with
      | .ok t1 =>
        match (if length + 1 < t1.len then t1.slice 0 (length + 1) else .ok t1) with
        | .ok t2 => SStream.cons t2 (spanSegs 0 (length + 1 - t2.len) ts crash)
        | _ => ⟨[], true⟩
      | _ => ⟨[], true⟩

mutual
/-- `EvaluatedNode::segments` (src/evaluated/nodes.rs lines 78-91, 136-150). -/
def Node.segments : Node → SStream
  | .constant s => ⟨[s], false⟩
  | .concat v => Block.segments v
  | .varRef _ v => Block.segments v
  | .subRef _ _ _ v => Block.segments v
  | .evaluated v => Block.segments v
/-- `block.span().segments()` (src/evaluated/block_span.rs lines 245-303). -/
def Block.segments : BlockOf Node → SStream
  | ⟨_, content⟩ =>
    let s := CRef.segmentsList content
    spanSegs 0 (content.map (·.length)).sum s.items s.crash
/-- The concatenated segments of a list of content references. (The iteration over the contents in
src/evaluated/block_span.rs line 99.) -/
def CRef.segmentsList : List (CRefOf Node) → SStream
  | [] => ⟨[], false⟩
  | c :: cs => (CRef.segments c).append (CRef.segmentsList cs)
/-- `ContentReference::segments` (src/evaluated/content_reference.rs lines 87-94). -/
def CRef.segments : CRefOf Node → SStream
  | ⟨offset, length, node⟩ =>
    let s := Node.segments node
    refSegs offset length s.items s.crash
end

/-! ### Construction and simplification -/

/-- `ContentReference::new_from_node` (src/evaluated/content_reference.rs lines 17-24). -/
def CRef.ofNode (n : Node) : CRef := ⟨0, n.len, n⟩

/-- `ContentReference::new_from_node_slice` (src/evaluated/content_reference.rs lines 26-36). -/
def CRef.ofNodeSlice (n : Node) (offset length : Nat) : Res CRef := do
  rassert (offset < n.len)
  rassert (offset + length ≤ n.len)
  return ⟨offset, length, n⟩

/-- `ContentReference::space` (src/evaluated/content_reference.rs lines 38-45, nodes.rs lines 25-27). -/
def CRef.space : CRef := ⟨0, 1, .constant (.synthetic [' '])⟩
/-- `ContentReference::newline` (src/evaluated/content_reference.rs lines 47-54, nodes.rs lines 28-30). -/
def CRef.newline : CRef := ⟨0, 1, .constant (.synthetic ['\n'])⟩
/-- `ContentReference::semicolon` (src/evaluated/content_reference.rs lines 56-63, nodes.rs lines 31-33). -/
def CRef.semicolon : CRef := ⟨0, 1, .constant (.synthetic [';'])⟩

/-- First loop of `ContentReference::simplify` (src/evaluated/content_reference.rs lines 111-118):
drop the references before the offset and move the offset into the first one kept. -/
def dropRefs : List CRef → Nat → Res (List CRef)
  | [], _ => .panic .index
  | c :: cs, offset =>
    if c.length ≤ offset then dropRefs cs (offset - c.length)
    else .ok ({ c with offset := c.offset + offset, length := c.length - offset } :: cs)

/-- Second loop of `ContentReference::simplify` (src/evaluated/content_reference.rs lines 119-126):
keep references until the wanted length is reached and shorten the last one.  Called with a
positive length (zero-length references are filtered out by `Block::simplify`). -/
def takeRefs : List CRef → Nat → Res (List CRef)
  | [], _ => .panic .index
  | c :: cs, length =>
    if length ≤ c.length then .ok [{ c with length := length }]
    else (c :: ·) <$> takeRefs cs (length - c.length)

mutual
/-- Height of a node; used as recursion budget for `simplify`. (Not in the code.) -/
def Node.depth : Node → Nat
  | .constant _ => 0
  | .concat v => Block.depth v + 1
  | .varRef _ v => Block.depth v + 1
  | .subRef _ _ _ v => Block.depth v + 1
  | .evaluated v => Block.depth v + 1
/-- Height of a block. (Not in the code.) -/
def Block.depth : BlockOf Node → Nat
  | ⟨_, content⟩ => CRef.depthList content
/-- Height of a list of references. (Not in the code.) -/
def CRef.depthList : List (CRefOf Node) → Nat
  | [] => 0
  | c :: cs => max (CRef.depth c) (CRef.depthList cs)
/-- Height of a reference. (Not in the code.) -/
def CRef.depth : CRefOf Node → Nat
  | ⟨_, _, node⟩ => Node.depth node
end

/-- The filtering map of `Block::simplify` (src/evaluated/mod.rs lines 149-160), given the
simplification of one reference. -/
def simplifyList (simp : CRef → Res CRef) : List CRef → Res (List CRef)
  | [] => .ok []
  | c :: cs =>
    if c.length = 0 then simplifyList simp cs
    else do
      let c' ← simp c
      let cs' ← simplifyList simp cs
      return c' :: cs'

/-- `ContentReference::simplify` (src/evaluated/content_reference.rs lines 96-135).  The first
argument bounds the recursion depth; `Block.simplify` passes the height of the tree. -/
def simplifyRef : Nat → CRef → Res CRef
  | 0, c =>
    match c.node with
    | .constant s => do
      let s' ← s.slice c.offset c.length
      return ⟨0, c.length, .constant s'⟩
    | .concat _ => .fuel
    | _ => .ok c
  | d + 1, c =>
    match c.node with
    | .constant s => do
      let s' ← s.slice c.offset c.length
      return ⟨0, c.length, .constant s'⟩
    | .concat b => do
      let kept ← dropRefs b.content c.offset
      let kept ← takeRefs kept c.length
      let content ← simplifyList (simplifyRef d) kept
      return ⟨0, c.length, .concat ⟨b.sens, content⟩⟩
    | _ => .ok c

/-- `Block::simplify` (src/evaluated/mod.rs lines 147-161). -/
def Block.simplify (b : Block) : Res Block := do
  let content ← simplifyList (simplifyRef (CRef.depthList b.content)) b.content
  return ⟨b.sens, content⟩

/-- `Block::new` (src/evaluated/mod.rs lines 40-51). -/
def Block.new (sens : Sens) (content : List CRef) : Res Block := Block.simplify ⟨sens, content⟩

/-- `Block::push` (src/evaluated/mod.rs lines 96-99). -/
def Block.push (b : Block) (c : CRef) : Block := ⟨b.sens, b.content ++ [c]⟩

end Hastur
