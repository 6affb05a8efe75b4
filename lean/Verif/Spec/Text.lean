import Verif.Spec.Location
import Verif.Model.Span
/-
The text of blocks and spans: the specification all block and span operations are measured against.

A text is a list of characters, each with its source location.  The definitions below do not use the
iterators of the code: a reference denotes a window of the text of its node, a block the concatenation
of its references, a span a window of the concatenation of the references it sees.
-/
namespace Hastur

/-- A character with the location it comes from. -/
abbrev LChar := Char × Location

/-- The characters of a located string with their locations. -/
def locate : Location → Str → List LChar
  | _, [] => []
  | l, c :: cs => (c, l) :: locate (l.after [c]) cs

/-- The located characters of a located string. -/
def LStr.ltext (s : LStr) : List LChar := locate s.loc s.contents

mutual
/-- The text of a node (src/evaluated/nodes.rs): that of its value. -/
def Node.ltext : Node → List LChar
  | .constant s => s.ltext
  | .concat v => Block.ltext v
  | .varRef _ v => Block.ltext v
  | .subRef _ _ _ v => Block.ltext v
  | .evaluated v => Block.ltext v
/-- The text of a block (src/evaluated/mod.rs): the concatenation of its references. -/
def Block.ltext : BlockOf Node → List LChar
  | ⟨_, content⟩ => CRef.ltextList content
/-- The text of a list of references. -/
def CRef.ltextList : List (CRefOf Node) → List LChar
  | [] => []
  | c :: cs => CRef.ltext c ++ CRef.ltextList cs
/-- The text of a reference (src/evaluated/content_reference.rs): a window of the text of its node. -/
def CRef.ltext : CRefOf Node → List LChar
  | ⟨offset, length, node⟩ => ((Node.ltext node).drop offset).take length
end

/-- The text of a span (src/evaluated/block_span.rs): a window of the text it sees. -/
def Span.ltext (s : Span) : List LChar := ((CRef.ltextList s.contents).drop s.offset).take s.length

/-- The characters of a text. -/
def textOf (t : List LChar) : Str := t.map Prod.fst

/-- The text of a block without locations. -/
def Block.text (b : Block) : Str := textOf (Block.ltext b)
/-- The text of a span without locations. -/
def Span.text (s : Span) : Str := textOf s.ltext

mutual
/-- Well-formed node: all characters are ASCII, all references lie inside their nodes.  (The blocks that
only record where a value came from, such as the name of a variable, do not matter.) -/
def Node.WF : Node → Prop
  | .constant s => AsciiS s.contents
  | .concat v => Block.WF v
  | .varRef _ v => Block.WF v
  | .subRef _ _ _ v => Block.WF v
  | .evaluated v => Block.WF v
/-- Well-formed block. -/
def Block.WF : BlockOf Node → Prop
  | ⟨_, content⟩ => CRef.WFList content
/-- Well-formed list of references. -/
def CRef.WFList : List (CRefOf Node) → Prop
  | [] => True
  | c :: cs => CRef.WF c ∧ CRef.WFList cs
/-- Well-formed reference: the window is inside the node. -/
def CRef.WF : CRefOf Node → Prop
  | ⟨offset, length, node⟩ => offset + length ≤ node.len ∧ Node.WF node
end

/-- Total length of a list of references. -/
def lensum (cs : List CRef) : Nat := (cs.map (·.length)).sum

/-- Well-formed span: the block is well-formed, the window starts in the first reference it sees (or at its end)
and ends inside the block.  Nothing is required of an empty window. -/
def Span.WF (s : Span) : Prop :=
  Block.WF s.parent ∧ (s.length = 0 ∨
    ∃ c cs, s.contents = c :: cs ∧ s.offset ≤ c.length ∧ s.offset + s.length ≤ c.length + lensum cs)

/-- A well-formed span whose window starts strictly inside the first reference it sees.  This is what slicing
establishes; the span of a whole block has it when the first reference of the block is not empty. -/
def Span.Good (s : Span) : Prop :=
  Block.WF s.parent ∧ (s.length = 0 ∨
    ∃ c cs, s.contents = c :: cs ∧ s.offset < c.length ∧ s.offset + s.length ≤ c.length + lensum cs)

/-- The span is a well-formed window of block `P` with text `t`. -/
structure Span.At (P : Block) (t : List LChar) (s : Span) : Prop where
  parent : s.parent = P
  good : s.Good
  ltext : s.ltext = t

/-- No reference of the block is empty. -/
def Block.Solid (b : Block) : Prop := ∀ c ∈ b.content, 0 < c.length

mutual
/-- Every node wraps at most one reference, so it has at most one segment. -/
def Node.Mono : Node → Prop
  | .constant _ => True
  | .concat v => v.content.length ≤ 1 ∧ Block.Mono v
  | .varRef _ v => v.content.length ≤ 1 ∧ Block.Mono v
  | .subRef _ _ _ v => v.content.length ≤ 1 ∧ Block.Mono v
  | .evaluated v => v.content.length ≤ 1 ∧ Block.Mono v
/-- All nodes of the block have at most one segment. -/
def Block.Mono : BlockOf Node → Prop
  | ⟨_, content⟩ => CRef.MonoList content
/-- All nodes of the references have at most one segment. -/
def CRef.MonoList : List (CRefOf Node) → Prop
  | [] => True
  | c :: cs => CRef.Mono c ∧ CRef.MonoList cs
/-- The node of the reference has at most one segment. -/
def CRef.Mono : CRefOf Node → Prop
  | ⟨_, _, node⟩ => Node.Mono node
end

/-- A block with a single constant, like the block of a makefile that was read. -/
def textBlock (loc : Location) (t : Str) : Block := ⟨[], [CRef.ofNode (.constant ⟨loc, t⟩)]⟩

end Hastur
