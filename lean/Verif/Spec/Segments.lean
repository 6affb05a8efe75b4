import Verif.Spec.Text
/-
Specification: where the pieces of a text meet, and which references are read to get a number of bytes.

Written from the shape of blocks only: a block is a list of windows onto nodes, a node is a literal piece of text or
wraps another block.
-/
namespace Hastur

/-- The node shows the text of block `v`. -/
inductive Wraps : Node → Block → Prop
  | concat {v : Block} : Wraps (.concat v) v
  | varRef {n v : Block} : Wraps (.varRef n v) v
  | subRef {n k r v : Block} : Wraps (.subRef n k r v) v
  | evaluated {v : Block} : Wraps (.evaluated v) v

/-- A literal piece of the text of the references ends after `n` bytes. -/
inductive PieceEnd : List CRef → Nat → Prop
  /-- The first reference ends there. -/
  | here {c : CRef} {cs : List CRef} : 0 < c.length → PieceEnd (c :: cs) c.length
  /-- A piece of a later reference ends there. -/
  | later {c : CRef} {cs : List CRef} {n : Nat} : PieceEnd cs n → PieceEnd (c :: cs) (c.length + n)
  /-- A piece of the block that the first reference shows ends there. -/
  | inside {c : CRef} {cs : List CRef} {n : Nat} {v : Block} : Wraps c.node v → 0 < n → n < c.length →
      PieceEnd v.content (c.offset + n) → PieceEnd (c :: cs) n

/-- Reading the first `n` bytes of the references reads from reference `d`, at the top or inside a wrapped block.
(The window of a reference is reached by reading the wrapped block from its start.) -/
inductive Visits : List CRef → Nat → CRef → Prop
  | here {c : CRef} {cs : List CRef} {n : Nat} : 0 < n → 0 < c.length → Visits (c :: cs) n c
  | inside {c d : CRef} {cs : List CRef} {n : Nat} {v : Block} : 0 < n → 0 < c.length → Wraps c.node v →
      Visits v.content (c.offset + min n c.length) d → Visits (c :: cs) n d
  | later {c d : CRef} {cs : List CRef} {n : Nat} : c.length < n → Visits cs (n - c.length) d → Visits (c :: cs) n d

/-- The window of the reference starts exactly where a piece of the block it shows ends. -/
def StartsAtEnd (c : CRef) : Prop := 0 < c.offset ∧ ∃ v, Wraps c.node v ∧ PieceEnd v.content c.offset

end Hastur
