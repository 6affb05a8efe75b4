import Verif.Spec.Expr
/-
The property test `ast_parse_roundtrip` of the repository (src/parsers/ast/test/proptest/mod.rs) and its generators
(src/ast/proptest.rs).  The generators pick trees of depth at most 3; here trees have any depth and size.
-/
namespace Hastur

/-- The trees `arb_ast` picks from (src/ast/proptest.rs lines 12-45). -/
inductive Tree where
  | text (s : Str)
  | ref (name : Tree)
  | eval (arg : Tree)
  | strip (arg : Tree)
  | word (index list : Tree)
  | words (arg : Tree)

namespace Tree

/-- The text `arb_flat_ast` makes of a tree (src/ast/proptest.rs lines 47-147). -/
def print : Tree → Str
  | .text s => s
  | .ref n => "$(".toList ++ n.print ++ ")".toList
  | .eval a => "$(eval ".toList ++ a.print ++ ")".toList
  | .strip a => "$(strip ".toList ++ a.print ++ ")".toList
  | .word i l => "$(word ".toList ++ i.print ++ ",".toList ++ l.print ++ ")".toList
  | .words a => "$(words ".toList ++ a.print ++ ")".toList

/-- The syntax tree `arb_flat_ast` makes of a tree that is printed from the given column on
(src/ast/proptest.rs lines 47-147): every node is located where its text begins.  The test uses test locations; here
the text is in the first line of a file. -/
def ast (f : FileName) : (column : Nat) → Tree → Ast
  | k, .text s => .constant (.source 1 k f) ⟨.source 1 k f, s⟩
  | k, .ref n => .varRef (.source 1 k f) (ast f (k + "$(".length) n)
  | k, .eval a => .eval (.source 1 k f) (ast f (k + "$(eval ".length) a)
  | k, .strip a => .strip (.source 1 k f) (ast f (k + "$(strip ".length) a)
  | k, .word i l => .word (.source 1 k f) (ast f (k + "$(word ".length) i)
      (ast f (k + "$(word ".length + i.print.length + ",".length) l)
  | k, .words a => .words (.source 1 k f) (ast f (k + "$(words ".length) a)

/-- What holds of every text in the tree. -/
def Leaves (ok : Str → Prop) : Tree → Prop
  | .text s => ok s
  | .ref n => n.Leaves ok
  | .eval a => a.Leaves ok
  | .strip a => a.Leaves ok
  | .word i l => i.Leaves ok ∧ l.Leaves ok
  | .words a => a.Leaves ok

/-- What holds of every variable name that is plain text. -/
def Names (ok : Str → Prop) : Tree → Prop
  | .text _ => True
  | .ref (.text s) => ok s
  | .ref n => n.Names ok
  | .eval a => a.Names ok
  | .strip a => a.Names ok
  | .word i l => i.Names ok ∧ l.Names ok
  | .words a => a.Names ok

/-- `alphanum_string` (src/ast/proptest.rs lines 8-10): `[a-zA-Z0-9]+`. -/
def Alphanum (s : Str) : Prop :=
  s ≠ [] ∧ ∀ c ∈ s, ('a' ≤ c ∧ c ≤ 'z') ∨ ('A' ≤ c ∧ c ≤ 'Z') ∨ ('0' ≤ c ∧ c ≤ '9')

/-- A more general class of texts: not empty, and every character is ASCII and neither a blank, a line feed, a dollar
sign, a comma nor a bracket. -/
def Word (s : Str) : Prop :=
  s ≠ [] ∧ ∀ c ∈ s, isAscii c = true ∧ c ∉ [' ', '\t', '\n', '$', ',', '(', ')', '{', '}']

/-- The text does not begin with the name of a function. -/
def NotFunction (s : Str) : Prop := ∀ f : Fn, ¬ f.name <+: s

end Tree
end Hastur
