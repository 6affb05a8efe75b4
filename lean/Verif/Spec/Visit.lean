import Verif.Model.Visit
/-
Specification of walks over syntax trees: the nodes of a tree are addressed by paths.
-/
namespace Hastur

namespace Ast

/-- The children of a node, from left to right. -/
def kids : Ast → List Ast
  | .empty _ | .constant _ _ | .preEvaluated _ _ => []
  | .concat _ cs => cs
  | .varRef _ n => [n]
  | .eval _ a | .strip _ a | .words _ a => [a]
  | .word _ i w => [i, w]

/-- The node at the end of a path; a path consists of the positions of children. -/
def at? : Ast → List Nat → Option Ast
  | a, [] => some a
  | a, k :: p => a.kids[k]?.bind fun b => b.at? p

/-- `ps` are the paths of all nodes, each of them once, in the order of a walk: a node comes before its children, and
everything below a child comes before everything below the next one. -/
structure Walk (a : Ast) (ps : List (List Nat)) : Prop where
  all : ∀ p, p ∈ ps ↔ (a.at? p).isSome = true
  order : ps.Pairwise fun p q => p < q

/-- A node without its children. -/
inductive Label
  | empty
  | constant (s : LStr)
  | preEvaluated (b : Block)
  | concat (n : Nat)
  | varRef
  | eval
  | strip
  | word
  | words

/-- The node without its children. -/
def label : Ast → Label
  | .empty _ => .empty
  | .constant _ s => .constant s
  | .preEvaluated _ b => .preEvaluated b
  | .concat _ cs => .concat cs.length
  | .varRef _ _ => .varRef
  | .eval _ _ => .eval
  | .strip _ _ => .strip
  | .word _ _ _ => .word
  | .words _ _ => .words

/-- The string, if the node is a constant. -/
def constant? : Ast → Option LStr
  | .constant _ s => some s
  | _ => none

end Ast

/-- The same, except that constants may differ. -/
inductive Ast.Label.Like : Ast.Label → Ast.Label → Prop
  | same {l : Ast.Label} : Like l l
  | constant {s s' : LStr} : Like (.constant s) (.constant s')

/-- There is no node in both trees, or a node in both trees: at the same place of the source, and of the same kind with the
same content, except that constants may differ. -/
def Ast.LikeAt : Option Ast → Option Ast → Prop
  | none, none => True
  | some n, some n' => n'.location = n.location ∧ Ast.Label.Like n.label n'.label
  | _, _ => False

/-- The label with its constant changed. -/
def Ast.Label.change (f : LStr → LStr) : Ast.Label → Ast.Label
  | .constant s => .constant (f s)
  | l => l

/-- A call of a method of a visitor, with its arguments. -/
inductive Call
  | ast (a : Ast)
  | empty
  | constant (s : LStr)
  | preEvaluated (b : Block)
  | concat (cs : List Ast)
  | varRef (n : Ast)
  | eval (a : Ast)
  | strip (a : Ast)
  | word (i w : Ast)
  | words (a : Ast)

/-- The method for the kind of node, with its content as arguments. -/
def Call.of : Ast → Call
  | .empty _ => .empty
  | .constant _ s => .constant s
  | .preEvaluated _ b => .preEvaluated b
  | .concat _ cs => .concat cs
  | .varRef _ n => .varRef n
  | .eval _ a => .eval a
  | .strip _ a => .strip a
  | .word _ i w => .word i w
  | .words _ a => .words a

/-- The visitor that does `f` in each method, and then what the default visitor does. -/
def Visitor.doing {σ : Type} (f : Call → σ → σ) : Visitor σ where
  ast a sup s := Visitor.default.ast a sup (f (.ast a) s)
  empty s := Visitor.default.empty (f .empty s)
  constant c s := Visitor.default.constant c (f (.constant c) s)
  preEvaluated b s := Visitor.default.preEvaluated b (f (.preEvaluated b) s)
  concat cs sup s := Visitor.default.concat cs sup (f (.concat cs) s)
  varRef n sup s := Visitor.default.varRef n sup (f (.varRef n) s)
  eval a sup s := Visitor.default.eval a sup (f (.eval a) s)
  strip a sup s := Visitor.default.strip a sup (f (.strip a) s)
  word i w si sw s := Visitor.default.word i w si sw (f (.word i w) s)
  words a sup s := Visitor.default.words a sup (f (.words a) s)

/-- The mutating visitor that does `f` to constants, and otherwise what the default visitor does. -/
def MutVisitor.onConstants {σ : Type} (f : LStr → σ → LStr × σ) : MutVisitor σ := { MutVisitor.default with constant := f }

/-- `f` turns the strings of the first list into those of the second, one after the other, and the state `s` into
`s'`. -/
inductive Threads {σ : Type} (f : LStr → σ → LStr × σ) : σ → List LStr → List LStr → σ → Prop
  | nil {s : σ} : Threads f s [] [] s
  | cons {s s1 s' : σ} {c c' : LStr} {cs cs' : List LStr} : f c s = (c', s1) → Threads f s1 cs cs' s' →
      Threads f s (c :: cs) (c' :: cs') s'

end Hastur
