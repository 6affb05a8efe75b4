import Verif.Model.Ast
/-
Model of the walkers over syntax trees (src/ast/visit.rs): the traits `Visitor` and `MutVisitor`, which come from one
macro.
-/
namespace Hastur

/-- An implementation of `Visitor` (src/ast/visit.rs lines 13-68, 156): its `visit_*` methods, as functions on the state
of the visitor.  The methods for nodes with children get the corresponding `super_*` call as an argument, which they may
perform or not; `visit_word` gets the visits of its two children, because an implementation may do something in between
(as src/ast/proptest.rs lines 112-120 does).  Implementations that visit other nodes than these are not modelled. -/
structure Visitor (σ : Type) where
  ast : Ast → (σ → σ) → σ → σ
  empty : σ → σ
  constant : LStr → σ → σ
  preEvaluated : Block → σ → σ
  concat : List Ast → (σ → σ) → σ → σ
  varRef : Ast → (σ → σ) → σ → σ
  eval : Ast → (σ → σ) → σ → σ
  strip : Ast → (σ → σ) → σ → σ
  word : Ast → Ast → (σ → σ) → (σ → σ) → σ → σ
  words : Ast → (σ → σ) → σ → σ

namespace Visitor

variable {σ : Type}

/-- The default implementations of the `visit_*` methods (src/ast/visit.rs lines 20-68): call `super_*`.  `super_empty`,
`super_constant` and `super_pre_evaluated` do nothing (lines 70-77), `super_word` visits the index, then the words (lines
105-109). -/
def default : Visitor σ where
  ast _ sup s := sup s
  empty s := s
  constant _ s := s
  preEvaluated _ s := s
  concat _ sup s := sup s
  varRef _ sup s := sup s
  eval _ sup s := sup s
  strip _ sup s := sup s
  word _ _ index words s := words (index s)
  words _ sup s := sup s

mutual
/-- `super_ast` (src/ast/visit.rs lines 116-151) with `super_variable_reference`, `super_eval`, `super_strip`,
`super_word` and `super_words` (lines 90-114). -/
def superAst (v : Visitor σ) : Ast → σ → σ
  | .empty _, s => v.empty s
  | .constant _ c, s => v.constant c s
  | .preEvaluated _ b, s => v.preEvaluated b s
  | .concat _ cs, s => v.concat cs (superConcat v cs) s
  | .varRef _ n, s => v.varRef n (v.ast n (superAst v n)) s
  | .eval _ a, s => v.eval a (v.ast a (superAst v a)) s
  | .strip _ a, s => v.strip a (v.ast a (superAst v a)) s
  | .word _ i w, s => v.word i w (v.ast i (superAst v i)) (v.ast w (superAst v w)) s
  | .words _ a, s => v.words a (v.ast a (superAst v a)) s
/-- `super_concat` (src/ast/visit.rs lines 79-88). -/
def superConcat (v : Visitor σ) : List Ast → σ → σ
  | [], s => s
  | a :: as, s => superConcat v as (v.ast a (superAst v a) s)
end

/-- `visit_ast` (src/ast/visit.rs lines 20-23, or as overridden). -/
def visitAst (v : Visitor σ) (a : Ast) (s : σ) : σ := v.ast a (superAst v a) s

end Visitor

/-- Kinds of nodes with children (src/ast/mod.rs lines 194-230). -/
inductive InnerKind
  | concat | varRef | eval | strip | word | words
  deriving DecidableEq, Repr

/-- An implementation of `MutVisitor` (src/ast/visit.rs lines 13-68, 157).  `location` is what `visit_ast` does to the
node itself before it calls `super_ast`; `constant` and `preEvaluated` change the content of leaves.  The methods for
nodes with children do something to the state of the visitor before and after they call `super_*`, and `visit_word` also
in between; implementations that replace children or skip them are not modelled. -/
structure MutVisitor (σ : Type) where
  location : Location → σ → Location × σ
  empty : σ → σ
  constant : LStr → σ → LStr × σ
  preEvaluated : Block → σ → Block × σ
  enter : InnerKind → σ → σ
  between : σ → σ
  leave : InnerKind → σ → σ

namespace MutVisitor

variable {σ : Type}

/-- The default implementations of the `visit_*` methods (src/ast/visit.rs lines 20-77): nothing is changed. -/
def default : MutVisitor σ where
  location l s := (l, s)
  empty s := s
  constant c s := (c, s)
  preEvaluated b s := (b, s)
  enter _ s := s
  between s := s
  leave _ s := s

mutual
/-- `visit_ast` and `super_ast` (src/ast/visit.rs lines 20-23, 79-151), with references to mutable nodes: the changed
tree and the state of the visitor. -/
def visitAst (v : MutVisitor σ) : Ast → σ → Ast × σ
  | .empty l, s =>
    let (l, s) := v.location l s
    (.empty l, v.empty s)
  | .constant l c, s =>
    let (l, s) := v.location l s
    let (c, s) := v.constant c s
    (.constant l c, s)
  | .preEvaluated l b, s =>
    let (l, s) := v.location l s
    let (b, s) := v.preEvaluated b s
    (.preEvaluated l b, s)
  | .concat l cs, s =>
    let (l, s) := v.location l s
    let (cs, s) := visitList v cs (v.enter .concat s)
    (.concat l cs, v.leave .concat s)
  | .varRef l n, s =>
    let (l, s) := v.location l s
    let (n, s) := visitAst v n (v.enter .varRef s)
    (.varRef l n, v.leave .varRef s)
  | .eval l a, s =>
    let (l, s) := v.location l s
    let (a, s) := visitAst v a (v.enter .eval s)
    (.eval l a, v.leave .eval s)
  | .strip l a, s =>
    let (l, s) := v.location l s
    let (a, s) := visitAst v a (v.enter .strip s)
    (.strip l a, v.leave .strip s)
  | .word l i w, s =>
    let (l, s) := v.location l s
    let (i, s) := visitAst v i (v.enter .word s)
    let (w, s) := visitAst v w (v.between s)
    (.word l i w, v.leave .word s)
  | .words l a, s =>
    let (l, s) := v.location l s
    let (a, s) := visitAst v a (v.enter .words s)
    (.words l a, v.leave .words s)
/-- The loop of `super_concat` (src/ast/visit.rs lines 79-88). -/
def visitList (v : MutVisitor σ) : List Ast → σ → List Ast × σ
  | [], s => ([], s)
  | a :: as, s =>
    let (a, s) := visitAst v a s
    let (as, s) := visitList v as s
    (a :: as, s)
end

end MutVisitor

end Hastur
