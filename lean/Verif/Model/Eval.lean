import Verif.Model.Db
import Verif.Model.TextFunctions
/-
Model of expression evaluation (src/ast/mod.rs lines 44-192).

Evaluation and the processing of makefile text call each other (`$(eval)` and `include`).  The model
ties this knot with `Rec`: every definition takes the two recursive calls as an argument, and
src-level recursion is cut off by a depth budget in `Engine.lean`.
-/
namespace Hastur

open Res

/-- The mutable state threaded through the parsers: the parts of `Engine` (src/lib.rs lines 468-488)
and the `NameCache` that the modelled code touches.  `vpaths`, `patterned_vpaths` and
`working_directory` are never changed. -/
structure St where
  db : Database
  names : NameCache
  commandChar : Char

/-- `Engine::default` (src/lib.rs lines 490-501) with an empty name cache. -/
def St.init : St := ⟨Database.empty, NameCache.empty, '\t'⟩

/-- `MakefileError` (src/lib.rs lines 399-407). -/
inductive MakefileError
  | ioError
  | parseError (k : ParseErrorKind)
  deriving DecidableEq, Repr

/-- The recursive calls: `AstNode::eval_internal` (src/ast/mod.rs line 55) and
`Engine::process_block` (src/lib.rs line 558). -/
structure Rec where
  evalInternal : Ast → St → Res ((Sens × List CRef) × St)
  processBlock : Block → St → Res (Except MakefileError Unit × St)

/-- `AstNode::eval` (src/ast/mod.rs lines 44-52). -/
def Rec.eval (r : Rec) (a : Ast) (st : St) : Res (Block × St) := do
  let ((sens, content), st) ← r.evalInternal a st
  let b ← Block.new sens content
  return (b, st)

/-- The `Concat` arm of `eval_internal` (src/ast/mod.rs lines 113-121). -/
def evalConcat (r : Rec) : List Ast → Sens → List CRef → St → Res ((Sens × List CRef) × St)
  | [], sens, out, st => .ok ((sens, out), st)
  | a :: as, sens, out, st => do
    let ((s, c), st) ← r.evalInternal a st
    evalConcat r as (Sens.union sens s) (out ++ c) st

/-- `deref_variable!` (src/ast/mod.rs lines 93-107): value and new sensitivity. -/
def derefVariable (r : Rec) (name : Str) (sens : Sens) (st : St) : Res ((Block × Sens) × St) := do
  let (v, names) := st.names.internVar name
  let st := { st with names := names }
  match st.db.getVariable v with
  | some p => do
    let (b, st) ← r.eval p.value st
    return ((b, Sens.insert (Sens.union sens b.sens) v), st)
  | none => return ((Block.empty, Sens.insert sens v), st)

/-- The split of a variable name at its last `:` and `=` (src/ast/mod.rs lines 127-131). -/
def colonFind (i : Span) : PRes (Span × Span) :=
  (Nom.recognize (Nom.many1 (Nom.takeUntilAndConsume [':'])) i).andThen fun i name =>
  (Nom.recognize (Nom.many1 (Nom.takeUntilAndConsume ['='])) i).andThen fun i key =>
  done i (name, key)

/-- The `VariableReference` arm of `eval_internal` (src/ast/mod.rs lines 123-165). -/
def evalVarRef (r : Rec) (name : Ast) (st : St) : Res ((Sens × List CRef) × St) := do
  let (nameB, st) ← r.eval name st
  let sens := Sens.union [] nameB.sens
  match ← colonFind nameB.span with
  | .done replacement (n, k) => do
    let nl ← usub n.length 1
    let nameB ← (n.sliceTo nl).toNewBlock
    let kl ← usub k.length 1
    let key ← (k.sliceTo kl).toNewBlock
    let replacement ← replacement.toNewBlock
    let s ← nameB.intoString
    let ((value, sens), st) ← derefVariable r s sens st
    let value ← doSubref sens value key replacement
    return ((sens, [CRef.ofNode (.subRef nameB key replacement value)]), st)
  | .err _ => do
    let s ← nameB.intoString
    let ((value, sens), st) ← derefVariable r s sens st
    return ((sens, [CRef.ofNode (.varRef nameB value)]), st)

/-- `eval_internal` (src/ast/mod.rs lines 54-191). -/
def evalStep (r : Rec) (a : Ast) (st : St) : Res ((Sens × List CRef) × St) :=
  match a with
  | .constant _ s => .ok (([], [CRef.ofNode (.constant s)]), st)
  | .concat _ children => evalConcat r children [] [] st
  | .preEvaluated _ b => .ok (([], b.content), st)
  | .varRef _ name => evalVarRef r name st
  | .eval _ arg => do
    let (content, st) ← r.eval arg st
    let sens := Sens.union [] content.sens
    let block ← Block.new sens [CRef.ofNode (.evaluated content)]
    let (res, st) ← r.processBlock block st
    match res with
    | .ok () => return ((sens, []), st)
    | .error _ => .panic .unwrap
  | .empty _ => .ok (([], []), st)
  | .strip _ _ => .panic .unimplemented
  | .word _ _ _ => .panic .unimplemented
  | .words _ _ => .panic .unimplemented

end Hastur
