import Verif.Spec.Text
import Verif.Spec.History
import Verif.Model.Engine
/-
What the engine stores: conditions on every piece of text and every handle that can be reached from a state.

The conditions are relative to a `World`, which says what characters may occur and what handles are known.  They are
plain traversals of the data structures.
-/
namespace Hastur

/-- What may occur in stored data: located characters, handles of variables and handles of files. -/
structure World where
  letter : LChar → Prop
  var : VariableName → Prop
  file : FileName → Prop

/-- Everything that may occur in the one may occur in the other. -/
structure World.Le (W W' : World) : Prop where
  letter : ∀ x, W.letter x → W'.letter x
  var : ∀ v, W.var v → W'.var v
  file : ∀ f, W.file f → W'.file f

mutual
/-- A node of evaluated text (src/evaluated/nodes.rs), with the blocks that only record where it came from. -/
def Node.In (W : World) : Node → Prop
  | .constant s => ∀ x ∈ s.ltext, W.letter x
  | .concat v => Block.In W v
  | .varRef n v => Block.In W n ∧ Block.In W v
  | .subRef n k r v => Block.In W n ∧ Block.In W k ∧ Block.In W r ∧ Block.In W v
  | .evaluated v => Block.In W v
/-- A block (src/evaluated/mod.rs): also its reported variables. -/
def Block.In (W : World) : BlockOf Node → Prop
  | ⟨sens, content⟩ => (∀ v ∈ sens, W.var v) ∧ CRef.InList W content
/-- A list of references. -/
def CRef.InList (W : World) : List (CRefOf Node) → Prop
  | [] => True
  | c :: cs => CRef.In W c ∧ CRef.InList W cs
/-- A reference (src/evaluated/content_reference.rs): its window lies inside its node. -/
def CRef.In (W : World) : CRefOf Node → Prop
  | ⟨offset, length, node⟩ => offset + length ≤ node.len ∧ Node.In W node
end

/-- The location of a syntax tree: that of some character, or synthetic. -/
def World.Loc (W : World) (l : Location) : Prop := l = .synthetic ∨ ∃ c, W.letter (c, l)

mutual
/-- A syntax tree (src/ast/mod.rs): its characters, its blocks and its locations.  References and function calls are
located at a dollar sign. -/
def Ast.In (W : World) : Ast → Prop
  | .empty l => W.Loc l
  | .constant l s => l = s.loc ∧ W.Loc l ∧ ∀ x ∈ s.ltext, W.letter x
  | .preEvaluated l b => W.Loc l ∧ Block.In W b
  | .concat l cs => W.Loc l ∧ Ast.InList W cs
  | .varRef l n => W.letter ('$', l) ∧ Ast.In W n
  | .eval l a => W.letter ('$', l) ∧ Ast.In W a
  | .strip l a => W.letter ('$', l) ∧ Ast.In W a
  | .word l i w => W.letter ('$', l) ∧ Ast.In W i ∧ Ast.In W w
  | .words l a => W.letter ('$', l) ∧ Ast.In W a
/-- A list of syntax trees. -/
def Ast.InList (W : World) : List Ast → Prop
  | [] => True
  | a :: as => Ast.In W a ∧ Ast.InList W as
end

/-- A rule (src/lib.rs lines 166-182). -/
structure Rule.In (W : World) (r : Rule) : Prop where
  target : Block.In W r.target
  targetName : W.file r.targetFname
  deps : ∀ d ∈ r.deps, Block.In W d
  depNames : ∀ f ∈ r.depNames, W.file f
  recipe : ∀ a ∈ r.recipe, Ast.In W a

/-- The database (src/lib.rs lines 217-228). -/
structure Database.In (W : World) (db : Database) : Prop where
  variables : ∀ v p, db.getVariable v = some p → W.var v ∧ Ast.In W p.value
  targetVariables : ∀ f v p, db.getVariableForTarget f v = some p → W.file f ∧ W.var v ∧ Ast.In W p.value
  rules : ∀ f r, db.getRule f = some r → W.file f ∧ Rule.In W r

/-- The handles that resolve in a name cache, together with the given characters. -/
def NameCache.world (n : NameCache) (letter : LChar → Prop) : World :=
  ⟨letter, fun v => ∃ s, n.resolveVar v = some s, fun f => ∃ s, n.resolveFile f = some s⟩

/-- The character `c` stands in the text at the given line and column (both counted from 1). -/
def StandsAt (text : Str) (line column : Nat) (c : Char) : Prop :=
  ∃ before after, text = before ++ c :: after ∧ line = 1 + before.count '\n' ∧
    column = 1 + (before.reverse.takeWhile (· ≠ '\n')).length

/-- Where a character in the database may come from: it stands at its location in a makefile, or it is one of the
separators that are inserted when lines, words and commands are put together. -/
inductive ComesFrom (fs : Fs) (names : NameCache) : LChar → Prop
  | file {c : Char} {line column : Nat} {f : FileName} {name text : Str} :
      names.resolveFile f = some name → fs name = .text text → StandsAt text line column c →
      ComesFrom fs names (c, .source line column f)
  | separator {c : Char} : c = ' ' ∨ c = '\n' ∨ c = ';' → ComesFrom fs names (c, .synthetic)

/-- Like `ComesFrom`, but a dollar sign may stand at the location of any character. -/
def NearlyFrom (fs : Fs) (n : NameCache) (x : LChar) : Prop :=
  ComesFrom fs n x ∨ (x.1 = '$' ∧ (x.2 = .synthetic ∨ ∃ c, ComesFrom fs n (c, x.2)))

/-- The character occurs in some makefile, or is one of the given ones. -/
def InFiles (fs : Fs) (extra : List Char) (c : Char) : Prop :=
  c ∈ extra ∨ ∃ name text, fs name = .text text ∧ c ∈ text

/-- The states that are reached from the initial one: by reading makefiles (src/lib.rs lines 524-555) and by expanding
variables (src/eval/mod.rs lines 88-99), as far as these return. -/
inductive Reachable (fs : Fs) : St → Prop
  | init : Reachable fs St.init
  | read {st st' : St} {n : Nat} {name : Str} {res : Except MakefileError Unit} :
      Reachable fs st → readF fs n (fs name) name st = .ok (res, st') → Reachable fs st'
  | expand {st st' : St} {n : Nat} {v : VariableName} {res : Option Str} :
      Reachable fs st → expandF fs n v st = .ok (res, st') → Reachable fs st'

end Hastur
