import Verif.Model.Engine
/-
Changing the locations that are recorded in data, and comparing states up to such changes.
-/
namespace Hastur

/-- Change the location of a piece of text (src/source_location.rs lines 215-219). -/
def LStr.mapLoc (g : Location → Location) (s : LStr) : LStr := ⟨g s.loc, s.contents⟩

mutual
/-- Change every location in a node of evaluated text (src/evaluated/nodes.rs lines 8-22). -/
def Node.mapLoc (g : Location → Location) : Node → Node
  | .constant s => .constant (s.mapLoc g)
  | .concat v => .concat (Block.mapLoc g v)
  | .varRef n v => .varRef (Block.mapLoc g n) (Block.mapLoc g v)
  | .subRef n k r v => .subRef (Block.mapLoc g n) (Block.mapLoc g k) (Block.mapLoc g r) (Block.mapLoc g v)
  | .evaluated v => .evaluated (Block.mapLoc g v)
/-- Change every location in a block (src/evaluated/mod.rs lines 19-28). -/
def Block.mapLoc (g : Location → Location) : BlockOf Node → BlockOf Node
  | ⟨sens, content⟩ => ⟨sens, CRef.mapLocs g content⟩
/-- Change every location in a list of references. -/
def CRef.mapLocs (g : Location → Location) : List (CRefOf Node) → List (CRefOf Node)
  | [] => []
  | c :: cs => CRef.mapLoc g c :: CRef.mapLocs g cs
/-- Change every location in a reference (src/evaluated/content_reference.rs lines 6-14). -/
def CRef.mapLoc (g : Location → Location) : CRefOf Node → CRefOf Node
  | ⟨offset, length, node⟩ => ⟨offset, length, Node.mapLoc g node⟩
end

mutual
/-- Change every location in a syntax tree (src/ast/mod.rs lines 21-26, 194-230). -/
def Ast.mapLoc (g : Location → Location) : Ast → Ast
  | .empty l => .empty (g l)
  | .constant l s => .constant (g l) (s.mapLoc g)
  | .preEvaluated l b => .preEvaluated (g l) (Block.mapLoc g b)
  | .concat l cs => .concat (g l) (Ast.mapLocs g cs)
  | .varRef l n => .varRef (g l) (Ast.mapLoc g n)
  | .eval l a => .eval (g l) (Ast.mapLoc g a)
  | .strip l a => .strip (g l) (Ast.mapLoc g a)
  | .word l i w => .word (g l) (Ast.mapLoc g i) (Ast.mapLoc g w)
  | .words l a => .words (g l) (Ast.mapLoc g a)
/-- Change every location in a list of syntax trees. -/
def Ast.mapLocs (g : Location → Location) : List Ast → List Ast
  | [] => []
  | a :: as => Ast.mapLoc g a :: Ast.mapLocs g as
end

/-- Change every location in a variable (src/eval/mod.rs lines 43-59). -/
def VarParams.mapLoc (g : Location → Location) (p : VarParams) : VarParams := { p with value := p.value.mapLoc g }

/-- A rule without its handles: the name it is filed under, its target, its dependencies, their names as a set, its
recipe and its type. -/
structure NamedRule where
  name : Option Str
  target : Block
  deps : List Block
  depNames : List (Option Str)
  recipe : List Ast
  ruleType : RuleType

/-- A rule seen without handles and with changed locations. -/
def Rule.named (g : Location → Location) (names : NameCache) (r : Rule) : NamedRule :=
  ⟨names.resolveFile r.targetFname, Block.mapLoc g r.target, r.deps.map (Block.mapLoc g),
    r.depNames.map names.resolveFile, r.recipe.map (Ast.mapLoc g), r.ruleType⟩

/-- The rule for the target of that name. -/
def St.ruleNamed (st : St) (s : Str) : Option Rule := (st.names.fileName s).bind st.db.getRule

/-- The value a variable has for the target of that name. -/
def St.targetVariable (st : St) (s : Str) (v : VariableName) : Option VarParams :=
  (st.names.fileName s).bind fun f => st.db.getVariableForTarget f v

/-- The two states define the same when locations are compared through `g` and files by their names: the same variable
names are known under the same handles, they have the same values, for every target the same target-specific values,
and for every target the same rule. -/
structure SameMeaning (g : Location → Location) (st st' : St) : Prop where
  commandChar : st.commandChar = st'.commandChar
  names : st.names.vars = st'.names.vars
  variables : ∀ v, (st.db.getVariable v).map (VarParams.mapLoc g) = (st'.db.getVariable v).map (VarParams.mapLoc g)
  targetVariables : ∀ s v, (st.targetVariable s v).map (VarParams.mapLoc g) =
    (st'.targetVariable s v).map (VarParams.mapLoc g)
  rules : ∀ s, (st.ruleNamed s).map (Rule.named g st.names) = (st'.ruleNamed s).map (Rule.named g st'.names)

/-- No file name has two handles, and every file handle in the database stands for a name. -/
structure St.FilesKnown (st : St) : Prop where
  nodup : st.names.files.strings.Nodup
  rules : ∀ f r, st.db.getRule f = some r → (∃ s, st.names.resolveFile f = some s) ∧
    (∃ s, st.names.resolveFile r.targetFname = some s) ∧ ∀ d ∈ r.depNames, ∃ s, st.names.resolveFile d = some s
  targetVariables : ∀ f v p, st.db.getVariableForTarget f v = some p → ∃ s, st.names.resolveFile f = some s

/-- Forget which file a location is in; the line and the column stay. -/
def Location.anyFile : Location → Location
  | .source line column _ => .source line column ⟨0⟩
  | l => l

/-- Forget a location. -/
def Location.anywhere : Location → Location := fun _ => .synthetic

/-- Something a user of the library does: give it the content of a file under a name (src/lib.rs lines 524-555), or expand
a variable (src/eval/mod.rs lines 88-99). -/
inductive Act
  | read (name : Str) (content : FsEntry)
  | expand (v : VariableName)

/-- What comes back. -/
inductive Answer
  | read (res : Except MakefileError Unit)
  | expanded (text : Option Str)

/-- One act. -/
def Act.run (fs : Fs) (n : Nat) (st : St) : Act → Res (Answer × St)
  | .read name content => do
    let (res, st) ← readF fs n content name st
    return (.read res, st)
  | .expand v => do
    let (text, st) ← expandF fs n v st
    return (.expanded text, st)

/-- Several acts, one after the other. -/
def runActs (fs : Fs) (n : Nat) : List Act → St → Res (List Answer × St)
  | [], st => .ok ([], st)
  | a :: as, st => do
    let (x, st) ← a.run fs n st
    let (xs, st) ← runActs fs n as st
    return (x :: xs, st)

/-- An act without the name under which a file is read. -/
def Act.unnamed : Act → Act
  | .read _ content => .read [] content
  | .expand v => .expand v

/-- Two outcomes of the same kind: two values that are related, twice the same panic, or twice out of budget. -/
def SameOutcome {α : Type} (R : α → α → Prop) : Res α → Res α → Prop
  | .ok a, .ok b => R a b
  | .panic p, .panic q => p = q
  | .fuel, .fuel => True
  | _, _ => False

end Hastur
