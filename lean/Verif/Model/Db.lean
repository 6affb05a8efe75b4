import Verif.Model.Ast
/-
Model of the database (src/lib.rs lines 134-397) and of variables (src/eval/mod.rs).
-/
namespace Hastur

open Res

/-- `types::Map` (src/types.rs): an association list; the first entry of a key counts. -/
structure AMap (κ α : Type) where
  entries : List (κ × α)

namespace AMap
variable {κ α : Type} [DecidableEq κ]

/-- The empty map. (The map type is src/types.rs line 4.) -/
def empty : AMap κ α := ⟨[]⟩

/-- `HashMap::get` (the map type is src/types.rs line 4) -/
def get (m : AMap κ α) (k : κ) : Option α := (m.entries.find? fun e => decide (e.1 = k)).map (·.2)

/-- `HashMap::insert` / `update` (the map type is src/types.rs line 4) -/
def insert (m : AMap κ α) (k : κ) (a : α) : AMap κ α :=
  ⟨(k, a) :: m.entries.filter fun e => !decide (e.1 = k)⟩

end AMap

/-- `Flavor` (src/eval/mod.rs lines 9-22). -/
inductive Flavor
  | simple
  | recursive
  | conditional
  | shell
  deriving DecidableEq, Repr

/-- `Origin` (src/eval/mod.rs lines 24-41). -/
inductive Origin
  | default
  | environment
  | file
  | environmentOverride
  | command
  | automatic
  | invalid
  deriving DecidableEq, Repr

/-- `VariableParameters` (src/eval/mod.rs lines 43-59). -/
structure VarParams where
  value : Ast
  flavor : Flavor
  origin : Origin

/-- `RuleType` (src/lib.rs lines 146-153). -/
inductive RuleType
  | standard
  | doubleColon
  deriving DecidableEq, Repr

/-- `Rule` (src/lib.rs lines 166-182).  The recipe is the list of its unexpanded commands. -/
structure Rule where
  target : Block
  targetFname : FileName
  deps : List Block
  depNames : List FileName
  recipe : List Ast
  ruleType : RuleType

/-- `ProtoRule` (src/parsers/mod.rs lines 65-78). -/
structure ProtoRule where
  targets : List Block
  deps : List Block
  recipe : List Ast
  ruleType : RuleType

/-- `Database` (src/lib.rs lines 217-228). -/
structure Database where
  variables : AMap VariableName VarParams
  targetVariables : AMap FileName (AMap VariableName VarParams)
  rules : AMap FileName Rule

namespace Database

/-- `Database::default` (src/lib.rs line 219). -/
def empty : Database := ⟨AMap.empty, AMap.empty, AMap.empty⟩

/-- `Database::add_rule` (src/lib.rs lines 236-241). -/
def addRule (db : Database) (r : Rule) : Database :=
  { db with rules := db.rules.insert r.targetFname r }

/-- `Database::set_variable` (src/lib.rs lines 315-322). -/
def setVariable (db : Database) (n : VariableName) (v : VarParams) : Database :=
  { db with variables := db.variables.insert n v }

/-- `Database::append_to_variable` (src/lib.rs lines 324-356). -/
def appendToVariable (db : Database) (n : VariableName) (loc : Location) (content : VarParams)
    (implicitSpace : Bool) : Database :=
  match db.variables.get n with
  | none => { db with variables := db.variables.insert n content }
  | some old =>
    let value := Ast.collapsingConcat loc
      (if implicitSpace then
        [old.value, Ast.mkConstant (.synthetic [' ']), content.value]
      else [old.value, content.value])
    { db with variables := db.variables.insert n { old with value := value } }

/-- `Database::set_variable_for_target` (src/lib.rs lines 358-372). -/
def setVariableForTarget (db : Database) (t : FileName) (n : VariableName) (v : VarParams) : Database :=
  let inner := (db.targetVariables.get t).getD AMap.empty
  { db with targetVariables := db.targetVariables.insert t (inner.insert n v) }

/-- `Database::get_variable` (src/lib.rs lines 374-379). -/
def getVariable (db : Database) (n : VariableName) : Option VarParams := db.variables.get n

/-- `Database::get_variable_for_target` (src/lib.rs lines 381-391). -/
def getVariableForTarget (db : Database) (t : FileName) (n : VariableName) : Option VarParams :=
  (db.targetVariables.get t).bind fun m => m.get n

/-- `Database::get_rule` (src/lib.rs lines 393-396). -/
def getRule (db : Database) (t : FileName) : Option Rule := db.rules.get t

/-- Intern the text of every block of a list, in order (src/lib.rs lines 250-253). -/
def internBlocks (names : NameCache) : List Block → Res (List FileName × NameCache)
  | [] => .ok ([], names)
  | b :: bs => do
    let s ← b.intoString
    let (f, names) := names.internFile s
    let (fs, names) ← internBlocks names bs
    return (f :: fs, names)

/-- Insert an element into a set kept as a list without duplicates. (The set of src/lib.rs line 250.) -/
def setInsert (s : List FileName) (f : FileName) : List FileName := if f ∈ s then s else s ++ [f]

/-- The target loop of `from_protorule` (src/lib.rs lines 257-310). -/
def protoTargets (deps : List Block) (depNames : List FileName) (recipe : List Ast) (ruleType : RuleType) :
    List Block → Database → NameCache → Res (Database × NameCache)
  | [], db, names => .ok (db, names)
  | t :: ts, db, names => do
    let s ← t.intoString
    let (f, names) := names.internFile s
    let fresh : Rule := ⟨t, f, deps, depNames, recipe, ruleType⟩
    let rule := if recipe.isEmpty then
        match db.rules.get f with
        | some r => { r with deps := r.deps ++ deps, depNames := depNames.foldl setInsert r.depNames }
        | none => fresh
      else fresh
    protoTargets deps depNames recipe ruleType ts { db with rules := db.rules.insert f rule } names

/-- `Database::from_protorule` (src/lib.rs lines 243-313). -/
def fromProtorule (db : Database) (names : NameCache) (r : ProtoRule) : Res (Database × NameCache) := do
  let (fs, names) ← internBlocks names r.deps
  let depNames := fs.foldl setInsert []
  protoTargets r.deps depNames r.recipe r.ruleType r.targets db names

end Database
end Hastur
