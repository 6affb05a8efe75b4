import Verif.Model.Db
import Verif.Spec.History
/-
Vocabulary for the statements about rules and database writes (C03-C07).
-/
namespace Hastur

/-- `s` is the text of block `b`. -/
def Block.HasText (b : Block) (s : Str) : Prop := b.intoString = .ok s

/-- `f` is the interned name of block `b`. -/
def NameCache.Names (names : NameCache) (f : FileName) (b : Block) : Prop :=
  ∃ s, b.HasText s ∧ names.resolveFile f = some s

/-- How many blocks of a list have the text `s`. -/
def countText (s : Str) (bs : List Block) : Nat :=
  (bs.filter fun b => decide (b.intoString = .ok s)).length

/-- A step in the life of a database with its name cache: a parsed rule is inserted
(`Engine::from_protorule`, src/lib.rs lines 519-522), a variable is written, or a name is interned. -/
inductive DbStep : Database × NameCache → Database × NameCache → Prop
  | rule {db db' names names'} (r : ProtoRule) (h : db.fromProtorule names r = .ok (db', names')) :
      DbStep (db, names) (db', names')
  | set {db names} (n : VariableName) (v : VarParams) : DbStep (db, names) (db.setVariable n v, names)
  | append {db names} (n : VariableName) (loc : Location) (v : VarParams) (sp : Bool) :
      DbStep (db, names) (db.appendToVariable n loc v sp, names)
  | setForTarget {db names} (t : FileName) (n : VariableName) (v : VarParams) :
      DbStep (db, names) (db.setVariableForTarget t n v, names)
  | name {db names} (c : NameCall) : DbStep (db, names) (db, c.run names)

/-- Databases and caches reachable from the empty ones. -/
inductive DbReachable : Database × NameCache → Prop
  | init : DbReachable (Database.empty, NameCache.empty)
  | step {a b} (h : DbReachable a) (s : DbStep a b) : DbReachable b

/-- The value of a key after a sequence of writes: the last write to the key, or the initial value. -/
def lastWrite {κ α : Type} [DecidableEq κ] (writes : List (κ × α)) (initial : Option α) (k : κ) : Option α :=
  match (writes.filter fun w => decide (w.1 = k)).getLast? with
  | some w => some w.2
  | none => initial

/-- A block holding a plain text, for concrete examples. -/
def Block.ofText (s : Str) : Block := ⟨[], [CRef.ofNode (.constant (.synthetic s))]⟩

end Hastur
