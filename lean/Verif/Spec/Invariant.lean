import Verif.Model.Engine
/-
Invariants of the engine state.
-/
namespace Hastur

/-- A property of states that is kept by every elementary change the code makes to its state: interning a name, setting
a variable, appending to a variable, and filing a parsed rule. -/
structure EngineInv (I : St → Prop) : Prop where
  var (st : St) (s : Str) : I st → I { st with names := (st.names.internVar s).2 }
  file (st : St) (s : Str) : I st → I { st with names := (st.names.internFile s).2 }
  set (st : St) (v : VariableName) (p : VarParams) : I st → I { st with db := st.db.setVariable v p }
  append (st : St) (v : VariableName) (loc : Location) (p : VarParams) (space : Bool) :
    I st → I { st with db := st.db.appendToVariable v loc p space }
  rule (st : St) (r : ProtoRule) (db : Database) (names : NameCache) :
    I st → st.db.fromProtorule st.names r = .ok (db, names) → I { st with db := db, names := names }

end Hastur
