import Verif.Model.Engine
/-
What a later state still knows of an earlier one.
-/
namespace Hastur

/-- One thing the engine can be told to do: read a makefile, or expand a variable. -/
inductive Doing (fs : Fs) : St → St → Prop
  | read {st st' : St} {n : Nat} {text : FsEntry} {name : Str} {res : Except MakefileError Unit} :
      readF fs n text name st = .ok (res, st') → Doing fs st st'
  | expand {st st' : St} {n : Nat} {v : VariableName} {res : Option Str} :
      expandF fs n v st = .ok (res, st') → Doing fs st st'

/-- One thing after the other. -/
inductive Later (fs : Fs) : St → St → Prop
  | refl {st : St} : Later fs st st
  | step {st st' st'' : St} : Later fs st st' → Doing fs st' st'' → Later fs st st''

/-- The rule for the file `f` still depends on everything it depended on. -/
def KeepsDeps (st st' : St) (f : FileName) : Prop :=
  ∀ r, st.db.getRule f = some r → ∃ r', st'.db.getRule f = some r' ∧ ∀ d ∈ r.depNames, d ∈ r'.depNames

end Hastur
