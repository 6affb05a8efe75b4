import Verif.Model.Names
/-
Model of src/source_location.rs.
-/
namespace Hastur

/-- `Location` (src/source_location.rs lines 50-79).
Simplified: the tree node of an `EvalLocation` is an opaque identity, compared for equality like
the block it stands for.  No code path constructs an `EvalLocation`.  `u32` counters are unbounded.
The test-only variant is left out. -/
inductive Location where
  | source (line character : Nat) (file : FileName)
  | eval (treeNode : Nat) (line character : Nat)
  | synthetic
  deriving DecidableEq, Repr

namespace Location

/-- `<u32 as PartialOrd>::partial_cmp` (src/source_location.rs lines 140-142) -/
def cmpNat (a b : Nat) : Ordering :=
  if a < b then .lt else if a = b then .eq else .gt

/-- `PartialOrd for Location` (src/source_location.rs lines 81-145). -/
def partialCmp (a b : Location) : Option Ordering :=
  match a, b with
  | source al ac af, source bl bc bf =>
    if af ≠ bf then none
    else if al = bl then some (cmpNat ac bc) else some (cmpNat al bl)
  | eval an al ac, eval bn bl bc =>
    if an = bn then
      if al = bl then some (cmpNat ac bc) else some (cmpNat al bl)
    else none
  | synthetic, synthetic => some .eq
  | _, _ => none

/-- `Location::advance_line` (src/source_location.rs lines 154-177). -/
def advanceLine : Location → Location
  | eval n l _ => eval n (l + 1) 1
  | source l _ f => source (l + 1) 1 f
  | synthetic => synthetic

/-- `Location::advance_character` (src/source_location.rs lines 179-208). -/
def advanceCharacter : Location → Location
  | eval n l c => eval n l (c + 1)
  | source l c f => source l (c + 1) f
  | synthetic => synthetic

/-- One step of the loop of `Located::slice` (src/source_location.rs lines 253-259). -/
def advance (l : Location) (c : Char) : Location :=
  if c = '\n' then l.advanceLine else l.advanceCharacter

end Location

/-- `LocatedString` / `LocatedStr` (src/source_location.rs lines 215-219, 297-300). -/
structure LStr where
  loc : Location
  contents : Str
  deriving DecidableEq, Repr

namespace LStr

/-- `str::len` through `Deref` (src/source_location.rs lines 227-233). -/
def len (s : LStr) : Nat := blen s.contents

/-- `Located<&str>::slice` and `LocatedString::slice` (src/source_location.rs lines 247-268, 285-289). -/
def slice (s : LStr) (bytes length : Nat) : Res LStr := do
  rassert (bytes < s.len)
  rassert (bytes + length ≤ s.len)
  let skipped ← btake bytes s.contents
  let rest ← bdrop bytes s.contents
  let taken ← btake length rest
  return { loc := skipped.foldl Location.advance s.loc, contents := taken }

/-- `LocatedString::synthetic_new` (src/source_location.rs lines 280-283). -/
def synthetic (contents : Str) : LStr := ⟨.synthetic, contents⟩

/-- `PartialOrd for Located<T>` (src/source_location.rs lines 221-225): compares locations only. -/
def partialCmp (a b : LStr) : Option Ordering := a.loc.partialCmp b.loc

end LStr
end Hastur
