import Verif.Proofs.RelocateMain
import Verif.Props.Stored
/-
C70: where text stands does not change what it means.
-/
namespace Hastur

open Res

instance anyFile_moves : Moves Location.anyFile :=
  ⟨fun l => by cases l <;> rfl, fun l => by cases l <;> rfl, rfl⟩

instance anywhere_moves : Moves Location.anywhere := ⟨fun _ => rfl, fun _ => rfl, rfl⟩

/-- In the states that are reached the files are known. -/
theorem C70_reachable_known (fs : Fs) (st : St) (h : Reachable fs st) : st.FilesKnown := by
  obtain ⟨h1, h2⟩ := C58_handles_resolve fs st h
  exact ⟨h1.1, fun f r hr => ⟨(h2.rules f r hr).1, (h2.rules f r hr).2.targetName, (h2.rules f r hr).2.depNames⟩,
    fun f v p hp => (h2.targetVariables f v p hp).1⟩

/-! ### The name of a makefile -/

/-- C70: reading the same text under two names gives the same result and the same variables and rules, with the same lines
and columns in them; or both stop with the same panic, or both do not finish. -/
theorem C70_name_irrelevant (fs : Fs) (n : Nat) (content : FsEntry) (name name' : Str) (st : St) (h : st.FilesKnown) :
    SameOutcome (fun x x' => x.1 = x'.1 ∧ SameMeaning Location.anyFile x.2 x'.2)
      (readF fs n content name st) (readF fs n content name' st) := by
  have := readMakefile_same (g := Location.anyFile) (recF_same (fun _ _ => rfl) fs n) (fun _ _ => rfl) content name name'
    (st := st) (st' := st) ⟨SameMeaning.refl st, h, h⟩
  exact SameOutcome.mono this fun x x' hx => ⟨hx.1.exceptUnit, hx.2.same⟩

/-- C70 for everything a user does in turn: whatever makefiles are read under whatever names, and whatever variables are
expanded meanwhile, all answers are the same, and so is what the last state means. -/
theorem C70_names_irrelevant (fs : Fs) (n : Nat) (acts acts' : List Act) (h : acts.map Act.unnamed = acts'.map Act.unnamed) :
    SameOutcome (fun x x' => x.1 = x'.1 ∧ SameMeaning Location.anyFile x.2 x'.2)
      (runActs fs n acts St.init) (runActs fs n acts' St.init) := by
  have := runActs_same (g := Location.anyFile) (fun _ _ => rfl) fs n acts acts' St.init St.init h
    ⟨SameMeaning.refl _, C70_reachable_known fs _ .init, C70_reachable_known fs _ .init⟩
  exact SameOutcome.mono this fun x x' hx => ⟨hx.1, hx.2.same⟩

/-! ### Locations -/

/-- C70 for blocks: two blocks that only differ in their locations, read in states that only differ in locations and in
the handles of files, give the same result and the same variables and rules, up to locations. -/
theorem C70_locations_irrelevant (fs : Fs) (n : Nat) (b b' : Block) (st st' : St) (h : st.FilesKnown) (h' : st'.FilesKnown)
    (hb : Block.mapLoc Location.anywhere b = Block.mapLoc Location.anywhere b') (hs : SameMeaning Location.anywhere st st') :
    SameOutcome (fun x x' => x.1 = x'.1 ∧ SameMeaning Location.anywhere x.2 x'.2 ∧ x.2.FilesKnown ∧ x'.2.FilesKnown)
      (processF fs n b st) (processF fs n b' st') := by
  have := (recF_same (g := Location.anywhere) (fun _ _ => rfl) fs n).block b b' st st' hb ⟨hs, h, h'⟩
  exact SameOutcome.mono this fun x x' hx => ⟨hx.1.exceptUnit, hx.2.same, hx.2.left, hx.2.right⟩

/-- C70 for one piece of text at two places. -/
theorem C70_text_anywhere (fs : Fs) (n : Nat) (text : Str) (l l' : Location) (st : St) (h : st.FilesKnown) :
    SameOutcome (fun x x' => x.1 = x'.1 ∧ SameMeaning Location.anywhere x.2 x'.2)
      (processF fs n (textBlock l text) st) (processF fs n (textBlock l' text) st) := by
  refine SameOutcome.mono (C70_locations_irrelevant fs n _ _ st st h h ?_ (SameMeaning.refl st)) fun x x' hx => ⟨hx.1, hx.2.1⟩
  rfl

/-- C70 for expanding: variables that only differ in locations expand to the same text. -/
theorem C70_expansion (fs : Fs) (n : Nat) (v : VariableName) (st st' : St) (h : st.FilesKnown) (h' : st'.FilesKnown)
    (hs : SameMeaning Location.anywhere st st') :
    SameOutcome (fun x x' => x.1 = x'.1 ∧ SameMeaning Location.anywhere x.2 x'.2)
      (expandF fs n v st) (expandF fs n v st') := by
  have := expandF_same (g := Location.anywhere) (fun _ _ => rfl) fs n v ⟨hs, h, h'⟩
  exact SameOutcome.mono this fun x x' hx => ⟨hx.1, hx.2.same⟩

/-! ### Examples -/

private def noFs : Fs := fun _ => .missing

private def sample : Str := "x=1\nall:b\n\t$(x)\ny:=$(x)\n".toList

/-- The state after reading the sample under a name. -/
private def after (name : String) : Option St :=
  match readF noFs 6 (.text sample) name.toList St.init with
  | .ok (.ok (), st) => some st
  | _ => none

private def handleOf (name target : String) : Option FileName := (after name).bind fun st => st.names.fileName target.toList

/-- The names of the dependencies of a target. -/
private def depsOf (name target : String) : List Str := match after name with
  | some st => match st.ruleNamed target.toList with
    | some r => (r.named Location.anyFile st.names).depNames.filterMap id
    | none => []
  | none => []

/-- The sample is read, and the handle of the target depends on the name of the makefile: under the name `all` the target
and the makefile share a handle. -/
example : (handleOf "Makefile" "all", handleOf "all" "all") = (some ⟨2⟩, some ⟨0⟩) := by decide +kernel

/-- The rule is the same. -/
example : depsOf "Makefile" "all" = [['b']] ∧ depsOf "all" "all" = [['b']] := by decide +kernel

/-- The hypothesis of the first theorem. -/
example : St.init.FilesKnown := C70_reachable_known noFs _ .init

/-- Reading the sample and then expanding `y`. -/
private def readAndExpand (name : String) : List Act := [.read name.toList (.text sample), .expand ⟨1⟩]

example : (readAndExpand "Makefile").map Act.unnamed = (readAndExpand "all").map Act.unnamed := rfl

/-- The text of the last answer. -/
private def lastText (acts : List Act) : Option Str :=
  match runActs noFs 6 acts St.init with
  | .ok ([.read (.ok ()), .expanded t], _) => t
  | _ => none

example : lastText (readAndExpand "Makefile") = some ['1'] ∧ lastText (readAndExpand "all") = some ['1'] := by decide +kernel

/-- Two blocks that only differ in their locations. -/
example : Block.mapLoc Location.anywhere (textBlock (.source 7 3 ⟨4⟩) sample) =
    Block.mapLoc Location.anywhere (textBlock .synthetic sample) := rfl

end Hastur
