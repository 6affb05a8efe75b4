import Verif.Spec.RuleLine
/-
Specification of include lines.
-/
namespace Hastur

/-- The line is an include line: the keyword is followed by `args`.  `soft` tells whether files may be missing.  The case
of the letters of the keyword does not matter. -/
inductive IncludeText : (line : List LChar) → (soft : Bool) → (args : List LChar) → Prop
  | hard {kw args : List LChar} : (textOf kw).map lower = "include".toList → IncludeText (kw ++ args) false args
  | soft {kw args : List LChar} : (textOf kw).map lower ∈ ["sinclude".toList, "-include".toList] →
      IncludeText (kw ++ args) true args

/-- A text in which file names can be written as they are: no backslashes, no NUL characters. -/
def PlainNames (t : List LChar) : Prop := Free '\\' t ∧ Free (Char.ofNat 0) t

/-- The names in the text of an include line.  They are separated by white space (or NUL); a backslash escapes a separator.
How backslashes at the end of the text are read is said by `lastName`. -/
def IncludeNames (u : List LChar) (names : List Str) : Prop :=
  ∃ ns, NamesIn (separates []) (lastName (separates [])) u ns ∧ names = ns.map textOf

/-- Reading the files with the given names one after the other leads from one state to another.  The outcome is the name
of the file at which reading stops, if any: one that is missing although it should not be, or one that cannot be read. -/
inductive Includes (fs : Fs) (soft : Bool) : (names : List Str) → St → (stopped : Option Str) → St → Prop
  | done {st : St} : Includes fs soft [] st none st
  | file {f s : Str} {rest : List Str} {st st1 st' : St} {o : Option Str} : fs f = .text s → FileGives fs f s st st1 →
      Includes fs soft rest st1 o st' → Includes fs soft (f :: rest) st o st'
  | skip {f : Str} {rest : List Str} {st st' : St} {o : Option Str} : soft = true → fs f = .missing →
      Includes fs soft rest st o st' → Includes fs soft (f :: rest) st o st'
  | missing {f : Str} {rest : List Str} {st : St} : soft = false → fs f = .missing →
      Includes fs soft (f :: rest) st (some f) st
  | unreadable {f : Str} {rest : List Str} {st : St} : fs f = .unreadable → Includes fs soft (f :: rest) st (some f) st

end Hastur
