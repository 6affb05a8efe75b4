import Verif.Model.Basic
/-
Model of the name cache (src/lib.rs lines 423-466).
-/
namespace Hastur

/-- A symbol of the string interner: the position of the string in the interner.
Simplified: `string_interner::Sym` stores the index plus one in 32 bits; the model has no upper
bound on the number of symbols. (src/lib.rs line 55.) -/
abbrev Sym := Nat

/-- `FileName` (src/lib.rs lines 212-215). -/
structure FileName where
  sym : Sym
  deriving DecidableEq, Repr

/-- `VariableName` (src/lib.rs lines 207-210). -/
structure VariableName where
  sym : Sym
  deriving DecidableEq, Repr

/-- `string_interner::StringInterner`: the interned strings in order of insertion. (src/lib.rs line 55.) -/
structure Interner where
  strings : List Str
  deriving DecidableEq, Repr

namespace Interner

/-- The empty interner. (Derived `Default`, src/lib.rs line 426.) -/
def empty : Interner := ⟨[]⟩

/-- `StringInterner::get` (src/lib.rs lines 429-431 are the interners) -/
def get (i : Interner) (s : Str) : Option Sym :=
  i.strings.findIdx? (· == s)

/-- `StringInterner::get_or_intern` (src/lib.rs lines 437 and 459) -/
def intern (i : Interner) (s : Str) : Sym × Interner :=
  match i.get s with
  | some k => (k, i)
  | none => (i.strings.length, ⟨i.strings ++ [s]⟩)

/-- `StringInterner::resolve` (src/lib.rs lines 440 and 453) -/
def resolve (i : Interner) (k : Sym) : Option Str := i.strings[k]?

end Interner

/-- `NameCache` (src/lib.rs lines 426-432). -/
structure NameCache where
  files : Interner
  vars : Interner
  deriving DecidableEq, Repr

namespace NameCache

/-- `NameCache::default` (src/lib.rs line 426). -/
def empty : NameCache := ⟨Interner.empty, Interner.empty⟩

/-- `NameCache::intern_file_name` (src/lib.rs lines 435-444). -/
def internFile (n : NameCache) (s : Str) : FileName × NameCache :=
  let (k, i) := n.files.intern s
  (⟨k⟩, { n with files := i })

/-- `NameCache::intern_variable_name` (src/lib.rs lines 456-460). -/
def internVar (n : NameCache) (s : Str) : VariableName × NameCache :=
  let (k, i) := n.vars.intern s
  (⟨k⟩, { n with vars := i })

/-- `NameCache::variable_name` (src/lib.rs lines 462-465). -/
def variableName (n : NameCache) (s : Str) : Option VariableName :=
  (n.vars.get s).map (⟨·⟩)

/-- `NameCache::file_name` (src/lib.rs lines 446-449). -/
def fileName (n : NameCache) (s : Str) : Option FileName :=
  (n.files.get s).map (⟨·⟩)

/-- `NameCache::resolve_file_name` (src/lib.rs lines 451-454). -/
def resolveFile (n : NameCache) (f : FileName) : Option Str := n.files.resolve f.sym

/-- The string behind a variable handle.  The code has no public function for this; it is the
`resolve` of the interner of src/lib.rs line 431. -/
def resolveVar (n : NameCache) (v : VariableName) : Option Str := n.vars.resolve v.sym

end NameCache
end Hastur
