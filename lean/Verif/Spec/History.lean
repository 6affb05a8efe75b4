import Verif.Model.Names
/-
Histories of calls on a name cache, for the statements of C01 and C02.
-/
namespace Hastur

/-- One call that can change a `NameCache`: `intern_file_name` or `intern_variable_name`
(src/lib.rs lines 435-444, 456-460). -/
inductive NameCall
  | file (s : Str)
  | var (s : Str)

/-- The cache after one call. -/
def NameCall.run (n : NameCache) : NameCall → NameCache
  | .file s => (n.internFile s).2
  | .var s => (n.internVar s).2

/-- The cache after a history of calls. -/
def NameCache.after (n : NameCache) (h : List NameCall) : NameCache := h.foldl NameCall.run n

end Hastur
