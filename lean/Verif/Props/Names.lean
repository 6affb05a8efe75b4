import Verif.Proofs.Names
/-
C01, C02: the name cache.
-/
namespace Hastur
namespace NameCache

/-- C01 for file names.  Whatever calls were made before (`past`), interning `s` gives a handle that
resolves to `s` at once and after any later calls (`later`); interning `s` again gives the same handle;
interning a different string never gives that handle. -/
theorem C01_file_names_faithful (past later : List NameCall) (s t : Str) :
    let cache := NameCache.empty.after past
    let handle := (cache.internFile s).1
    let now := (cache.internFile s).2.after later
    now.resolveFile handle = some s ∧ (now.internFile s).1 = handle ∧
      (s ≠ t → (now.internFile t).1 ≠ handle) := by
  intro cache handle now
  have hn : now.Nodup := nodup_after _ _ (nodup_run _ (.file s) (nodup_after _ _ nodup_empty))
  have hr : now.resolveFile handle = some s := resolveFile_after _ _ _ _ (resolveFile_internFile _ _)
  refine ⟨hr, by rw [internFile_of_resolve _ hn _ _ hr], ?_⟩
  intro hne heq
  have h1 := resolveFile_internFile now t
  have h2 := resolveFile_run now (.file t) handle s hr
  rw [heq] at h1
  exact hne (Option.some.inj (h2.symm.trans h1))

/-- C01 for variable names. -/
theorem C01_variable_names_faithful (past later : List NameCall) (s t : Str) :
    let cache := NameCache.empty.after past
    let handle := (cache.internVar s).1
    let now := (cache.internVar s).2.after later
    now.resolveVar handle = some s ∧ (now.internVar s).1 = handle ∧
      (s ≠ t → (now.internVar t).1 ≠ handle) := by
  intro cache handle now
  have hn : now.Nodup := nodup_after _ _ (nodup_run _ (.var s) (nodup_after _ _ nodup_empty))
  have hr : now.resolveVar handle = some s := resolveVar_after _ _ _ _ (resolveVar_internVar _ _)
  refine ⟨hr, by rw [internVar_of_resolve _ hn _ _ hr], ?_⟩
  intro hne heq
  have h1 := resolveVar_internVar now t
  have h2 := resolveVar_run now (.var t) handle s hr
  rw [heq] at h1
  exact hne (Option.some.inj (h2.symm.trans h1))

/-- C02: every handle that resolves keeps resolving to the same string, whatever is interned later. -/
theorem C02_handles_stay_valid (cache : NameCache) (later : List NameCall) (f : FileName)
    (v : VariableName) (s : Str) :
    (cache.resolveFile f = some s → (cache.after later).resolveFile f = some s) ∧
    (cache.resolveVar v = some s → (cache.after later).resolveVar v = some s) :=
  ⟨resolveFile_after _ _ _ _, resolveVar_after _ _ _ _⟩

/-- C02: lookups only find what was interned: in every cache built by calls, `file_name s` and
`variable_name s` are the handles that resolve to `s`, and they find nothing exactly when no call
interned `s` in that namespace. -/
theorem C02_lookups (past : List NameCall) (s : Str) :
    let cache := NameCache.empty.after past
    (∀ f, cache.fileName s = some f ↔ cache.resolveFile f = some s) ∧
    (∀ v, cache.variableName s = some v ↔ cache.resolveVar v = some s) ∧
    (cache.fileName s = none ↔ NameCall.file s ∉ past) ∧
    (cache.variableName s = none ↔ NameCall.var s ∉ past) := by
  intro cache
  have hn : cache.Nodup := nodup_after _ _ nodup_empty
  refine ⟨fun f => fileName_iff _ hn _ _, fun v => variableName_iff _ hn _ _, ?_, ?_⟩
  · unfold fileName
    rw [Option.map_eq_none_iff, Interner.get_none, mem_files_after]
    simp [empty, Interner.empty]
  · unfold variableName
    rw [Option.map_eq_none_iff, Interner.get_none, mem_vars_after]
    simp [empty, Interner.empty]

/-- C02: the namespaces are independent: interning a variable name changes no file-name lookup and
interning a file name changes no variable-name lookup. -/
theorem C02_namespaces_independent (cache : NameCache) (s t : Str) (f : FileName) (v : VariableName) :
    (cache.internVar s).2.fileName t = cache.fileName t ∧
    (cache.internVar s).2.resolveFile f = cache.resolveFile f ∧
    (cache.internFile s).2.variableName t = cache.variableName t ∧
    (cache.internFile s).2.resolveVar v = cache.resolveVar v := ⟨rfl, rfl, rfl, rfl⟩

-- A cache with history: "a" and "b" interned as files, "a" as a variable; then "c" is interned.
example :
    let cache := NameCache.empty.after [.file ['a'], .var ['a'], .file ['b'], .file ['a']]
    cache.fileName ['b'] = some ⟨1⟩ ∧ cache.variableName ['b'] = none ∧
    (cache.internFile ['c']).1 = ⟨2⟩ ∧ (cache.internFile ['a']).1 = ⟨0⟩ ∧
    cache.resolveFile ⟨1⟩ = some ['b'] ∧ cache.resolveVar ⟨0⟩ = some ['a'] := by decide

end NameCache
end Hastur
