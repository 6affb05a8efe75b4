import Verif.Spec.History
/-
Lemmas about interners and name caches.
-/
namespace Hastur

namespace Interner

theorem get_some {i : Interner} {s : Str} {k : Sym} (h : i.get s = some k) : i.resolve k = some s := by
  unfold get at h
  unfold resolve
  rw [List.findIdx?_eq_some_iff_getElem] at h
  obtain ⟨hlt, heq, _⟩ := h
  simp only [beq_iff_eq] at heq
  rw [List.getElem?_eq_getElem hlt, heq]

theorem get_none {i : Interner} {s : Str} : i.get s = none ↔ s ∉ i.strings := by
  unfold get
  rw [List.findIdx?_eq_none_iff]
  simp only [beq_eq_false_iff_ne, ne_eq]
  exact ⟨fun h hs => h s hs rfl, fun h x hx e => h (e ▸ hx)⟩

theorem resolve_get {i : Interner} (hd : i.strings.Nodup) {s : Str} {k : Sym}
    (h : i.resolve k = some s) : i.get s = some k := by
  cases hg : i.get s with
  | none =>
    rw [get_none] at hg
    exact absurd (List.mem_of_getElem? h) hg
  | some j =>
    have h2 := get_some hg
    unfold resolve at h h2
    congr 1
    obtain ⟨hj, ej⟩ := List.getElem?_eq_some_iff.mp h2
    obtain ⟨hk, ek⟩ := List.getElem?_eq_some_iff.mp h
    exact (List.getElem_inj hd).mp (ej.trans ek.symm)

theorem resolve_intern (i : Interner) (s : Str) : (i.intern s).2.resolve (i.intern s).1 = some s := by
  unfold intern
  cases hg : i.get s with
  | none => simp [resolve]
  | some k => exact get_some hg

theorem resolve_mono (i : Interner) (s t : Str) (k : Sym) (h : i.resolve k = some t) :
    (i.intern s).2.resolve k = some t := by
  unfold intern
  cases hg : i.get s with
  | some _ => exact h
  | none =>
    unfold resolve at *
    obtain ⟨hk, _⟩ := List.getElem?_eq_some_iff.mp h
    simp only []
    rw [List.getElem?_append_left hk]; exact h

theorem nodup_intern (i : Interner) (s : Str) (h : i.strings.Nodup) : (i.intern s).2.strings.Nodup := by
  unfold intern
  cases hg : i.get s with
  | some _ => exact h
  | none =>
    rw [get_none] at hg
    simp only []
    rw [List.nodup_append]
    refine ⟨h, by simp, ?_⟩
    intro a ha b hb
    simp only [List.mem_singleton] at hb
    rintro rfl
    exact hg (hb ▸ ha)

theorem get_intern_ne (i : Interner) (s t : Str) (hne : s ≠ t) :
    (i.intern s).2.get t = i.get t := by
  unfold intern
  cases hg : i.get s with
  | some _ => rfl
  | none =>
    unfold get
    simp only []
    rw [List.findIdx?_append]
    simp [hne]

theorem mem_intern (i : Interner) (s t : Str) :
    t ∈ (i.intern s).2.strings ↔ t ∈ i.strings ∨ t = s := by
  unfold intern
  cases hg : i.get s with
  | some k =>
    simp only []
    constructor
    · exact Or.inl
    · rintro (h | rfl)
      · exact h
      · exact List.mem_of_getElem? (get_some hg)
  | none => simp

theorem resolve_intern_some (i : Interner) (s t : Str) (k : Sym) (h : (i.intern s).2.resolve k = some t) :
    i.resolve k = some t ∨ (t = s ∧ i.get s = none) := by
  revert h
  unfold intern
  cases hg : i.get s with
  | some _ => exact Or.inl
  | none =>
    unfold resolve
    simp only []
    intro h
    rw [List.getElem?_append] at h
    split at h
    · exact Or.inl h
    · right
      have := List.mem_of_getElem? h
      simpa using this

end Interner

namespace NameCache

/-- No string is interned twice. -/
def Nodup (n : NameCache) : Prop := n.files.strings.Nodup ∧ n.vars.strings.Nodup

theorem nodup_empty : empty.Nodup := ⟨List.nodup_nil, List.nodup_nil⟩

theorem nodup_run (n : NameCache) (c : NameCall) (h : n.Nodup) : (c.run n).Nodup := by
  cases c with
  | file s => exact ⟨Interner.nodup_intern _ _ h.1, h.2⟩
  | var s => exact ⟨h.1, Interner.nodup_intern _ _ h.2⟩

theorem nodup_after (n : NameCache) (cs : List NameCall) (h : n.Nodup) : (n.after cs).Nodup := by
  induction cs generalizing n with
  | nil => exact h
  | cons c cs ih => exact ih _ (nodup_run n c h)

theorem resolveFile_run (n : NameCache) (c : NameCall) (f : FileName) (t : Str)
    (h : n.resolveFile f = some t) : (c.run n).resolveFile f = some t := by
  cases c with
  | file s => exact Interner.resolve_mono _ _ _ _ h
  | var s => exact h

theorem resolveVar_run (n : NameCache) (c : NameCall) (f : VariableName) (t : Str)
    (h : n.resolveVar f = some t) : (c.run n).resolveVar f = some t := by
  cases c with
  | var s => exact Interner.resolve_mono _ _ _ _ h
  | file s => exact h

theorem resolveFile_after (n : NameCache) (cs : List NameCall) (f : FileName) (t : Str)
    (h : n.resolveFile f = some t) : (n.after cs).resolveFile f = some t := by
  induction cs generalizing n with
  | nil => exact h
  | cons c cs ih => exact ih _ (resolveFile_run n c f t h)

theorem resolveVar_after (n : NameCache) (cs : List NameCall) (f : VariableName) (t : Str)
    (h : n.resolveVar f = some t) : (n.after cs).resolveVar f = some t := by
  induction cs generalizing n with
  | nil => exact h
  | cons c cs ih => exact ih _ (resolveVar_run n c f t h)

theorem resolveFile_internFile (n : NameCache) (s : Str) :
    (n.internFile s).2.resolveFile (n.internFile s).1 = some s := Interner.resolve_intern _ _

theorem resolveVar_internVar (n : NameCache) (s : Str) :
    (n.internVar s).2.resolveVar (n.internVar s).1 = some s := Interner.resolve_intern _ _

theorem after_append (n : NameCache) (a b : List NameCall) : n.after (a ++ b) = (n.after a).after b := by
  simp [after]

theorem fileName_iff (n : NameCache) (h : n.Nodup) (s : Str) (f : FileName) :
    n.fileName s = some f ↔ n.resolveFile f = some s := by
  unfold fileName resolveFile
  constructor
  · intro hs
    simp only [Option.map_eq_some_iff] at hs
    obtain ⟨k, hk, rfl⟩ := hs
    exact Interner.get_some hk
  · intro hr
    rw [Interner.resolve_get h.1 hr]
    rfl

theorem variableName_iff (n : NameCache) (h : n.Nodup) (s : Str) (f : VariableName) :
    n.variableName s = some f ↔ n.resolveVar f = some s := by
  unfold variableName resolveVar
  constructor
  · intro hs
    simp only [Option.map_eq_some_iff] at hs
    obtain ⟨k, hk, rfl⟩ := hs
    exact Interner.get_some hk
  · intro hr
    rw [Interner.resolve_get h.2 hr]
    rfl

theorem internFile_of_resolve (n : NameCache) (h : n.Nodup) (s : Str) (f : FileName)
    (hr : n.resolveFile f = some s) : n.internFile s = (f, n) := by
  have hg := Interner.resolve_get h.1 hr
  simp [internFile, Interner.intern, hg]

theorem internVar_of_resolve (n : NameCache) (h : n.Nodup) (s : Str) (f : VariableName)
    (hr : n.resolveVar f = some s) : n.internVar s = (f, n) := by
  have hg := Interner.resolve_get h.2 hr
  simp [internVar, Interner.intern, hg]

theorem mem_files_after (cs : List NameCall) (n : NameCache) (s : Str) :
    s ∈ (n.after cs).files.strings ↔ s ∈ n.files.strings ∨ NameCall.file s ∈ cs := by
  induction cs generalizing n with
  | nil => simp [after]
  | cons c cs ih =>
    change s ∈ ((c.run n).after cs).files.strings ↔ _
    rw [ih]
    cases c with
    | file t =>
      change s ∈ (n.files.intern t).2.strings ∨ _ ↔ _
      rw [Interner.mem_intern]; simp [or_assoc]
    | var t => change s ∈ n.files.strings ∨ _ ↔ _; simp

theorem mem_vars_after (cs : List NameCall) (n : NameCache) (s : Str) :
    s ∈ (n.after cs).vars.strings ↔ s ∈ n.vars.strings ∨ NameCall.var s ∈ cs := by
  induction cs generalizing n with
  | nil => simp [after]
  | cons c cs ih =>
    change s ∈ ((c.run n).after cs).vars.strings ↔ _
    rw [ih]
    cases c with
    | var t =>
      change s ∈ (n.vars.intern t).2.strings ∨ _ ↔ _
      rw [Interner.mem_intern]; simp [or_assoc]
    | file t => change s ∈ n.vars.strings ∨ _ ↔ _; simp

end NameCache
end Hastur
