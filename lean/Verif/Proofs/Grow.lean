import Verif.Proofs.Invariant
import Verif.Proofs.Db
import Verif.Spec.Rules
/-
Invariants of the engine: names are only added, the database stays reachable, some parts are never touched.
-/
namespace Hastur

/-- Names are only added. -/
theorem namesGrow_inv (n : NameCache) : EngineInv fun st => ∃ cs, st.names = n.after cs where
  var st s := fun ⟨cs, h⟩ => ⟨cs ++ [.var s], by rw [NameCache.after_append, ← h]; rfl⟩
  file st s := fun ⟨cs, h⟩ => ⟨cs ++ [.file s], by rw [NameCache.after_append, ← h]; rfl⟩
  set st v p h := h
  append st v loc p space h := h
  rule st r db names := fun ⟨cs, h⟩ hr => by
    obtain ⟨ds, hd⟩ := Database.fromProtorule_after hr
    exact ⟨cs ++ ds, by rw [NameCache.after_append, ← h]; exact hd⟩

/-- The database and the names are reachable by the operations of the database. -/
theorem reachable_inv : EngineInv fun st => DbReachable (st.db, st.names) where
  var st s h := .step h (.name (.var s))
  file st s h := .step h (.name (.file s))
  set st v p h := .step h (.set v p)
  append st v loc p space h := .step h (.append v loc p space)
  rule st r db names h hr := .step h (.rule r hr)

/-- The command character is never changed. -/
theorem commandChar_inv (c : Char) : EngineInv fun st => st.commandChar = c where
  var _ _ h := h
  file _ _ h := h
  set _ _ _ h := h
  append _ _ _ _ _ h := h
  rule _ _ _ _ h _ := h

end Hastur
