import Verif.Model.Db
import Verif.Proofs.Names
/-
Lemmas about maps, databases and rule insertion.
-/
namespace Hastur

namespace AMap
variable {κ α : Type} [DecidableEq κ]

@[simp] theorem get_empty (k : κ) : (empty : AMap κ α).get k = none := rfl

@[simp] theorem get_insert_self (m : AMap κ α) (k : κ) (a : α) : (m.insert k a).get k = some a := by
  simp [get, insert]

theorem get_insert_ne (m : AMap κ α) {k k' : κ} (a : α) (h : k' ≠ k) :
    (m.insert k a).get k' = m.get k' := by
  unfold get insert
  simp only [List.find?_cons]
  rw [show decide (k = k') = false from by simp [Ne.symm h]]
  simp only []
  rw [List.find?_filter]
  congr 2
  funext e
  by_cases he : e.1 = k' <;> simp [he, h]

theorem get_insert (m : AMap κ α) (k k' : κ) (a : α) :
    (m.insert k a).get k' = if k' = k then some a else m.get k' := by
  by_cases h : k' = k
  · simp [h]
  · simp [h, get_insert_ne m a h]

end AMap

/-- The elements of a list inserted into a set. -/
theorem Database.mem_setInsert (s : List FileName) (f g : FileName) :
    g ∈ setInsert s f ↔ g ∈ s ∨ g = f := by
  unfold setInsert
  split
  · constructor
    · exact Or.inl
    · rintro (h | rfl) <;> assumption
  · simp

theorem Database.mem_foldl_setInsert (l : List FileName) (s : List FileName) (g : FileName) :
    g ∈ l.foldl setInsert s ↔ g ∈ s ∨ g ∈ l := by
  induction l generalizing s with
  | nil => simp
  | cons f l ih => simp only [List.foldl_cons, ih, mem_setInsert, List.mem_cons, or_assoc]

namespace Database

/-- Interning the texts of blocks is a history of `intern_file_name` calls. -/
theorem internBlocks_after {bs : List Block} {names names' : NameCache} {fs : List FileName}
    (h : internBlocks names bs = .ok (fs, names')) : ∃ calls, names' = names.after calls := by
  induction bs generalizing names fs names' with
  | nil => simp only [internBlocks, Res.ok.injEq, Prod.mk.injEq] at h; exact ⟨[], h.2.symm⟩
  | cons b bs ih =>
    simp only [internBlocks] at h
    obtain ⟨s, hs, h⟩ := Res.bind_eq_ok.mp h
    obtain ⟨⟨fs', n'⟩, h', h⟩ := Res.bind_eq_ok.mp h
    simp only [Res.pure_eq, Res.ok.injEq, Prod.mk.injEq] at h
    obtain ⟨calls, hc⟩ := ih h'
    refine ⟨.file s :: calls, ?_⟩
    rw [← h.2, hc]; rfl

/-- The handles returned are those of the texts, in any later cache. -/
theorem mem_internBlocks {bs : List Block} {names names' : NameCache} {fs : List FileName}
    (hn : names.Nodup) (h : internBlocks names bs = .ok (fs, names')) (later : List NameCall)
    (g : FileName) :
    g ∈ fs ↔ ∃ b ∈ bs, ∃ s, b.intoString = .ok s ∧ (names'.after later).resolveFile g = some s := by
  induction bs generalizing names fs names' with
  | nil => simp only [internBlocks, Res.ok.injEq, Prod.mk.injEq] at h; simp [← h.1]
  | cons b bs ih =>
    simp only [internBlocks] at h
    obtain ⟨s, hs, h⟩ := Res.bind_eq_ok.mp h
    obtain ⟨⟨fs', n'⟩, h', h⟩ := Res.bind_eq_ok.mp h
    simp only [Res.pure_eq, Res.ok.injEq, Prod.mk.injEq] at h
    obtain ⟨rfl, rfl⟩ := h
    have hn1 : (names.internFile s).2.Nodup := NameCache.nodup_run names (.file s) hn
    have ih' := ih hn1 h'
    obtain ⟨calls, hc⟩ := internBlocks_after h'
    have hfin : (n'.after later).Nodup := by
      rw [hc]; exact NameCache.nodup_after _ _ (NameCache.nodup_after _ _ hn1)
    have hr : (n'.after later).resolveFile (names.internFile s).1 = some s := by
      rw [hc]
      exact NameCache.resolveFile_after _ _ _ _ (NameCache.resolveFile_after _ _ _ _
        (NameCache.resolveFile_internFile names s))
    simp only [List.mem_cons, ih', exists_eq_or_imp]
    apply or_congr_left
    constructor
    · rintro rfl; exact ⟨s, hs, hr⟩
    · rintro ⟨s', hs', hr'⟩
      have : s' = s := by rw [hs] at hs'; exact (Res.ok.inj hs').symm
      subst this
      have h1 := (NameCache.fileName_iff _ hfin _ _).mpr hr
      have h2 := (NameCache.fileName_iff _ hfin _ _).mpr hr'
      exact Option.some.inj (h2.symm.trans h1)

theorem internBlocks_ok (bs : List Block) (names : NameCache)
    (h : ∀ b ∈ bs, ∃ s, b.intoString = .ok s) : ∃ r, internBlocks names bs = .ok r := by
  induction bs generalizing names with
  | nil => exact ⟨_, rfl⟩
  | cons b bs ih =>
    obtain ⟨s, hs⟩ := h b (by simp)
    obtain ⟨r, hr⟩ := ih (names.internFile s).2 (fun b hb => h b (by simp [hb]))
    exact ⟨((names.internFile s).1 :: r.1, r.2), by simp [internBlocks, hs, hr]⟩

/-- The rule stored for a target after one more rule line for it. -/
def mergeRule (deps : List Block) (depNames : List FileName) (recipe : List Ast) (ty : RuleType)
    (f : FileName) (old : Option Rule) (t : Block) : Rule :=
  if recipe.isEmpty then
    match old with
    | some r => { r with deps := r.deps ++ deps, depNames := depNames.foldl setInsert r.depNames }
    | none => ⟨t, f, deps, depNames, recipe, ty⟩
  else ⟨t, f, deps, depNames, recipe, ty⟩

theorem protoTargets_after {deps : List Block} {dn : List FileName} {recipe : List Ast} {ty : RuleType}
    {ts : List Block} {db db' : Database} {names names' : NameCache}
    (h : protoTargets deps dn recipe ty ts db names = .ok (db', names')) :
    ∃ calls, names' = names.after calls := by
  induction ts generalizing db names with
  | nil => simp only [protoTargets, Res.ok.injEq, Prod.mk.injEq] at h; exact ⟨[], h.2.symm⟩
  | cons t ts ih =>
    simp only [protoTargets] at h
    obtain ⟨s, hs, h⟩ := Res.bind_eq_ok.mp h
    obtain ⟨calls, hc⟩ := ih h
    exact ⟨.file s :: calls, by rw [hc]; rfl⟩

theorem protoTargets_frame {deps : List Block} {dn : List FileName} {recipe : List Ast} {ty : RuleType}
    {ts : List Block} {db db' : Database} {names names' : NameCache}
    (h : protoTargets deps dn recipe ty ts db names = .ok (db', names')) :
    db'.variables = db.variables ∧ db'.targetVariables = db.targetVariables := by
  induction ts generalizing db names with
  | nil => simp only [protoTargets, Res.ok.injEq, Prod.mk.injEq] at h; simp [← h.1]
  | cons t ts ih =>
    simp only [protoTargets] at h
    obtain ⟨s, hs, h⟩ := Res.bind_eq_ok.mp h
    have := ih h
    exact this

theorem protoTargets_get {deps : List Block} {dn : List FileName} {recipe : List Ast} {ty : RuleType}
    {ts : List Block} {db db' : Database} {names names' : NameCache} (hn : names.Nodup)
    (h : protoTargets deps dn recipe ty ts db names = .ok (db', names'))
    (f : FileName) (s : Str) (hf : names'.resolveFile f = some s) :
    db'.rules.get f = (ts.filter fun t => decide (t.intoString = .ok s)).foldl
      (fun old t => some (mergeRule deps dn recipe ty f old t)) (db.rules.get f) := by
  induction ts generalizing db names with
  | nil => simp only [protoTargets, Res.ok.injEq, Prod.mk.injEq] at h; simp [← h.1]
  | cons t ts ih =>
    simp only [protoTargets] at h
    obtain ⟨s', hs', h⟩ := Res.bind_eq_ok.mp h
    have hn1 : (names.internFile s').2.Nodup := NameCache.nodup_run names (.file s') hn
    have := ih hn1 h
    rw [this]
    obtain ⟨calls, hc⟩ := protoTargets_after h
    have hr : names'.resolveFile (names.internFile s').1 = some s' := by
      rw [hc]; exact NameCache.resolveFile_after _ _ _ _ (NameCache.resolveFile_internFile names s')
    have hfin : names'.Nodup := by rw [hc]; exact NameCache.nodup_after _ _ hn1
    simp only [hs', List.filter_cons, Res.ok.injEq, decide_eq_true_eq]
    by_cases hss : s' = s
    · subst hss
      have hfe : f = (names.internFile s').1 := by
        have h1 := (NameCache.fileName_iff _ hfin _ _).mpr hr
        have h2 := (NameCache.fileName_iff _ hfin _ _).mpr hf
        exact Option.some.inj (h2.symm.trans h1)
      rw [if_pos rfl, List.foldl_cons]
      congr 1
      rw [← hfe, AMap.get_insert_self]
      rfl
    · have hfe : f ≠ (names.internFile s').1 := by
        rintro rfl
        rw [hr] at hf; exact hss (Option.some.inj hf)
      rw [if_neg hss, AMap.get_insert_ne _ _ hfe]

theorem protoTargets_other {deps : List Block} {dn : List FileName} {recipe : List Ast} {ty : RuleType}
    {ts : List Block} {db db' : Database} {names names' : NameCache}
    (h : protoTargets deps dn recipe ty ts db names = .ok (db', names'))
    (f : FileName) (hf : names'.resolveFile f = none) : db'.rules.get f = db.rules.get f := by
  induction ts generalizing db names with
  | nil => simp only [protoTargets, Res.ok.injEq, Prod.mk.injEq] at h; simp [← h.1]
  | cons t ts ih =>
    simp only [protoTargets] at h
    obtain ⟨s', hs', h⟩ := Res.bind_eq_ok.mp h
    rw [ih h]
    obtain ⟨calls, hc⟩ := protoTargets_after h
    have hr : names'.resolveFile (names.internFile s').1 = some s' := by
      rw [hc]; exact NameCache.resolveFile_after _ _ _ _ (NameCache.resolveFile_internFile names s')
    have hfe : f ≠ (names.internFile s').1 := by
      rintro rfl; rw [hr] at hf; cases hf
    rw [AMap.get_insert_ne _ _ hfe]

theorem protoTargets_ok {deps : List Block} {dn : List FileName} {recipe : List Ast} {ty : RuleType}
    (ts : List Block) (db : Database) (names : NameCache) (h : ∀ b ∈ ts, ∃ s, b.intoString = .ok s) :
    ∃ r, protoTargets deps dn recipe ty ts db names = .ok r := by
  induction ts generalizing db names with
  | nil => exact ⟨_, rfl⟩
  | cons b bs ih =>
    obtain ⟨s, hs⟩ := h b (by simp)
    simp only [protoTargets, hs, Res.ok_bind]
    exact ih _ _ (fun b hb => h b (by simp [hb]))

theorem fromProtorule_unfold {db db' : Database} {names names' : NameCache} {r : ProtoRule}
    (h : db.fromProtorule names r = .ok (db', names')) :
    ∃ fs names1, internBlocks names r.deps = .ok (fs, names1) ∧
      protoTargets r.deps (fs.foldl setInsert []) r.recipe r.ruleType r.targets db names1 = .ok (db', names') := by
  unfold fromProtorule at h
  obtain ⟨⟨fs, n1⟩, h1, h2⟩ := Res.bind_eq_ok.mp h
  exact ⟨fs, n1, h1, h2⟩

theorem fromProtorule_after {db db' : Database} {names names' : NameCache} {r : ProtoRule}
    (h : db.fromProtorule names r = .ok (db', names')) : ∃ calls, names' = names.after calls := by
  obtain ⟨fs, n1, h1, h2⟩ := fromProtorule_unfold h
  obtain ⟨c1, e1⟩ := internBlocks_after h1
  obtain ⟨c2, e2⟩ := protoTargets_after h2
  exact ⟨c1 ++ c2, by rw [e2, e1, NameCache.after_append]⟩

end Database
end Hastur
