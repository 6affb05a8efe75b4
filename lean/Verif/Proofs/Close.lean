import Verif.Proofs.Recipe
import Verif.Proofs.Conditional
import Verif.Proofs.Db
/-
Lemmas: completing a rule, in terms of the table of rules.
-/
namespace Hastur

open Res Span

/-- What is known about a target, from its rule. -/
def Rule.view (r : Rule) : RuleView := ⟨r.deps.map Block.ltext, r.recipe.map Ast.flat, r.ruleType⟩

/-- The table of rules. -/
def ruleTable (db : Database) (names : NameCache) : Rules := fun s => ((names.fileName s).bind db.getRule).map Rule.view

theorem St.ruleTable_eq (st : St) : st.ruleTable = Hastur.ruleTable st.db st.names := rfl

theorem RulesKnown.after {db : Database} {names : NameCache} (h : RulesKnown db names) (cs : List NameCall) :
    RulesKnown db (names.after cs) :=
  ⟨NameCache.nodup_after _ _ h.nodup, fun f r hr => by
    obtain ⟨s, hs⟩ := h.known f r hr
    exact ⟨s, NameCache.resolveFile_after _ _ _ _ hs⟩⟩

/-- Interning names does not change the table. -/
theorem RulesKnown.table_after {db : Database} {names : NameCache} (h : RulesKnown db names) (cs : List NameCall) :
    ruleTable db (names.after cs) = ruleTable db names := by
  funext s
  unfold ruleTable
  congr 1
  have hn := NameCache.nodup_after names cs h.nodup
  apply Option.ext
  intro r
  simp only [Option.bind_eq_some_iff]
  constructor
  · rintro ⟨f, h1, h2⟩
    obtain ⟨s', h3⟩ := h.known f r h2
    have h4 := NameCache.resolveFile_after names cs _ _ h3
    rw [(NameCache.fileName_iff _ hn _ _).mp h1] at h4
    cases h4
    exact ⟨f, (NameCache.fileName_iff _ h.nodup _ _).mpr h3, h2⟩
  · rintro ⟨f, h1, h2⟩
    exact ⟨f, (NameCache.fileName_iff _ hn _ _).mpr
      (NameCache.resolveFile_after names cs _ _ ((NameCache.fileName_iff _ h.nodup _ _).mp h1)), h2⟩

/-- Filing a rule under a known name. -/
theorem RulesKnown.insert {db : Database} {names : NameCache} (h : RulesKnown db names) {f : FileName} {s : Str}
    (hf : names.fileName s = some f) (r : Rule) :
    RulesKnown { db with rules := db.rules.insert f r } names ∧
      ∀ x, ruleTable { db with rules := db.rules.insert f r } names x = if x = s then some r.view else ruleTable db names x := by
  have hs := (NameCache.fileName_iff _ h.nodup _ _).mp hf
  refine ⟨⟨h.nodup, fun g q hq => ?_⟩, fun x => ?_⟩
  · by_cases e : g = f
    · exact ⟨s, e ▸ hs⟩
    · refine h.known g q ?_
      unfold Database.getRule at hq ⊢
      rwa [AMap.get_insert_ne _ _ e] at hq
  · unfold ruleTable
    by_cases e : x = s
    · subst e
      rw [hf, if_pos rfl]
      simp [Database.getRule]
    · rw [if_neg e]
      congr 1
      cases hx : names.fileName x with
      | none => rfl
      | some g =>
        have : g ≠ f := by
          rintro rfl
          have := (NameCache.fileName_iff _ h.nodup _ _).mp hx
          rw [hs] at this
          cases this
          exact e rfl
        simp only [Option.bind_some, Database.getRule]
        exact AMap.get_insert_ne _ _ this

/-- The rule under construction, by its texts. -/
structure OpensAs (o : OpenRule) (r : ProtoRule) : Prop where
  targets : Texts o.targets r.targets
  deps : Texts o.deps r.deps
  recipe : r.recipe.map Ast.flat = o.recipe
  ty : r.ruleType = o.ty

theorem Texts.ltext {ts : List (List LChar)} {bs : List Block} (h : Texts ts bs) : bs.map Block.ltext = ts := by
  induction h with
  | nil => rfl
  | cons h _ ih => simp [h.ltext, ih]

theorem Buf.string {t : List LChar} {b : Block} (h : Buf t b) : b.intoString = .ok (textOf t) := by
  rw [Block.intoString_eq b h.wf, Block.text, h.ltext]

theorem internBlocks_texts {ts : List (List LChar)} {bs : List Block} (h : Texts ts bs) (names : NameCache) :
    ∃ fs cs, Database.internBlocks names bs = .ok (fs, names.after cs) := by
  induction h generalizing names with
  | nil => exact ⟨[], [], rfl⟩
  | @cons t b ts bs hb _ ih =>
    obtain ⟨fs, cs, e⟩ := ih (names.internFile (textOf t)).2
    refine ⟨(names.internFile (textOf t)).1 :: fs, .file (textOf t) :: cs, ?_⟩
    simp only [Database.internBlocks, hb.string, ok_bind, e]
    rfl

theorem fileName_internFile {names : NameCache} (h : names.Nodup) (s : Str) :
    (names.internFile s).2.fileName s = some (names.internFile s).1 :=
  (NameCache.fileName_iff _ (NameCache.nodup_run _ (.file s) h) _ _).mpr (NameCache.resolveFile_internFile _ _)

theorem protoTargets_table {o : OpenRule} {deps : List Block} {dn : List FileName} {recipe : List Ast} {ty : RuleType}
    (hd : deps.map Block.ltext = o.deps) (hr : recipe.map Ast.flat = o.recipe) (hty : ty = o.ty)
    {ts : List (List LChar)} {bs : List Block} (h : Texts ts bs) :
    ∀ {db : Database} {names : NameCache}, RulesKnown db names →
      ∃ db' cs, Database.protoTargets deps dn recipe ty bs db names = .ok (db', names.after cs) ∧
        RulesKnown db' (names.after cs) ∧ db'.variables = db.variables ∧ db'.targetVariables = db.targetVariables ∧
        ruleTable db' (names.after cs) =
          ts.foldl (fun r t s => if s = textOf t then some (o.merge (r s)) else r s) (ruleTable db names) := by
  induction h with
  | nil => intro db names hk; exact ⟨db, [], rfl, hk, rfl, rfl, rfl⟩
  | @cons t b ts bs hb _ ih =>
    intro db names hk
    have hk1 : RulesKnown db (names.internFile (textOf t)).2 := hk.after [.file (textOf t)]
    have hf := fileName_internFile hk.nodup (textOf t)
    have ht1 : ruleTable db (names.internFile (textOf t)).2 = ruleTable db names := hk.table_after [.file (textOf t)]
    let f := (names.internFile (textOf t)).1
    let fresh : Rule := ⟨b, f, deps, dn, recipe, ty⟩
    let rule : Rule := if recipe.isEmpty then
        match db.rules.get f with
        | some r => { r with deps := r.deps ++ deps, depNames := dn.foldl Database.setInsert r.depNames }
        | none => fresh
      else fresh
    obtain ⟨k1, k2⟩ := hk1.insert hf rule
    obtain ⟨db', cs, e1, e2, e3, e4, e5⟩ := ih k1
    refine ⟨db', .file (textOf t) :: cs, ?_, e2, e3, e4, ?_⟩
    · simp only [Database.protoTargets, hb.string, ok_bind]
      exact e1
    · show ruleTable db' ((names.internFile (textOf t)).2.after cs) = _
      rw [e5, List.foldl_cons]
      congr 1
      funext s
      rw [k2]
      by_cases hs : s = textOf t
      · subst hs
        rw [if_pos rfl, if_pos rfl, ← ht1]
        congr 1
        have hold : ruleTable db (names.internFile (textOf t)).2 (textOf t) = (db.rules.get f).map Rule.view := by
          unfold ruleTable
          rw [hf]
          rfl
        rw [hold]
        cases recipe with
        | nil =>
          have hor : o.recipe = [] := by rw [← hr]; rfl
          unfold OpenRule.merge
          rw [hor]
          cases hg : db.rules.get f with
          | none => simp [rule, hg, fresh, Rule.view, hd, hty]
          | some r => simp [rule, hg, Rule.view, hd]
        | cons a rs =>
          unfold OpenRule.merge
          rw [← hr]
          simp [rule, fresh, Rule.view, hd, hty]
      · rw [if_neg hs, if_neg hs, ht1]

/-- Completing the open rule. -/
theorem closeRule_at {p : PState} {st : St} {o : OpenRule} {r : ProtoRule} (hp : p.currentRule = some r) (ho : OpensAs o r)
    (hw : st.WF) (hk : RulesKnown st.db st.names) :
    ∃ st' cs, p.closeRule st = .ok ({ p with currentRule := none }, st') ∧ st'.WF ∧ RulesKnown st'.db st'.names ∧
      st'.ruleTable = st.ruleTable.file o ∧ st'.db.variables = st.db.variables ∧
      st'.db.targetVariables = st.db.targetVariables ∧ st'.names = st.names.after cs ∧ st'.commandChar = st.commandChar := by
  obtain ⟨fs, cs1, e1⟩ := internBlocks_texts ho.deps st.names
  obtain ⟨db', cs2, f1, f2, f3, f4, f5⟩ := protoTargets_table (o := o) (dn := fs.foldl Database.setInsert []) ho.deps.ltext
    ho.recipe ho.ty ho.targets (hk.after cs1)
  rw [← NameCache.after_append] at f1 f2 f5
  refine ⟨⟨db', st.names.after (cs1 ++ cs2), st.commandChar⟩, cs1 ++ cs2, ?_, ?_, f2, ?_, f3, f4, rfl, rfl⟩
  · simp only [PState.closeRule, hp, Database.fromProtorule, e1, ok_bind, f1]
    rfl
  · refine ⟨vars_nodup_after _ _ hw.nodup, fun v q hv => ?_, fun v q hv => ?_⟩
    · have hv : st.db.getVariable v = some q := by unfold Database.getVariable at hv ⊢; rwa [← f3]
      obtain ⟨s, hs⟩ := hw.known v q hv
      exact ⟨s, NameCache.resolveVar_after _ _ _ _ hs⟩
    · have hv : st.db.getVariable v = some q := by unfold Database.getVariable at hv ⊢; rwa [← f3]
      exact hw.values v q hv
  · rw [St.ruleTable_eq, f5, hk.table_after, ← St.ruleTable_eq]
    rfl

/-- Only the variables matter for looking up variables. -/
theorem lookup_variables {st st' : St} (h : st'.db.variables = st.db.variables) (hn : st'.names = st.names) :
    st'.lookup = st.lookup := by
  funext s
  unfold St.lookup
  rw [hn]
  congr 1
  funext v
  unfold Database.getVariable
  rw [h]

end Hastur
