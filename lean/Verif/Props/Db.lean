import Mathlib.Data.List.Induction
import Verif.Proofs.Db
import Verif.Spec.Rules
/-
C03, C05, C06, C07: the database.  (C04 needs evaluation and is in Props/Eval.lean.)
-/
namespace Hastur
namespace Database

/-- C03: one write.  `set_variable` is a pure function of the database, so the database it is called on
is not changed; the new one answers `v` for `n` and the old answer for everything else. -/
theorem C03_set_variable (db : Database) (n : VariableName) (v : VarParams) :
    (db.setVariable n v).getVariable n = some v ∧
    (∀ m, m ≠ n → (db.setVariable n v).getVariable m = db.getVariable m) ∧
    (∀ t m, (db.setVariable n v).getVariableForTarget t m = db.getVariableForTarget t m) ∧
    (∀ t, (db.setVariable n v).getRule t = db.getRule t) :=
  ⟨AMap.get_insert_self _ _ _, fun _ hm => AMap.get_insert_ne _ _ hm, fun _ _ => rfl, fun _ => rfl⟩

/-- C03: any sequence of writes: the last write to a name wins, names not written keep their value. -/
theorem C03_last_write_wins (db : Database) (writes : List (VariableName × VarParams)) (n : VariableName) :
    (writes.foldl (fun d w => d.setVariable w.1 w.2) db).getVariable n =
      lastWrite writes (db.getVariable n) n := by
  induction writes using List.reverseRecOn with
  | nil => rfl
  | append_singleton ws w ih =>
    rw [List.foldl_append]
    simp only [List.foldl_cons, List.foldl_nil]
    unfold lastWrite at ih ⊢
    rw [List.filter_append]
    by_cases h : w.1 = n
    · subst h
      rw [(C03_set_variable _ _ _).1]
      simp
    · rw [(C03_set_variable _ _ _).2.1 n (Ne.symm h), ih]
      simp [h]

/-- C05: a target-specific write changes exactly the lookup of that target and name. -/
theorem C05_set_variable_for_target (db : Database) (t : FileName) (n : VariableName) (v : VarParams) :
    (db.setVariableForTarget t n v).getVariableForTarget t n = some v ∧
    (∀ t' n', (t', n') ≠ (t, n) →
      (db.setVariableForTarget t n v).getVariableForTarget t' n' = db.getVariableForTarget t' n') ∧
    (∀ m, (db.setVariableForTarget t n v).getVariable m = db.getVariable m) ∧
    (∀ f, (db.setVariableForTarget t n v).getRule f = db.getRule f) := by
  refine ⟨?_, ?_, fun _ => rfl, fun _ => rfl⟩
  · simp [setVariableForTarget, getVariableForTarget]
  · intro t' n' hne
    unfold setVariableForTarget getVariableForTarget
    simp only []
    by_cases ht : t' = t
    · subst ht
      have hn : n' ≠ n := fun h => hne (by rw [h])
      rw [AMap.get_insert_self]
      simp only [Option.bind_some]
      rw [AMap.get_insert_ne _ _ hn]
      cases db.targetVariables.get t' <;> simp
    · rw [AMap.get_insert_ne _ _ ht]

/-- C06: in every reachable database, the rule filed under `f` has `f` as its target name, `f` is the
interned text of its target, and its set of dependency names consists exactly of the interned texts of
the dependencies in its list. -/
theorem C06_rules_filed_under_their_target (db : Database) (names : NameCache)
    (h : DbReachable (db, names)) (f : FileName) (r : Rule) (hr : db.getRule f = some r) :
    r.targetFname = f ∧ names.Names f r.target ∧
    (∀ g, g ∈ r.depNames ↔ ∃ b ∈ r.deps, names.Names g b) ∧
    (∀ b ∈ r.deps, ∃ g, names.Names g b) := by
  -- the invariant, together with the absence of duplicates in the cache
  suffices H : ∀ x : Database × NameCache, DbReachable x → x.2.Nodup ∧ ∀ f r, x.1.getRule f = some r →
      r.targetFname = f ∧ x.2.Names f r.target ∧
      (∀ g, g ∈ r.depNames ↔ ∃ b ∈ r.deps, x.2.Names g b) ∧ (∀ b ∈ r.deps, ∃ g, x.2.Names g b) from
    (H _ h).2 f r hr
  clear h hr f r
  -- names keep naming
  have grow : ∀ (n : NameCache) (calls : List NameCall) (f : FileName) (b : Block),
      n.Names f b → (n.after calls).Names f b := fun n calls f b ⟨s, hs, hf⟩ =>
    ⟨s, hs, NameCache.resolveFile_after _ _ _ _ hf⟩
  have back : ∀ (n : NameCache) (calls : List NameCall) (f : FileName) (b : Block), n.Nodup →
      (∃ g, n.Names g b) → ((n.after calls).Names f b ↔ n.Names f b) := by
    intro n calls f b hn ⟨g, s, hs, hg⟩
    refine ⟨?_, grow n calls f b⟩
    rintro ⟨s', hs', hf⟩
    have hss : s' = s := by
      unfold Block.HasText at hs hs'; rw [hs] at hs'; exact (Res.ok.inj hs').symm
    subst hss
    have hN := NameCache.nodup_after n calls hn
    have h1 := (NameCache.fileName_iff _ hN _ _).mpr (NameCache.resolveFile_after n calls _ _ hg)
    have h2 := (NameCache.fileName_iff _ hN _ _).mpr hf
    have : f = g := Option.some.inj (h2.symm.trans h1)
    exact ⟨s', hs, this ▸ hg⟩
  have lift : ∀ (n : NameCache) (calls : List NameCall) (f : FileName) (r : Rule), n.Nodup →
      (r.targetFname = f ∧ n.Names f r.target ∧
        (∀ g, g ∈ r.depNames ↔ ∃ b ∈ r.deps, n.Names g b) ∧ (∀ b ∈ r.deps, ∃ g, n.Names g b)) →
      (r.targetFname = f ∧ (n.after calls).Names f r.target ∧
        (∀ g, g ∈ r.depNames ↔ ∃ b ∈ r.deps, (n.after calls).Names g b) ∧
        (∀ b ∈ r.deps, ∃ g, (n.after calls).Names g b)) := by
    intro n calls f r hn ⟨h1, h2, h3, h4⟩
    refine ⟨h1, grow _ _ _ _ h2, ?_, fun b hb => ?_⟩
    · intro g
      rw [h3]
      exact exists_congr fun b => and_congr_right fun hb => (back n calls g b hn (h4 b hb)).symm
    · obtain ⟨g, hg⟩ := h4 b hb; exact ⟨g, grow _ _ _ _ hg⟩
  intro x hx
  induction hx with
  | init => exact ⟨NameCache.nodup_empty, fun f r h => by simp [getRule, empty] at h⟩
  | step ha s ih =>
    obtain ⟨hn, hinv⟩ := ih
    cases s with
    | set n v => exact ⟨hn, hinv⟩
    | append n loc v sp =>
      refine ⟨hn, fun f r hr => hinv f r ?_⟩
      revert hr; unfold appendToVariable getRule; split <;> exact id
    | setForTarget t n v => exact ⟨hn, hinv⟩
    | name c =>
      exact ⟨NameCache.nodup_run _ c hn, fun f r hr => lift _ [c] f r hn (hinv f r hr)⟩
    | @rule db db' names names' pr hpr =>
      obtain ⟨fs, n1, h1, h2⟩ := fromProtorule_unfold hpr
      obtain ⟨c1, e1⟩ := internBlocks_after h1
      obtain ⟨c2, e2⟩ := protoTargets_after h2
      have hn1 : n1.Nodup := by rw [e1]; exact NameCache.nodup_after _ _ hn
      have hn2 : names'.Nodup := by rw [e2]; exact NameCache.nodup_after _ _ hn1
      refine ⟨hn2, ?_⟩
      intro f r hr
      have hold : ∀ r0, db.getRule f = some r0 → _ :=
        fun r0 h0 => lift names (c1 ++ c2) f r0 hn (hinv f r0 h0)
      rw [NameCache.after_append, ← e1, ← e2] at hold
      cases hf : names'.resolveFile f with
      | none =>
        unfold getRule at hr
        rw [protoTargets_other h2 f hf] at hr
        obtain ⟨_, ⟨s, _, hs⟩, _⟩ := hold r hr
        rw [hf] at hs; cases hs
      | some s =>
        unfold getRule at hr
        rw [protoTargets_get hn1 h2 f s hf] at hr
        -- membership in the freshly interned dependency names
        have hdep : ∀ g, g ∈ fs ↔ ∃ b ∈ pr.deps, names'.Names g b := by
          intro g; rw [e2]; exact mem_internBlocks hn h1 c2 g
        have hdepn : ∀ b ∈ pr.deps, ∃ g, names'.Names g b := by
          clear hr hold hdep
          suffices ∀ (bs : List Block) (n : NameCache) fs n', internBlocks n bs = .ok (fs, n') →
              ∀ b ∈ bs, ∃ g, n'.Names g b by
            intro b hb
            obtain ⟨g, hg⟩ := this _ _ _ _ h1 b hb
            exact ⟨g, e2 ▸ grow _ _ _ _ hg⟩
          intro bs
          induction bs with
          | nil => intro n fs n' _ b hb; cases hb
          | cons b0 bs ihb =>
            intro n fs n' hh b hb
            simp only [internBlocks] at hh
            obtain ⟨s0, hs0, hh⟩ := Res.bind_eq_ok.mp hh
            obtain ⟨⟨fs', n''⟩, hh', hh⟩ := Res.bind_eq_ok.mp hh
            simp only [Res.pure_eq, Res.ok.injEq, Prod.mk.injEq] at hh
            obtain ⟨_, rfl⟩ := hh
            rcases List.mem_cons.mp hb with rfl | hb
            · obtain ⟨calls, hc⟩ := internBlocks_after hh'
              refine ⟨(n.internFile s0).1, s0, hs0, ?_⟩
              rw [hc]
              exact NameCache.resolveFile_after _ _ _ _ (NameCache.resolveFile_internFile n s0)
            · exact ihb _ _ _ hh' b hb
        -- induction over the occurrences of the target
        have key : ∀ (ts : List Block) (old : Option Rule),
            (∀ t ∈ ts, t.intoString = .ok s) →
            (∀ r0, old = some r0 → r0.targetFname = f ∧ names'.Names f r0.target ∧
              (∀ g, g ∈ r0.depNames ↔ ∃ b ∈ r0.deps, names'.Names g b) ∧
              (∀ b ∈ r0.deps, ∃ g, names'.Names g b)) →
            ∀ r, ts.foldl (fun old t => some (mergeRule pr.deps (fs.foldl setInsert []) pr.recipe
              pr.ruleType f old t)) old = some r →
            r.targetFname = f ∧ names'.Names f r.target ∧
              (∀ g, g ∈ r.depNames ↔ ∃ b ∈ r.deps, names'.Names g b) ∧
              (∀ b ∈ r.deps, ∃ g, names'.Names g b) := by
          intro ts
          induction ts with
          | nil => intro old _ ho r hr; exact ho r hr
          | cons t ts iht =>
            intro old hts ho r hr
            rw [List.foldl_cons] at hr
            refine iht _ (fun t' ht' => hts t' (by simp [ht'])) ?_ r hr
            intro r0 hr0
            have hr0 := Option.some.inj hr0
            subst hr0
            have fresh : (⟨t, f, pr.deps, fs.foldl setInsert [], pr.recipe, pr.ruleType⟩ : Rule).targetFname = f ∧
                names'.Names f t ∧ (∀ g, g ∈ fs.foldl setInsert [] ↔ ∃ b ∈ pr.deps, names'.Names g b) ∧
                (∀ b ∈ pr.deps, ∃ g, names'.Names g b) := by
              refine ⟨rfl, ⟨s, hts t (by simp), hf⟩, fun g => ?_, hdepn⟩
              rw [mem_foldl_setInsert]; simp [hdep]
            unfold mergeRule
            split
            · cases old with
              | none => exact fresh
              | some r1 =>
                obtain ⟨g1, g2, g3, g4⟩ := ho r1 rfl
                refine ⟨g1, g2, fun g => ?_, fun b hb => ?_⟩
                · simp only [mem_foldl_setInsert, g3, List.not_mem_nil, false_or, hdep, List.mem_append]
                  constructor
                  · rintro (⟨b, hb, hg⟩ | ⟨b, hb, hg⟩)
                    · exact ⟨b, Or.inl hb, hg⟩
                    · exact ⟨b, Or.inr hb, hg⟩
                  · rintro ⟨b, hb | hb, hg⟩
                    · exact Or.inl ⟨b, hb, hg⟩
                    · exact Or.inr ⟨b, hb, hg⟩
                · rcases List.mem_append.mp hb with hb | hb
                  · exact g4 b hb
                  · exact hdepn b hb
            · exact fresh
        exact key _ _ (fun t ht => by simpa using (List.mem_filter.mp ht).2) hold r hr

/-- C07: `add_rule` files a rule under its target and leaves the other rules and the variables alone. -/
theorem C07_add_rule (db : Database) (r : Rule) :
    (db.addRule r).getRule r.targetFname = some r ∧ (∀ f, f ≠ r.targetFname → (db.addRule r).getRule f = db.getRule f) ∧
    (∀ n, (db.addRule r).getVariable n = db.getVariable n) ∧
    (∀ t n, (db.addRule r).getVariableForTarget t n = db.getVariableForTarget t n) :=
  ⟨AMap.get_insert_self _ _ _, fun _ hf => AMap.get_insert_ne _ _ hf, fun _ => rfl, fun _ _ => rfl⟩

/-- Two rules for the same file: the second one counts. -/
example (r r' : Rule) (h : r'.targetFname = r.targetFname) :
    ((Database.empty.addRule r).addRule r').getRule r.targetFname = some r' := by
  rw [← h]
  exact (C07_add_rule _ r').1

/-- C07: insertion succeeds whenever every target and dependency has a text. -/
theorem C07_insertion_succeeds (db : Database) (names : NameCache) (r : ProtoRule)
    (h : ∀ b ∈ r.targets ++ r.deps, ∃ s, b.HasText s) : ∃ out, db.fromProtorule names r = .ok out := by
  obtain ⟨⟨fs, n1⟩, h1⟩ := internBlocks_ok r.deps names (fun b hb => h b (by simp [hb]))
  obtain ⟨o, h2⟩ := protoTargets_ok (deps := r.deps) (dn := fs.foldl setInsert []) (recipe := r.recipe)
    (ty := r.ruleType) r.targets db n1 (fun b hb => h b (by simp [hb]))
  exact ⟨o, by unfold fromProtorule; rw [h1]; exact h2⟩

/-- C07: variables are untouched, and so is the rule of every file that is not a target of the new
rule. -/
theorem C07_other_targets_untouched (db db' : Database) (names names' : NameCache) (r : ProtoRule)
    (hn : ∃ past, names = NameCache.empty.after past)
    (h : db.fromProtorule names r = .ok (db', names')) :
    (∀ n, db'.getVariable n = db.getVariable n) ∧
    (∀ t n, db'.getVariableForTarget t n = db.getVariableForTarget t n) ∧
    (∀ f, (∀ t ∈ r.targets, ¬ names'.Names f t) → db'.getRule f = db.getRule f) := by
  obtain ⟨fs, n1, h1, h2⟩ := fromProtorule_unfold h
  obtain ⟨hv, ht⟩ := protoTargets_frame h2
  refine ⟨fun n => by simp [getVariable, hv], fun t n => by simp [getVariableForTarget, ht], ?_⟩
  intro f hf
  unfold getRule
  cases hs : names'.resolveFile f with
  | none => exact protoTargets_other h2 f hs
  | some s =>
    obtain ⟨past, rfl⟩ := hn
    obtain ⟨c1, e1⟩ := internBlocks_after h1
    have hn1 : n1.Nodup := by
      rw [e1]; exact NameCache.nodup_after _ _ (NameCache.nodup_after _ _ NameCache.nodup_empty)
    rw [protoTargets_get hn1 h2 f s hs]
    rw [List.filter_eq_nil_iff.mpr]
    · rfl
    · intro t ht he
      exact hf t ht ⟨s, by simpa [Block.HasText] using he, hs⟩

/-- C07: a rule without commands.  For a target with text `s`, named `k ≥ 1` times in the target list
(normally once), the stored rule gets the new dependencies appended (once per mention), in order, after
the old ones, and keeps target, recipe and kind; a target without a rule gets a rule with just these
dependencies. -/
theorem C07_rule_without_commands (db db' : Database) (names names' : NameCache) (r : ProtoRule)
    (hn : ∃ past, names = NameCache.empty.after past) (hr : r.recipe = [])
    (h : db.fromProtorule names r = .ok (db', names'))
    (f : FileName) (s : Str) (hf : names'.resolveFile f = some s) (k : Nat)
    (hk : countText s r.targets = k + 1) :
    (∀ old, db.getRule f = some old → ∃ new, db'.getRule f = some new ∧
      new.deps = old.deps ++ (List.replicate (k + 1) r.deps).flatten ∧ new.recipe = old.recipe ∧
      new.ruleType = old.ruleType ∧ new.target = old.target ∧ new.targetFname = old.targetFname) ∧
    (db.getRule f = none → ∃ new, db'.getRule f = some new ∧
      new.deps = (List.replicate (k + 1) r.deps).flatten ∧ new.recipe = [] ∧
      new.ruleType = r.ruleType ∧ new.target.HasText s ∧ new.targetFname = f) := by
  obtain ⟨fs, n1, h1, h2⟩ := fromProtorule_unfold h
  obtain ⟨past, rfl⟩ := hn
  obtain ⟨c1, e1⟩ := internBlocks_after h1
  have hn1 : n1.Nodup := by
    rw [e1]; exact NameCache.nodup_after _ _ (NameCache.nodup_after _ _ NameCache.nodup_empty)
  have hg := protoTargets_get hn1 h2 f s hf
  unfold countText at hk
  have hall : ∀ t ∈ r.targets.filter (fun t => decide (t.intoString = .ok s)), t.intoString = .ok s :=
    fun t ht => by simpa using (List.mem_filter.mp ht).2
  generalize r.targets.filter (fun t => decide (t.intoString = .ok s)) = occ at hg hk hall
  -- iterating over a stored rule
  have iter : ∀ (occ : List Block) (old : Rule),
      ∃ new, occ.foldl (fun old t => some (mergeRule r.deps (fs.foldl setInsert []) r.recipe
        r.ruleType f old t)) (some old) = some new ∧
      new.deps = old.deps ++ (List.replicate occ.length r.deps).flatten ∧ new.recipe = old.recipe ∧
      new.ruleType = old.ruleType ∧ new.target = old.target ∧ new.targetFname = old.targetFname := by
    intro occ
    induction occ with
    | nil => intro old; exact ⟨old, by simp⟩
    | cons t occ ih =>
      intro old
      rw [List.foldl_cons]
      obtain ⟨new, e, d1, d2, d3, d4, d5⟩ := ih (mergeRule r.deps (fs.foldl setInsert []) r.recipe
        r.ruleType f (some old) t)
      refine ⟨new, e, ?_, ?_, ?_, ?_, ?_⟩
      · rw [d1]; simp [mergeRule, hr, List.replicate_succ]
      · rw [d2]; simp [mergeRule, hr]
      · rw [d3]; simp [mergeRule, hr]
      · rw [d4]; simp [mergeRule, hr]
      · rw [d5]; simp [mergeRule, hr]
  constructor
  · intro old ho
    obtain ⟨new, e, d⟩ := iter occ old
    refine ⟨new, ?_, ?_⟩
    · unfold getRule at ho ⊢; rw [hg, ho, e]
    · rw [hk] at d; exact d
  · intro ho
    cases occ with
    | nil => simp at hk
    | cons t occ =>
      obtain ⟨new, e, d1, d2, d3, d4, d5⟩ := iter occ (mergeRule r.deps (fs.foldl setInsert []) r.recipe
        r.ruleType f none t)
      refine ⟨new, ?_, ?_, ?_, ?_, ?_, ?_⟩
      · unfold getRule at ho ⊢; rw [hg, ho, List.foldl_cons, e]
      · simp only [List.length_cons, Nat.add_right_cancel_iff] at hk
        rw [d1, hk]; simp [mergeRule, hr, List.replicate_succ]
      · rw [d2]; simp [mergeRule, hr]
      · rw [d3]; simp [mergeRule, hr]
      · rw [d4]; simpa [mergeRule, hr, Block.HasText] using hall t (by simp)
      · rw [d5]; simp [mergeRule, hr]

/-- C07: a rule with commands replaces whatever was stored for each of its targets. -/
theorem C07_rule_with_commands (db db' : Database) (names names' : NameCache) (r : ProtoRule)
    (hn : ∃ past, names = NameCache.empty.after past) (hr : r.recipe ≠ [])
    (h : db.fromProtorule names r = .ok (db', names')) (t : Block) (ht : t ∈ r.targets)
    (f : FileName) (hf : names'.Names f t) :
    ∃ new, db'.getRule f = some new ∧ new.deps = r.deps ∧ new.recipe = r.recipe ∧
      new.ruleType = r.ruleType ∧ new.targetFname = f ∧ names'.Names f new.target := by
  obtain ⟨fs, n1, h1, h2⟩ := fromProtorule_unfold h
  obtain ⟨past, rfl⟩ := hn
  obtain ⟨c1, e1⟩ := internBlocks_after h1
  have hn1 : n1.Nodup := by
    rw [e1]; exact NameCache.nodup_after _ _ (NameCache.nodup_after _ _ NameCache.nodup_empty)
  obtain ⟨s, hs, hfs⟩ := hf
  have hg := protoTargets_get hn1 h2 f s hfs
  have hmem : t ∈ r.targets.filter (fun t => decide (t.intoString = .ok s)) := by
    rw [List.mem_filter]; exact ⟨ht, by simpa [Block.HasText] using hs⟩
  have hall : ∀ t ∈ r.targets.filter (fun t => decide (t.intoString = .ok s)), t.intoString = .ok s :=
    fun t ht => by simpa using (List.mem_filter.mp ht).2
  have hne : r.recipe.isEmpty = false := by simpa using hr
  generalize r.targets.filter (fun t => decide (t.intoString = .ok s)) = occ at hg hmem hall
  cases occ using List.reverseRecOn with
  | nil => cases hmem
  | append_singleton occ t' =>
    rw [List.foldl_append] at hg
    simp only [List.foldl_cons, List.foldl_nil] at hg
    refine ⟨_, hg, ?_, ?_, ?_, ?_, ?_⟩
    · simp [mergeRule, hne]
    · simp [mergeRule, hne]
    · simp [mergeRule, hne]
    · simp [mergeRule, hne]
    · refine ⟨s, ?_, hfs⟩
      simpa [mergeRule, hne, Block.HasText] using hall t' (by simp)

/-! ### Concrete instances -/

/-- `x: b` -/
def exRule1 : ProtoRule := ⟨[.ofText ['x']], [.ofText ['b']], [], .standard⟩
/-- `y x: b c` with a command -/
def exRule2 : ProtoRule := ⟨[.ofText ['y'], .ofText ['x']], [.ofText ['b'], .ofText ['c']],
  [Ast.mkConstant (.synthetic ['k'])], .doubleColon⟩

-- C03, C05: different names, and a database with a previous value
example : ∃ (db : Database) (n m : VariableName) (v : VarParams), m ≠ n ∧ (db.getVariable m).isSome ∧
    ((db.setVariable n v).getVariable m).isSome :=
  ⟨Database.empty.setVariable ⟨1⟩ ⟨Ast.mkEmpty, .simple, .file⟩, ⟨0⟩, ⟨1⟩, ⟨Ast.mkEmpty, .simple, .file⟩,
    by decide, rfl, rfl⟩

-- C06: a reachable database with a rule merged from two insertions
example : ∃ db names r, DbReachable (db, names) ∧ db.getRule ⟨0⟩ = some r ∧ r.deps.length = 3 ∧
    r.depNames = [⟨0⟩, ⟨1⟩, ⟨2⟩] := by
  refine ⟨_, _, _, .step (.step .init (.rule ⟨[.ofText ['b']], [.ofText ['b'], .ofText ['c']], [], .standard⟩
    rfl)) (.rule ⟨[.ofText ['y'], .ofText ['b']], [.ofText ['d']], [], .standard⟩ rfl), rfl, rfl, ?_⟩
  decide

-- C07: the hypotheses of the theorems about rules without and with commands are met
example : ∃ db names, Database.empty.fromProtorule NameCache.empty exRule1 = .ok (db, names) ∧
    names.resolveFile ⟨1⟩ = some ['x'] ∧ countText ['x'] exRule1.targets = 0 + 1 ∧
    ∃ db' names', db.fromProtorule names exRule2 = .ok (db', names') ∧
      names'.Names ⟨1⟩ (.ofText ['x']) ∧ exRule2.recipe ≠ [] :=
  ⟨_, _, rfl, rfl, by decide, _, _, rfl, ⟨['x'], rfl, rfl⟩, by simp [exRule2]⟩

end Database
end Hastur
