import Verif.Spec.NothingLost
import Verif.Proofs.Grow
/-
Property C86: reading more makefiles loses nothing.
-/
namespace Hastur

open Res

/-- What is stored for the file `f` in a later state, if the rule was `r` before. -/
private structure Kept (f : FileName) (r : Rule) (st : St) : Prop where
  rule : ∃ r', st.db.getRule f = some r' ∧ (r.recipe ≠ [] → r'.recipe ≠ []) ∧
    (r'.recipe = [] → r.deps <+: r'.deps ∧ ∀ d ∈ r.depNames, d ∈ r'.depNames)

private theorem mem_setInsert {s : List FileName} {d f : FileName} (h : d ∈ s) : d ∈ Database.setInsert s f := by
  unfold Database.setInsert
  split
  · exact h
  · exact List.mem_append_left _ h

private theorem mem_foldl {l : List FileName} : ∀ {s : List FileName} {d : FileName}, d ∈ s →
    d ∈ l.foldl Database.setInsert s := by
  induction l with
  | nil => exact id
  | cons f l ih => exact fun h => ih (mem_setInsert h)

private theorem protoTargets_kept {f : FileName} {r : Rule} {deps : List Block} {depNames : List FileName}
    {recipe : List Ast} {ty : RuleType} {c : Char} (ts : List Block) : ∀ {db db' : Database} {n n' : NameCache},
    Kept f r ⟨db, n, c⟩ → Database.protoTargets deps depNames recipe ty ts db n = .ok (db', n') →
    Kept f r ⟨db', n', c⟩ := by
  induction ts with
  | nil =>
    intro db db' n n' h e
    cases e
    exact h
  | cons t ts ih =>
    intro db db' n n' h e
    unfold Database.protoTargets at e
    obtain ⟨s, _, e⟩ := bind_eq_ok.mp e
    generalize n.internFile s = x at e
    obtain ⟨g, names⟩ := x
    refine ih ?_ e
    obtain ⟨r', h1, h2, h3⟩ := h.rule
    have h1 : db.rules.get f = some r' := h1
    by_cases hg : f = g
    · subst hg
      refine ⟨_, AMap.get_insert_self _ _ _, ?_⟩
      rw [h1]
      cases recipe with
      | nil =>
        refine ⟨h2, fun e => ?_⟩
        obtain ⟨a, b⟩ := h3 e
        exact ⟨a.trans (List.prefix_append _ _), fun d hd => mem_foldl (b d hd)⟩
      | cons a as => exact ⟨fun _ => by simp, fun e => by simp at e⟩
    · exact ⟨r', by rw [Database.getRule, AMap.get_insert_ne _ _ hg]; exact h1, h2, h3⟩

private theorem kept_inv (f : FileName) (r : Rule) : EngineInv (Kept f r) where
  var _ _ h := ⟨h.rule⟩
  file _ _ h := ⟨h.rule⟩
  set _ _ _ h := ⟨h.rule⟩
  append st v loc p space h := by
    refine ⟨?_⟩
    have : (st.db.appendToVariable v loc p space).getRule f = st.db.getRule f := by
      unfold Database.appendToVariable
      split <;> rfl
    show ∃ r', (st.db.appendToVariable v loc p space).getRule f = some r' ∧ _
    rw [this]
    exact h.rule
  rule st r' db names h e := by
    unfold Database.fromProtorule at e
    obtain ⟨⟨fs, n⟩, _, e⟩ := bind_eq_ok.mp e
    exact protoTargets_kept (c := st.commandChar) r'.targets (n := n) ⟨h.rule⟩ e

private theorem protoTargets_rest {deps : List Block} {depNames : List FileName} {recipe : List Ast} {ty : RuleType}
    (ts : List Block) : ∀ {db db' : Database} {n n' : NameCache},
    Database.protoTargets deps depNames recipe ty ts db n = .ok (db', n') →
    db'.variables = db.variables ∧ db'.targetVariables = db.targetVariables := by
  induction ts with
  | nil => intro db db' n n' e; cases e; exact ⟨rfl, rfl⟩
  | cons t ts ih =>
    intro db db' n n' e
    unfold Database.protoTargets at e
    obtain ⟨s, _, e⟩ := bind_eq_ok.mp e
    generalize n.internFile s = x at e
    obtain ⟨g, names⟩ := x
    obtain ⟨h1, h2⟩ := ih e
    exact ⟨h1, h2⟩

private theorem fromProtorule_rest {db db' : Database} {n n' : NameCache} {r : ProtoRule}
    (e : db.fromProtorule n r = .ok (db', n')) :
    db'.variables = db.variables ∧ db'.targetVariables = db.targetVariables := by
  unfold Database.fromProtorule at e
  obtain ⟨⟨fs, m⟩, _, e⟩ := bind_eq_ok.mp e
  exact protoTargets_rest _ e

private theorem defined_inv (v : VariableName) : EngineInv fun st => st.db.getVariable v ≠ none where
  var _ _ h := h
  file _ _ h := h
  set st w p h := by
    show (st.db.variables.insert w p).get v ≠ none
    by_cases hv : v = w
    · subst hv; rw [AMap.get_insert_self]; simp
    · rw [AMap.get_insert_ne _ _ hv]; exact h
  append st w loc p space h := by
    unfold Database.appendToVariable
    split
    all_goals
      show (AMap.insert _ w _).get v ≠ none
      by_cases hv : v = w
      · subst hv; rw [AMap.get_insert_self]; simp
      · rw [AMap.get_insert_ne _ _ hv]; exact h
  rule st r db names h e := by
    show db.variables.get v ≠ none
    rw [(fromProtorule_rest e).1]
    exact h

private theorem targetVariables_inv (m : AMap FileName (AMap VariableName VarParams)) :
    EngineInv fun st => st.db.targetVariables = m where
  var _ _ h := h
  file _ _ h := h
  set _ _ _ h := h
  append st w loc p space h := by
    unfold Database.appendToVariable
    split <;> exact h
  rule st r db names h e := (fromProtorule_rest e).2.trans h

private theorem doing_inv {fs : Fs} {I : St → Prop} (hI : EngineInv I) {st st' : St} (h : Doing fs st st') (hs : I st) :
    I st' := by
  cases h with
  | read e => exact readF_keeps hI hs e
  | expand e =>
    unfold expandF at e
    split at e
    · cases e; exact hs
    · obtain ⟨⟨b, st1⟩, e1, e⟩ := bind_eq_ok.mp e
      obtain ⟨s, _, e⟩ := bind_eq_ok.mp e
      cases e
      exact evalF_keeps hI hs e1

private theorem later_inv {fs : Fs} {I : St → Prop} (hI : EngineInv I) {st st' : St} (h : Later fs st st') (hs : I st) :
    I st' := by
  induction h with
  | refl => exact hs
  | step _ d ih => exact doing_inv hI d ih

/-- **Variables**: whatever is read or expanded, a variable that is defined stays defined. -/
theorem C86_variables (fs : Fs) (st st' : St) (h : Later fs st st') (v : VariableName)
    (hv : st.db.getVariable v ≠ none) : st'.db.getVariable v ≠ none := later_inv (defined_inv v) h hv

/-- **Names**: every handle resolves to the same name as before. -/
theorem C86_names (fs : Fs) (st st' : St) (h : Later fs st st') (s : Str) :
    (∀ f, st.names.resolveFile f = some s → st'.names.resolveFile f = some s) ∧
      ∀ v, st.names.resolveVar v = some s → st'.names.resolveVar v = some s := by
  obtain ⟨cs, e⟩ := later_inv (namesGrow_inv st.names) h ⟨[], rfl⟩
  rw [e]
  exact ⟨fun f => NameCache.resolveFile_after _ _ _ _, fun v => NameCache.resolveVar_after _ _ _ _⟩

/-- **What no makefile can change**: the variables of single targets and the command character. -/
theorem C86_untouched (fs : Fs) (st st' : St) (h : Later fs st st') :
    st'.commandChar = st.commandChar ∧
      ∀ f v, st'.db.getVariableForTarget f v = st.db.getVariableForTarget f v :=
  ⟨later_inv (commandChar_inv _) h rfl, fun f v => by
    unfold Database.getVariableForTarget
    rw [later_inv (targetVariables_inv _) h rfl]⟩

/-- **Rules and commands**: a target that has a rule keeps having one, and one that has commands keeps having some. -/
theorem C86_rules (fs : Fs) (st st' : St) (h : Later fs st st') (f : FileName) (r : Rule) (hr : st.db.getRule f = some r) :
    ∃ r', st'.db.getRule f = some r' ∧ (r.recipe ≠ [] → r'.recipe ≠ []) := by
  have h0 : Kept f r st := ⟨r, hr, id, fun _ => ⟨List.prefix_refl _, fun _ h => h⟩⟩
  obtain ⟨r', h1, h2, _⟩ := (later_inv (kept_inv f r) h h0).rule
  exact ⟨r', h1, h2⟩

/-- **Dependencies**: as long as a target has no commands, no dependency is lost; new ones are put behind the old ones. -/
theorem C86_dependencies_partial (fs : Fs) (st st' : St) (h : Later fs st st') (f : FileName) (r r' : Rule)
    (hr : st.db.getRule f = some r) (hr' : st'.db.getRule f = some r') (h0 : r'.recipe = []) :
    r.deps <+: r'.deps ∧ KeepsDeps st st' f := by
  have hk : Kept f r st := ⟨r, hr, id, fun _ => ⟨List.prefix_refl _, fun _ h => h⟩⟩
  obtain ⟨r'', h1, _, h3⟩ := (later_inv (kept_inv f r) h hk).rule
  cases hr'.symm.trans h1
  refine ⟨(h3 h0).1, fun q hq => ⟨r', hr', ?_⟩⟩
  cases hr.symm.trans hq
  exact (h3 h0).2

/-- The claim about dependencies for all targets. -/
def C86_full : Prop := ∀ fs st st', Later fs st st' → ∀ f, KeepsDeps st st' f

private def noFs : Fs := fun _ => .missing
private def before : FsEntry := .text "a: b\nc: d\n".toList
private def after : FsEntry := .text "a: e\n\tx\nc: d\n".toList

/-- Reading the two makefiles, and whether `a` has lost a dependency. -/
private def loses : Bool :=
  match readF noFs 6 before ['m'] St.init with
  | .ok (_, st) =>
    match readF noFs 6 after ['n'] st with
    | .ok (_, st') =>
      match st.names.fileName ['a'] with
      | some f =>
        match st.db.getRule f, st'.db.getRule f with
        | some r, some r' => r.depNames.any fun d => !r'.depNames.contains d
        | _, _ => false
      | none => false
    | _ => false
  | _ => false

/-- **A rule with commands loses the dependencies that were given before**: after `a: b` and then `a: e` with a
command, `a` does not depend on `b` any more. -/
theorem C86_refuted : ¬ C86_full := by
  intro hf
  have h : loses = true := by decide +kernel
  unfold loses at h
  split at h
  · rename_i st e1
    split at h
    · rename_i st' e2
      split at h
      · rename_i f _
        split at h
        · rename_i r r' h1 h2
          obtain ⟨q, h3, h4⟩ := hf noFs st st' (.step .refl (.read e2)) f r h1
          cases h2.symm.trans h3
          obtain ⟨d, h5, h6⟩ := List.any_eq_true.mp h
          simp [h4 d h5] at h6
        · cases h
      · cases h
    · cases h
  · cases h

private def third : FsEntry := .text "y=1\na: e\nc: d\n".toList

/-- Reading two makefiles, the first of which defines `y` and both of which have a rule for `a`; whether the later state has
more dependencies and still no commands for it. -/
private def grows : Bool :=
  match readF noFs 6 third ['m'] St.init with
  | .ok (_, st) =>
    match readF noFs 6 before ['n'] st with
    | .ok (_, st') =>
      match st.names.fileName ['a'], st.names.variableName ['y'] with
      | some f, some v =>
        match st.db.getRule f, st'.db.getRule f with
        | some r, some r' => (st.db.getVariable v).isSome && r'.recipe.isEmpty && decide (r.deps.length < r'.deps.length)
        | _, _ => false
      | _, _ => false
    | _ => false
  | _ => false

/-- The hypotheses are met: the makefiles `y=1`, `a: e`, `c: d` and then `a: b`, `c: d`. -/
example : ∃ (st st' : St) (f : FileName) (v : VariableName) (r r' : Rule), Later noFs st st' ∧ st.db.getVariable v ≠ none ∧
    st.db.getRule f = some r ∧ st'.db.getRule f = some r' ∧ r'.recipe = [] ∧ r.deps.length < r'.deps.length := by
  have h : grows = true := by decide +kernel
  unfold grows at h
  split at h
  · rename_i st e1
    split at h
    · rename_i st' e2
      split at h
      · rename_i f v _ _
        split at h
        · rename_i r r' h1 h2
          simp only [Bool.and_eq_true, decide_eq_true_eq, List.isEmpty_iff, Option.isSome_iff_ne_none] at h
          exact ⟨st, st', f, v, r, r', .step .refl (.read e2), h.1.1, h1, h2, h.1.2, h.2⟩
        · cases h
      · cases h
    · cases h
  · cases h

end Hastur
