import Verif.Proofs.KeepWorld
import Verif.Props.Db
/-
C57, C58, C59: where stored text comes from, stored handles, well-formed states.  C06 for whole runs.
-/
namespace Hastur

open Res

/-! ### Where stored text comes from -/

/-- The full claim: whatever makefiles are read and whatever variables are expanded, every character in the database
stands at its location in the makefile named there, or is one of the separators that are inserted; and every reference
is located at a dollar sign. -/
def C57_full : Prop :=
  ∀ (fs : Fs) (st : St), Reachable fs st → Database.In (st.names.world (ComesFrom fs st.names)) st.db

/-- A file system with one makefile. -/
private def oneFile (text : Str) : Fs := fun name => if name = ['f'] then .text text else .missing

private theorem standsAt_take {text : Str} {line column : Nat} {c : Char} (h : StandsAt text line column c) :
    ∃ k < text.length, text[k]? = some c ∧ line = 1 + (text.take k).count '\n' ∧
      column = 1 + ((text.take k).reverse.takeWhile (· ≠ '\n')).length := by
  obtain ⟨before, after, rfl, h1, h2⟩ := h
  exact ⟨before.length, by simp, by simp, by simpa using h1, by simpa using h2⟩

/-- In `aé:=$bdefine x` the reference is read as one to the variable `$`, and located at the equals sign. -/
private def misplaced (st : St) : Bool :=
  match st.db.getVariable ⟨0⟩ with
  | some ⟨.concat _ (.varRef (.source 1 4 ⟨0⟩) (.constant _ ⟨_, ['$']⟩) :: _), _, _⟩ => true
  | _ => false

private def umlaut : Str := ['a', 'é', ':', '=', '$', 'b', 'd', 'e', 'f', 'i', 'n', 'e', ' ', 'x', '\n']

private theorem umlaut_read : checkRead (oneFile umlaut) 4 ['f'] misplaced = true := by decide +kernel

/-- C57 is violated: after a character that is not ASCII, references are misread and misplaced. -/
theorem C57_refuted : ¬ C57_full := by
  intro h
  obtain ⟨st, hr, hm⟩ := reached_check umlaut_read
  unfold misplaced at hm
  split at hm
  · rename_i heq
    have h1 := ((h _ _ hr).variables _ _ heq).2.2.1.1
    cases h1 with
    | file h1 h2 h3 =>
      unfold oneFile at h2
      split at h2
      · cases h2
        exact absurd (standsAt_take h3) (by decide +kernel)
      · cases h2
  · cases hm

/-- C57 for ASCII makefiles. -/
theorem C57_ascii_partial (fs : Fs) (hfs : ∀ name s, fs name = .text s → AsciiS s) (st : St) (h : Reachable fs st) :
    Database.In (st.names.world (ComesFrom fs st.names)) st.db := reached_in (worlds_ascii hfs) h

/-- C57 for all makefiles, except that a dollar sign may be located at another character. -/
theorem C57_any_partial (fs : Fs) (st : St) (h : Reachable fs st) :
    Database.In (st.names.world (NearlyFrom fs st.names)) st.db := reached_in (worlds_any fs) h

/-- C57 for what variables evaluate to, with the locations, for ASCII makefiles. -/
theorem C57_values_partial (fs : Fs) (hfs : ∀ name s, fs name = .text s → AsciiS s) (st st' : St) (h : Reachable fs st)
    (n : Nat) (v : VariableName) (p : VarParams) (b : Block) (hp : st.db.getVariable v = some p)
    (e : evalF fs n p.value st = .ok (b, st')) :
    Block.In (st'.names.world (ComesFrom fs st'.names)) b := evalF_in (worlds_ascii hfs) h hp e

private theorem expand_chars {fs : Fs} {w : NameCache → World} (hw : Worlds fs w) {st st' : St} (h : Reachable fs st)
    {n : Nat} {v : VariableName} {s : Str} (e : expandF fs n v st = .ok (some s, st')) :
    ∀ c ∈ s, ∃ l, (w st'.names).letter (c, l) := by
  unfold expandF at e
  split at e
  · cases e
  · rename_i p hp
    obtain ⟨⟨b, st1⟩, e1, e⟩ := bind_eq_ok.mp e
    obtain ⟨t, e2, e⟩ := bind_eq_ok.mp e
    cases e
    exact Block.In.intoString (evalF_in hw h hp e1) e2

private theorem ComesFrom.inFiles {fs : Fs} {n : NameCache} {x : LChar} (h : ComesFrom fs n x) :
    InFiles fs [' ', '\n', ';'] x.1 := by
  cases h with
  | file h1 h2 h3 =>
    obtain ⟨before, after, rfl, _⟩ := h3
    exact Or.inr ⟨_, _, h2, by simp⟩
  | separator h => exact Or.inl (by rcases h with rfl | rfl | rfl <;> simp)

/-- C57 for the text of expansions: it consists of characters of the makefiles and of inserted separators.  For ASCII
makefiles. -/
theorem C57_expansions_partial (fs : Fs) (hfs : ∀ name s, fs name = .text s → AsciiS s) (st st' : St) (h : Reachable fs st)
    (n : Nat) (v : VariableName) (s : Str) (e : expandF fs n v st = .ok (some s, st')) :
    ∀ c ∈ s, InFiles fs [' ', '\n', ';'] c := by
  intro c hc
  obtain ⟨l, hl⟩ := expand_chars (worlds_ascii hfs) h e c hc
  exact ComesFrom.inFiles hl

/-- The same for all makefiles, except that dollar signs are not traced. -/
theorem C57_any_expansions_partial (fs : Fs) (st st' : St) (h : Reachable fs st) (n : Nat) (v : VariableName) (s : Str)
    (e : expandF fs n v st = .ok (some s, st')) : ∀ c ∈ s, InFiles fs [' ', '\n', ';', '$'] c := by
  intro c hc
  obtain ⟨l, hl | ⟨hd, -⟩⟩ := expand_chars (worlds_any fs) h e c hc
  · exact (ComesFrom.inFiles hl).imp (fun h => by simp at h ⊢; tauto) id
  · exact Or.inl (by simp at hd; simp [hd])

/-! ### Handles -/

/-- C58: in every state that is reached no name is interned twice, and every handle of a variable or a file in the
database, also those in locations and those that are reported by blocks, resolves to a name. -/
theorem C58_handles_resolve (fs : Fs) (st : St) (h : Reachable fs st) :
    st.names.Nodup ∧
      Database.In ⟨fun x => ∀ line column f, x.2 = .source line column f → ∃ s, st.names.resolveFile f = some s,
        fun v => ∃ s, st.names.resolveVar v = some s, fun f => ∃ s, st.names.resolveFile f = some s⟩ st.db := by
  refine ⟨h.nodup, Database.In.mono (W := st.names.world (NearlyFrom fs st.names)) ?_ (reached_in (worlds_any fs) h)⟩
  refine ⟨fun x hx line column f hf => ?_, fun _ h => h, fun _ h => h⟩
  have key : ∀ c, ComesFrom fs st.names (c, .source line column f) → ∃ s, st.names.resolveFile f = some s := by
    rintro c ⟨⟩
    exact ⟨_, ‹_›⟩
  rcases hx with hx | ⟨-, hx | ⟨c, hx⟩⟩
  · obtain ⟨c, l⟩ := x
    cases hf
    exact key c hx
  · rw [hx] at hf
    cases hf
  · rw [hf] at hx
    exact key c hx

/-! ### Well-formed states -/

/-- C59: in every state that is reached, every reference lies inside its node. -/
theorem C59_references_inside (fs : Fs) (st : St) (h : Reachable fs st) :
    Database.In ⟨fun _ => True, fun _ => True, fun _ => True⟩ st.db :=
  (reached_in (worlds_any fs) h).mono ⟨fun _ _ => trivial, fun _ _ => trivial, fun _ _ => trivial⟩

/-- C59: every state that is reached with ASCII makefiles is well-formed, which is what the theorems about evaluation
and about lines ask of a state.  So are the blocks and recipes of its rules. -/
theorem C59_states_wellformed (fs : Fs) (hfs : ∀ name s, fs name = .text s → AsciiS s) (st : St) (h : Reachable fs st) :
    st.WF ∧ ∀ f r, st.db.getRule f = some r →
      Block.WF r.target ∧ (∀ d ∈ r.deps, Block.WF d) ∧ ∀ a ∈ r.recipe, Ast.WF a := by
  have hd := reached_in (worlds_ascii hfs) h
  have ha : ∀ x, (st.names.world (ComesFrom fs st.names)).letter x → isAscii x.1 = true := fun _ h => ComesFrom.ascii hfs h
  refine ⟨⟨h.nodup.2, fun v p hp => (hd.variables v p hp).1, fun v p hp => Ast.In.wf ha _ (hd.variables v p hp).2⟩, ?_⟩
  intro f r hr
  have hr := (hd.rules f r hr).2
  exact ⟨Block.In.wf ha _ hr.target, fun d hd => Block.In.wf ha _ (hr.deps d hd), fun a h => Ast.In.wf ha _ (hr.recipe a h)⟩

/-- C06 for every state that is reached by reading makefiles and expanding variables. -/
theorem C06_reached_states (fs : Fs) (st : St) (h : Reachable fs st) (f : FileName) (r : Rule)
    (hr : st.db.getRule f = some r) :
    r.targetFname = f ∧ st.names.Names f r.target ∧ (∀ g, g ∈ r.depNames ↔ ∃ b ∈ r.deps, st.names.Names g b) ∧
    (∀ b ∈ r.deps, ∃ g, st.names.Names g b) := by
  exact Database.C06_rules_filed_under_their_target st.db st.names (h.keeps reachable_inv .init) f r hr

/-! ### The hypotheses are met -/

/-- Two variables, one of which refers to the other. -/
private def twoVars : Str := ['b', '=', '$', 'a', '\n', 'a', '=', 'c', '\n']

/-- A rule with a recipe that refers to a variable. -/
private def oneRule : Str := ['t', ':', 'u', ';', '$', 'b', '\n', 'b', '=', '\n']

private theorem oneFile_ascii {text : Str} (h : AsciiS text) : ∀ name s, oneFile text name = .text s → AsciiS s := by
  intro name s hs
  unfold oneFile at hs
  split at hs
  · cases hs; exact h
  · cases hs

/-- `b` is a variable and expands to `c`. -/
private def expandsTo (st : St) : Bool :=
  match st.names.variableName ['b'] with
  | some b => match expandF (oneFile twoVars) 5 b st with
    | .ok (some s, _) => s == ['c']
    | _ => false
  | none => false

private theorem twoVars_read : checkRead (oneFile twoVars) 5 ['f'] expandsTo = true := by decide +kernel

example : ∃ fs st b st', (∀ name s, fs name = .text s → AsciiS s) ∧ Reachable fs st ∧
    expandF fs 5 b st = .ok (some ['c'], st') := by
  obtain ⟨st, h1, h2⟩ := reached_check twoVars_read
  unfold expandsTo at h2
  split at h2
  · split at h2
    · rename_i b _ _ s st' h3
      have : s = ['c'] := by simpa using h2
      subst this
      exact ⟨_, st, b, st', oneFile_ascii (by unfold AsciiS; decide), h1, h3⟩
    · cases h2
  · cases h2

/-- `t` has a rule with a dependency and a recipe. -/
private def hasRule (st : St) : Bool :=
  match st.names.fileName ['t'] with
  | some t => match st.db.getRule t with
    | some r => r.deps.length == 1 && r.recipe.length == 1
    | none => false
  | none => false

private theorem oneRule_read : checkRead (oneFile oneRule) 5 ['f'] hasRule = true := by decide +kernel

example : ∃ fs st t r, (∀ name s, fs name = .text s → AsciiS s) ∧ Reachable fs st ∧ st.db.getRule t = some r ∧
    r.deps.length = 1 ∧ r.recipe.length = 1 := by
  obtain ⟨st, h1, h2⟩ := reached_check oneRule_read
  unfold hasRule at h2
  split at h2
  · split at h2
    · rename_i t _ _ r h3
      have h4 : r.deps.length = 1 ∧ r.recipe.length = 1 := by simpa using h2
      exact ⟨_, st, t, r, oneFile_ascii (by unfold AsciiS; decide), h1, h3, h4⟩
    · cases h2
  · cases h2

end Hastur
