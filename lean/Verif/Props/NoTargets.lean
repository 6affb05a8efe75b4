import Verif.Proofs.Program
import Verif.Props.Rules
/-
C79: rules without targets.
-/
namespace Hastur

open Res

private def noFs : Fs := fun _ => .missing

/-- The full claim: a rule without targets is ignored, and so are the commands after it. -/
def C79_full : Prop :=
  ∀ (fs : Fs) (P : Block) (i j : Span) (t line rest line' rest' : List LChar) (p : PState) (st : St),
    Ready P i t line rest p st → Physical t line rest → (textOf line).head? ≠ some st.commandChar → NoTargets line →
    j.At P rest → RecipeText st.commandChar rest line' rest' →
    LineGives fs P i p st rest p st ∧ LineGives fs P j p st rest' p st

/-- **C79, the line itself**: whatever follows the colon, the line changes nothing when no rule is open. -/
theorem C79_line (fs : Fs) {P : Block} {i : Span} {t line rest : List LChar} {p : PState} {st : St}
    (h : Ready P i t line rest p st) (hl : Physical t line rest) (hc : (textOf line).head? ≠ some st.commandChar)
    (hn : NoTargets line) : LineGives fs P i p st rest p st := by
  obtain ⟨j, b, e1, e2, e3, _⟩ := makefileLine_physical h.at_ hl h.comment
  obtain ⟨hnl, hsl, hcm⟩ := hl.free h.comment
  refine ⟨0, j, e2, fun n _ => ?_⟩
  obtain ⟨rest', f⟩ := parseTargetLine_noTargets (recF fs n) (st := st) e3.at hnl hsl hcm hn
  rw [parseLine_newRule fs h.at_ h.comment h.define h.active h.command (.inl h.rule) e1 e3.at hn.ne_nil hl.solid hc
    hn.not_condLike hn.not_varLike hn.not_directiveLike f]
  simp [PState.closeRule, h.rule, Res.bind, handleTargetAction]

/-- **C79, as far as it holds**: the line is ignored, and so is a command after it that consists of plain words and does not
begin with a keyword. -/
theorem C79_rule_partial (fs : Fs) {P : Block} {i j : Span} {t line rest line' rest' : List LChar} {ws : List (List LChar)}
    {p : PState} {st : St}
    (h : Ready P i t line rest p st) (hl : Physical t line rest) (hc : (textOf line).head? ≠ some st.commandChar)
    (hn : NoTargets line) (h' : Ready P j rest line' rest' p st) (hl' : Physical rest line' rest')
    (hc' : (textOf line').head? ≠ some st.commandChar) (h1 : ¬ CondLike line') (h2 : ¬ VarLike line')
    (h3 : ¬ DirectiveLike line') (hw : WordList line' ws) :
    LineGives fs P i p st rest p st ∧ LineGives fs P j p st rest' p st :=
  ⟨C79_line fs h hl hc hn, C55_words_ignored fs h' hl' h1 h2 h3 hw hc'⟩

private def witness : Str := ": c".toList ++ '\n' :: "\tx=1\n".toList

private theorem line_hyps {rest : Str} (ha : AsciiS rest) (hc : '#' ∉ rest) :
    Ready (textBlock .synthetic (": c".toList ++ '\n' :: rest)) (textBlock .synthetic (": c".toList ++ '\n' :: rest)).span
      (locate .synthetic (": c".toList ++ '\n' :: rest)) (locate .synthetic ": c".toList) (locate .synthetic rest) PState.new St.init ∧
    Physical (locate .synthetic (": c".toList ++ '\n' :: rest)) (locate .synthetic ": c".toList) (locate .synthetic rest) ∧
    NoTargets (locate .synthetic ": c".toList) := by
  refine ⟨ready_locate (l := .synthetic) ?_ ?_ (by decide) (by simp) (by decide) rfl St.init_wf,
    physical_locate (l := .synthetic) (by decide) (by simp) (by decide), ?_⟩
  · intro c hc
    rcases List.mem_append.mp hc with h | h
    · exact (by decide : ∀ c ∈ ": c".toList, isAscii c = true) c h
    rcases List.mem_cons.mp h with h | h
    · rw [h]; decide
    · exact ha c h
  · intro h
    rcases List.mem_append.mp h with h | h
    · revert h; decide
    rcases List.mem_cons.mp h with h | h
    · revert h; decide
    · exact hc h
  · exact .mk (cs := [(':', .synthetic)]) (u := locate .synthetic " c".toList) (.inl rfl) (by rw [textOf_locate]; decide)
      (by rw [textOf_locate]; decide)

/-- After `: c`, the command `x=1` is an assignment. -/
theorem C79_refuted : ¬ C79_full := by
  intro hfull
  obtain ⟨h1, h2, h3⟩ := line_hyps (rest := "\tx=1\n".toList) (by unfold AsciiS; decide) (by decide)
  obtain ⟨j, e1, e2⟩ := h1.at_.sliceFrom (n := 4) (by decide)
  have hr : RecipeText '\t' (locate .synthetic "\tx=1\n".toList) (locate .synthetic "x=1".toList) [] :=
    .last (l := .synthetic) (line := locate .synthetic "x=1".toList) (tail := locate .synthetic ['\n']) (rest := [])
      (free_locate (by decide)) (by rw [textOf_locate]; decide) (.inr ⟨.synthetic, rfl⟩)
  obtain ⟨_, N, k, _, hN⟩ := hfull noFs _ _ j _ _ _ _ _ _ _ h1 h2 (by rw [textOf_locate]; decide) h3 e2 hr
  have hx : (match (textBlock .synthetic witness).span.sliceFrom 4 with
    | .ok j => (match parseLine noFs (recF noFs 4) PState.new St.init j with
      | .ok (.done _ (), _, st) => decide ((st.names.variableName ['x']).isSome)
      | _ => false)
    | _ => false) = true := by decide +kernel
  rw [show (textBlock .synthetic witness).span.sliceFrom 4 = .ok j from e1] at hx
  simp only at hx
  split at hx
  · rename_i st e
    have e' := (parseLine_le (recF_le noFs (Nat.le_add_left 4 N)) noFs PState.new St.init j).ok e
    rw [hN (N + 4) (Nat.le_add_right _ _)] at e'
    injection e' with e'
    have : St.init = st := by injection e' with _ e'; injection e'
    subst this
    revert hx
    decide
  · cases hx

/-- After `: c`, the command `foo bar` is ignored. -/
example (fs : Fs) : ∃ P j rest, LineGives fs P P.span PState.new St.init (locate .synthetic "\tfoo bar\n".toList) PState.new St.init ∧
    j.At P (locate .synthetic "\tfoo bar\n".toList) ∧ LineGives fs P j PState.new St.init rest PState.new St.init := by
  obtain ⟨h1, h2, h3⟩ := line_hyps (rest := "\tfoo bar\n".toList) (by unfold AsciiS; decide) (by decide)
  obtain ⟨j, e1, e2⟩ := h1.at_.sliceFrom (n := 4) (by decide)
  have hl : Physical (locate .synthetic "\tfoo bar\n".toList) (locate .synthetic "foo bar".toList) [] :=
    .mk (lead := locate .synthetic ['\t']) (line := locate .synthetic "foo bar".toList) (tail := locate .synthetic ['\n'])
      (by unfold Blanks; simp [locate]) (free_locate (by decide)) (head_locate (q := fun c => ¬ (c = ' ' ∨ c = '\t')) (by simp))
      (by rw [textOf_locate]; decide) (.inr ⟨.synthetic, rfl⟩)
  have hw : WordList (locate .synthetic "foo bar".toList) [locate .synthetic "foo".toList, locate .synthetic "bar".toList] :=
    .more (w := locate .synthetic "foo".toList) (gap := locate .synthetic [' ']) (t := locate .synthetic "bar".toList)
      (by simp [locate]) (mem_locate (q := WordChar) (by unfold WordChar; decide)) (by unfold Blanks; simp [locate])
      (by simp [locate]) (wordList_one (by simp [locate]) (mem_locate (q := WordChar) (by unfold WordChar; decide)))
  obtain ⟨g1, g2⟩ := C79_rule_partial fs h1 h2 (by rw [textOf_locate]; decide) h3
    ⟨⟨h1.pieces, h1.mono, e2, hl.logical, free_locate (by decide), rfl, rfl, St.init_wf⟩, rfl, rfl⟩ hl
    (by rw [textOf_locate]; decide) (not_condLike (by simp) (by unfold condWords; decide))
    (not_varLike (by rw [textOf_locate]; decide) (by rw [textOf_locate]; unfold varWords; decide))
    (by rintro ⟨w, hw, hp⟩; rw [textOf_locate] at hp; revert w; unfold directiveWords; decide) hw
  exact ⟨_, j, _, g1, e2, g2⟩

end Hastur
