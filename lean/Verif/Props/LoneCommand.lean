import Verif.Proofs.LoneCommand
import Verif.Proofs.Silent
import Verif.Proofs.Program
import Verif.Props.Rules
import Verif.Spec.Unsupported
/-
C83: commands that belong to no rule.
-/
namespace Hastur

open Res

private def noFs : Fs := fun _ => .missing

/-- The full claim: a line with a semicolon and no colon in front of it is reported, unless it begins with a keyword or is
an assignment. -/
def C83_full : Prop :=
  ∀ (fs : Fs) (P : Block) (i : Span) (t line rest : List LChar) (p : PState) (st : St),
    Ready P i t line rest p st → Physical t line rest → (textOf line).head? ≠ some st.commandChar → ¬ CondLike line →
    ¬ VarLike line → ¬ DirectiveLike line → LoneCommand line → Rejects fs i p st

/-- **What happens instead**, for every such line and in every state: the line is ignored, whatever the command. -/
theorem C83_ignored (fs : Fs) {P : Block} {i : Span} {t line rest : List LChar} {p : PState} {st : St}
    (h : Ready P i t line rest p st) (hl : Physical t line rest) (hc : (textOf line).head? ≠ some st.commandChar)
    (h1 : ¬ CondLike line) (h2 : ¬ VarLike line) (h3 : ¬ DirectiveLike line) (hn : LoneCommand line) :
    LineGives fs P i p st rest p st := by
  obtain ⟨j, b, e1, e2, e3, e4⟩ := makefileLine_physical h.at_ hl h.comment
  obtain ⟨hnl, hsl, hcm⟩ := hl.free h.comment
  obtain ⟨N, rest', f⟩ := parseTargetLine_lone fs e4 (e3.mono h.pieces h.mono) e3.at hnl hcm hsl hn h.wf
  refine ⟨N, j, e2, fun n hN => ?_⟩
  rw [parseLine_newRule fs h.at_ h.comment h.define h.active h.command (.inl h.rule) e1 e3.at hn.ne_nil hl.solid hc
    h1 h2 h3 (f n hN)]
  simp [PState.closeRule, h.rule, Res.bind, handleTargetAction]

/-- **The two errors meant for such lines are never reported**: not by the parser of rules, and not by any line in any state
with any files.  This also explains C55. -/
theorem C83_never_reported (fs : Fs) (n : Nat) (p p' : PState) (st st' : St) (i : Span) (e : NErr)
    (h : parseLine fs (recF fs n) p st i = .ok (.err e, p', st')) :
    e.kind ≠ some .noRuleRecipe ∧ e.kind ≠ some .missingSeparator :=
  have hk := quietS_parseLine fs n p st i e (p', st') h
  ⟨fun e => (nomatch hk _ e), fun e => (nomatch hk _ e)⟩

private theorem hyps : Ready (textBlock .synthetic ("; a".toList ++ '\n' :: [])) (textBlock .synthetic ("; a".toList ++ '\n' :: [])).span
      (locate .synthetic ("; a".toList ++ '\n' :: [])) (locate .synthetic "; a".toList) (locate .synthetic []) PState.new St.init ∧
    Physical (locate .synthetic ("; a".toList ++ '\n' :: [])) (locate .synthetic "; a".toList) (locate .synthetic []) ∧
    (textOf (locate .synthetic "; a".toList)).head? ≠ some St.init.commandChar ∧
    ¬ CondLike (locate .synthetic "; a".toList) ∧ ¬ VarLike (locate .synthetic "; a".toList) ∧
    ¬ DirectiveLike (locate .synthetic "; a".toList) ∧ LoneCommand (locate .synthetic "; a".toList) :=
  ⟨ready_locate (l := .synthetic) (by unfold AsciiS; decide) (by decide) (by decide) (by simp) (by decide) rfl St.init_wf,
    physical_locate (l := .synthetic) (by decide) (by simp) (by decide), by rw [textOf_locate]; decide,
    not_condLike (by simp) (by unfold condWords; decide),
    not_varLike (by rw [textOf_locate]; decide) (by rw [textOf_locate]; unfold varWords; decide),
    by rintro ⟨w, hw, hp⟩; rw [textOf_locate] at hp; revert w; unfold directiveWords; decide,
    .bare (x := (';', .synthetic)) (v := locate .synthetic " a".toList) rfl⟩

/-- The line `; a` has no targets and is ignored. -/
theorem C83_refuted : ¬ C83_full := by
  intro hfull
  obtain ⟨h1, h2, h3, h4, h5, h6, h7⟩ := hyps
  obtain ⟨N, j, _, hN⟩ := C83_ignored noFs h1 h2 h3 h4 h5 h6 h7
  exact hfull noFs _ _ _ _ _ _ _ h1 h2 h3 h4 h5 h6 h7 N j _ _ (hN N (Nat.le_refl _))

/-- The line `foo bar; $(a` is ignored, although there is no colon and the command is malformed. -/
example (fs : Fs) : ∃ P rest, LineGives fs P P.span PState.new St.init rest PState.new St.init := by
  have hw : WordList (locate .synthetic "foo bar".toList) [locate .synthetic "foo".toList, locate .synthetic "bar".toList] :=
    .more (w := locate .synthetic "foo".toList) (gap := locate .synthetic [' ']) (t := locate .synthetic "bar".toList)
      (by simp [locate]) (mem_locate (q := WordChar) (by unfold WordChar; decide)) (by unfold Blanks; simp [locate])
      (by simp [locate]) (wordList_one (by simp [locate]) (mem_locate (q := WordChar) (by unfold WordChar; decide)))
  exact ⟨_, _, C83_ignored fs (ready_locate (l := .synthetic) (line := "foo bar; $(a".toList) (rest := []) (by unfold AsciiS; decide)
      (by decide) (by decide) (by simp) (by decide) rfl St.init_wf)
    (physical_locate (l := .synthetic) (by decide) (by simp) (by decide)) (by rw [textOf_locate]; decide)
    (not_condLike (by simp) (by unfold condWords; decide))
    (not_varLike (by rw [textOf_locate]; decide) (by rw [textOf_locate]; unfold varWords; decide))
    (by rintro ⟨w, hw, hp⟩; rw [textOf_locate] at hp; revert w; unfold directiveWords; decide)
    (.words (x := (';', .synthetic)) (v := locate .synthetic " $(a".toList) hw rfl)⟩

/-- A line that is reported, as `C83_never_reported` supposes: `endif` without a conditional. -/
example : ∃ e p' st', parseLine noFs (recF noFs 2) PState.new St.init (textBlock .synthetic "endif\n".toList).span =
    .ok (.err e, p', st') ∧ e.kind = some .unattachedEndIf := by
  have h : (match parseLine noFs (recF noFs 2) PState.new St.init (textBlock .synthetic "endif\n".toList).span with
    | .ok (.err e, _, _) => decide (e.kind = some .unattachedEndIf)
    | _ => false) = true := by decide +kernel
  split at h
  · rename_i e p' st' heq
    exact ⟨e, p', st', heq, of_decide_eq_true h⟩
  · cases h

end Hastur
