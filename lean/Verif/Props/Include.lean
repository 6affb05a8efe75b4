import Verif.Proofs.Program
import Verif.Proofs.Include
import Verif.Proofs.RuleDemo
import Verif.Props.Conditional
/-
C49: include lines.
-/
namespace Hastur

open Res

/-- C49: an include line reads the files named by the expansion of its arguments, from left to right, each in the state
that the one before has left; a soft include skips the missing ones.  The state of the parser — in particular the open
conditionals — is the same afterwards, whatever the files contain. -/
theorem C49_include (fs : Fs) {P : Block} {i : Span} {t line rest args u : List LChar} {soft : Bool} {p : PState} {st st' : St}
    {es : List Expr} {vs names : List Str} (h : Ready P i t line rest p st) (hi : IncludeText line soft args) (hv : ¬ VarLike line)
    (hr : Reads args (.ok es)) (he : Expands st.env es u vs) (hu : IncludeNames u names)
    (hf : Includes fs soft names (st.interned vs) none st') :
    LineGives fs P i p st rest p st' := by
  obtain ⟨j, a, e1, e2, rfl, e4⟩ := parseLine_include fs h.toAtLine (.inl h.rule) h.active hi hv hr
  obtain ⟨N, hN⟩ := handleInclude_files e2 h.wf he hu hf
  refine ⟨N, j, e1, fun n hn => ?_⟩
  rw [e4, show p.closeRule st = .ok (p, st) by simp [PState.closeRule, h.rule]]
  show (handleInclude fs (recF fs n) soft a st).bind _ = _
  rw [hN n hn]
  rfl

/-- C49: if one of the files is missing (unless the include is soft) or cannot be read, the line is in error, and the
error tells the name of the file.  The files before it have been read, those after it have not. -/
theorem C49_missing (fs : Fs) {P : Block} {i : Span} {t line rest args u : List LChar} {soft : Bool} {p : PState} {st st' : St}
    {es : List Expr} {vs names : List Str} {f : Str} (h : Ready P i t line rest p st) (hi : IncludeText line soft args)
    (hv : ¬ VarLike line) (hr : Reads args (.ok es)) (he : Expands st.env es u vs) (hu : IncludeNames u names)
    (hf : Includes fs soft names (st.interned vs) (some f) st') :
    ∃ N, ∀ n, N ≤ n → parseLine fs (recF fs n) p st i = .ok (.err (.failure (.custom (.includeFailure f))), p, st') := by
  obtain ⟨j, a, e1, e2, rfl, e4⟩ := parseLine_include fs h.toAtLine (.inl h.rule) h.active hi hv hr
  obtain ⟨N, hN⟩ := handleInclude_files e2 h.wf he hu hf
  refine ⟨N, fun n hn => ?_⟩
  rw [e4, show p.closeRule st = .ok (p, st) by simp [PState.closeRule, h.rule]]
  show (handleInclude fs (recF fs n) soft a st).bind _ = _
  rw [hN n hn]
  rfl

/-- C49 after a rule: the rule is completed before the files are read, and nothing else changes by that. -/
theorem C49_after_rule (fs : Fs) {P : Block} {i : Span} {t line rest args : List LChar} {soft : Bool} {p : PState} {st : St}
    {es : List Expr} {o : OpenRule} {r : ProtoRule} (h : AtLine P i t line rest p st) (hp : p.currentRule = some r)
    (ho : OpensAs o r) (hk : RulesKnown st.db st.names) (hc : (textOf t).head? ≠ some st.commandChar)
    (ha : p.ignoring = false) (hi : IncludeText line soft args) (hv : ¬ VarLike line) (hr : Reads args (.ok es)) :
    ∃ st1 : St, st1.vars = st.vars ∧ st1.ruleTable = st.ruleTable.file o ∧ st1.commandChar = st.commandChar ∧
      ∀ u vs names st', Expands st.env es u vs → IncludeNames u names →
        Includes fs soft names (st1.interned vs) none st' →
        LineGives fs P i p st rest { p with currentRule := none } st' := by
  obtain ⟨j, a, e1, e2, rfl, e4⟩ := parseLine_include fs h (.inr hc) ha hi hv hr
  obtain ⟨st1, cs, g1, g2, g3, g4, g5, _, g7, g8⟩ := closeRule_at hp ho h.wf hk
  have hl : st1.lookup = st.lookup := by
    have a := lookup_variables (st := { st with names := st1.names }) (st' := st1) g5 rfl
    have b : ({ st with names := st1.names } : St).lookup = st.lookup := h.wf.lookup_after rfl g7
    rw [a, b]
  refine ⟨st1, vars_of_lookup hl, g4, g8, fun u vs names st' he hu hf => ?_⟩
  have henv : st1.env = st.env := by rw [← St.vars_env, ← St.vars_env, vars_of_lookup hl]
  obtain ⟨N, hN⟩ := handleInclude_files e2 g2 (by rw [henv]; exact he) hu hf
  refine ⟨N, j, e1, fun n hn => ?_⟩
  rw [e4, g1]
  show (handleInclude fs (recF fs n) soft a st1).bind _ = _
  rw [hN n hn]
  rfl

/-! ### Examples -/

/-- A file system with a file that opens a conditional and does not close it. -/
private def files : Fs := fun f => if f = ['f'] then .text "ifeq (a,b)\nx=1\n".toList else .missing

private theorem files_f {st : St} (hw : st.WF) (hc : isAscii st.commandChar = true) :
    ∃ st1, FileGives files ['f'] "ifeq (a,b)\nx=1\n".toList st st1 ∧ st1.vars = st.vars ∧ st1.WF := by
  obtain ⟨lw, f2⟩ := makeText_assign (l := .source 2 1 (st.names.internFile ['f']).1) (line := "x=1".toList) (name := ['x'])
    (value := ['1']) (rest := []) rfl (by decide) (by simp) (by decide) (by unfold condWords; decide) (by decide) (by decide)
    (by unfold NameChar; decide) (by simp) .nil
  obtain ⟨l1, l2, f1⟩ := condText_test (l := .source 1 1 (st.names.internFile ['f']).1) (kw := "ifeq".toList) (a := ['a'])
    (b := ['b']) (inverted := false) (by decide) (by decide) (by decide)
  have ht := makeText_cond (line := "ifeq (a,b)".toList) (rest := "x=1\n".toList) (by decide) (by simp) (by decide) f1 f2
  obtain ⟨st1, h1, h2, _, _, h5⟩ := C41_selects_lines_partial files (text := "ifeq (a,b)\nx=1\n".toList) (name := ['f'])
    (st := st) (by unfold AsciiS; decide) (.none (free_locate (by decide))) hc hw ht
    (.test (Expands.text _ _) (Expands.text _ _) (.skipAssign (fun h => by
        have := h _ (List.mem_append_right _ (List.mem_singleton_self _))
        simp at this
        exact absurd this (by decide)) .nil))
  exact ⟨st1, h1, h2, h5⟩

private theorem include_hyps {kw : Str} {l : Location} {soft : Bool} {st : St} (hc : isAscii st.commandChar = true) (hw : st.WF)
    (hk : kw = (if soft then "-include".toList else "Include".toList)) :
    Ready (textBlock l ((kw ++ " f g".toList) ++ '\n' :: [])) (textBlock l ((kw ++ " f g".toList) ++ '\n' :: [])).span
      (locate l ((kw ++ " f g".toList) ++ '\n' :: [])) (locate l (kw ++ " f g".toList))
      (locate ((l.after (kw ++ " f g".toList)).after ['\n']) []) PState.new st ∧
    IncludeText (locate l (kw ++ " f g".toList)) soft (locate (l.after kw) " f g".toList) ∧
    ¬ VarLike (locate l (kw ++ " f g".toList)) := by
  subst hk
  cases soft
  all_goals
    refine ⟨ready_locate (by unfold AsciiS; decide) (by decide) (by decide) (by simp) (by decide) hc hw, ?_,
      not_varLike (by rw [textOf_locate]; decide) (by rw [textOf_locate]; unfold varWords; decide)⟩
    rw [locate_append]
  · exact .hard (by rw [textOf_locate]; decide)
  · exact .soft (by rw [textOf_locate]; decide)

private theorem names_fg {l : Location} : IncludeNames (locate l " f g".toList) [['f'], ['g']] :=
  PlainNames.names ⟨free_locate (by decide), free_locate (by decide)⟩

/-- A blank in a file name is escaped by a backslash. -/
example : IncludeNames (locate .synthetic " a\\ b c".toList) ["a b".toList, ['c']] :=
  ⟨[locate .synthetic "a b".toList, locate .synthetic ['c']],
    .next (x := (' ', .synthetic)) (rest := locate .synthetic "a\\ b c".toList) (by decide)
      (.next (x := (' ', .synthetic)) (rest := locate .synthetic ['c']) (by decide) (.rest (by decide))), by decide⟩

/-- `-include f g`, where `g` is missing and `f` leaves a conditional open: the conditionals of the including file are
not affected. -/
example {l : Location} : ∃ P rest st', LineGives files P P.span PState.new St.init rest PState.new st' ∧
    st'.vars = St.init.vars := by
  obtain ⟨h1, h2, h3⟩ := include_hyps (l := l) (soft := true) (st := St.init) rfl St.init_wf rfl
  obtain ⟨st1, g1, g2, _⟩ := files_f St.init_wf rfl
  refine ⟨_, _, st1, C49_include files h1 h2 h3 (reads_text (free_locate (by decide))) (Expands.text _ _) names_fg ?_, g2⟩
  exact .file rfl g1 (.skip rfl rfl .done)

/-- `Include f g`: the file `g` is reported missing. -/
example {l : Location} : ∃ P st' N, ∀ n, N ≤ n → parseLine files (recF files n) PState.new St.init (Block.span P) =
    .ok (.err (.failure (.custom (.includeFailure ['g']))), PState.new, st') := by
  obtain ⟨h1, h2, h3⟩ := include_hyps (l := l) (soft := false) (st := St.init) rfl St.init_wf rfl
  obtain ⟨st1, g1, g2, _⟩ := files_f St.init_wf rfl
  refine ⟨_, st1, C49_missing files h1 h2 h3 (reads_text (free_locate (by decide))) (Expands.text _ _) names_fg ?_⟩
  exact .file rfl g1 (.missing rfl rfl)

end Hastur
