import Verif.Proofs.Malformed
import Verif.Proofs.Unclosed
import Verif.Props.Unsupported
/-
C64: malformed conditional lines are never accepted.
-/
namespace Hastur

open Res Span

/-- The full claim: a line that begins with `ifeq`, `ifneq`, `else` or `endif`, is no definition of a variable, and is not
well-formed, is never accepted: neither ignored nor taken for something else. -/
def C64_full : Prop :=
  ∀ (fs : Fs) (P : Block) (i : Span) (t line rest : List LChar) (p : PState) (st : St), AtLine P i t line rest p st →
    p.currentRule = none ∨ (textOf t).head? ≠ some st.commandChar → CondWord (line.dropWhile lblank) → ¬ VarLike line →
    (∀ c, ¬ CondText (line.dropWhile lblank) c) → Rejects fs i p st

private def noFs : Fs := fun _ => .missing

private theorem eqArgs_mark {args a b : List LChar} (h : EqArgs args a b) : ∃ x ∈ args, x.1 ∈ ['(', '"', '\''] := by
  cases h with
  | @paren l _ _ => exact ⟨('(', l), List.mem_cons_self, by simp⟩
  | @quoted l1 _ _ _ q _ _ _ _ _ hq => exact ⟨(q, l1), List.mem_cons_self, by rcases hq with rfl | rfl <;> simp⟩

/-- `ifeq a b`, without parentheses: the line is accepted, and ignored. -/
theorem C64_refuted : ¬ C64_full := by
  intro h
  have hat := atLine_locate (l := .synthetic) (line := "ifeq a b".toList) (rest := "x=1\n".toList) (p := PState.new) (st := St.init)
    (by unfold AsciiS; decide) (by decide) (by decide) (by simp) (by decide) rfl rfl St.init_wf
  have hr := h noFs _ _ _ _ _ _ _ hat (.inl rfl) ?_ ?_ ?_
  · have e : (match parseLine noFs (recF noFs 5) PState.new St.init
          (textBlock .synthetic ("ifeq a b".toList ++ '\n' :: "x=1\n".toList)).span with
        | .ok (.done _ (), _, _) => true
        | _ => false) = true := by decide +kernel
    split at e
    · rename_i j p' st' e'
      exact hr 5 j p' st' e'
    · cases e
  · exact .mk (kw := locate .synthetic "ifeq".toList) (u := locate .synthetic " a b".toList) (by decide)
      (head_locate (s := " a b".toList) (q := fun c => c ∈ [' ', '\t', '(', '"', '\'']) (by simp))
  · exact not_varLike (t := locate .synthetic "ifeq a b".toList) (by decide) (by unfold varWords; decide)
  · intro c hc
    generalize hu : (locate Location.synthetic "ifeq a b".toList).dropWhile lblank = u at hc
    have hu' : (locate Location.synthetic "ifeq a b".toList).dropWhile lblank = locate .synthetic "ifeq a b".toList := rfl
    rw [hu'] at hu
    cases hc with
    | test _ _ h3 =>
      obtain ⟨x, hx, hc⟩ := eqArgs_mark h3
      have : x ∈ locate Location.synthetic "ifeq a b".toList := by rw [hu]; simp [hx]
      exact mem_locate (s := "ifeq a b".toList) (q := fun c => c ∉ ['(', '"', '\'']) (by decide) x this hc
    | @else_ kw gap h1 =>
      have : (textOf (locate Location.synthetic "ifeq a b".toList)).map lower = "else".toList ++ (textOf gap).map lower := by
        rw [hu, textOf_append, List.map_append, h1]
      cases this
    | @endif kw gap h1 =>
      have : (textOf (locate Location.synthetic "ifeq a b".toList)).map lower = "endif".toList ++ (textOf gap).map lower := by
        rw [hu, textOf_append, List.map_append, h1]
      cases this

/-- C64 for text after `else` or `endif` and for tests with arguments that are not well-formed: such a line is never
accepted, not even in a branch that is not taken.  Missing: tests without two arguments in parentheses or quotes. -/
theorem C64_rejected_partial (fs : Fs) {P : Block} {i : Span} {t line rest : List LChar} {p : PState} {st : St}
    (h : AtLine P i t line rest p st) (hr : p.currentRule = none ∨ (textOf t).head? ≠ some st.commandChar)
    (hc : BadCond (line.dropWhile lblank)) : Rejects fs i p st :=
  fun _ j p' st' => parseLine_badCond fs h hr hc _ j p' st'

/-- What happens to the tests that `C64_rejected_partial` leaves out, if the line consists of plain words: they are ignored.
In particular the lines after them are not taken for a branch. -/
theorem C64_ignored (fs : Fs) {P : Block} {i : Span} {t line rest : List LChar} {ws : List (List LChar)} {p : PState} {st : St}
    (h : Ready P i t line rest p st) (hl : Physical t line rest) (hc : (textOf line).head? ≠ some st.commandChar)
    (h1 : UnclosedTest line) (h2 : ¬ VarLike line) (h3 : ¬ DirectiveLike line) (hw : WordList line ws) :
    LineGives fs P i p st rest p st := by
  obtain ⟨tt, g1, _⟩ := targets_words st.env hw
  exact parseLine_unclosed_words fs h hl hc h1 h2 h3 g1

/-- The same in a branch that is not taken, whatever the rest of the line is.  So the `endif` that belongs to such a test ends
the conditional around it. -/
theorem C64_skipped (fs : Fs) {P : Block} {i : Span} {t line rest : List LChar} {p : PState} {st : St}
    (h : AtLine P i t line rest p st) (hr : p.currentRule = none ∨ (textOf t).head? ≠ some st.commandChar)
    (hu : UnclosedTest (line.dropWhile lblank)) (hig : p.ignoring = true) : LineGives fs P i p st rest p st := by
  obtain ⟨j, e1, e2⟩ := parseLine_unclosed_skip fs h hr hu hig
  exact ⟨0, j, e1, fun n _ => e2 _⟩

private theorem unclosed_demo : UnclosedTest (locate .synthetic "ifeq 'a' \"b".toList) :=
  .mk (kw := locate .synthetic "ifeq".toList) (gap := [(' ', .synthetic)]) (args := locate .synthetic "'a' \"b".toList)
    (by rw [textOf_locate]; decide) (by unfold Blanks; simp)
    (head_locate (s := "'a' \"b".toList) (q := fun c => ¬ (c = ' ' ∨ c = '\t')) (by simp))
    (.noQuote2 (l := .synthetic) (l' := .synthetic) (l'' := .synthetic) (q := '\'') (q' := '"') (a := [('a', .synthetic)])
      (gap := [(' ', .synthetic)]) (b := [('b', .synthetic)]) (.inr rfl) (by unfold Free; simp)
      (reads_text (by unfold Free; simp)) (by unfold Blanks; simp) (.inl rfl) (by unfold Free; simp))

/-- `ifeq 'a' "b` is ignored. -/
example (fs : Fs) : ∃ P rest, LineGives fs P P.span PState.new St.init rest PState.new St.init := by
  have hw : WordList (locate .synthetic "ifeq 'a' \"b".toList)
      [locate .synthetic "ifeq".toList, locate .synthetic "'a'".toList, locate .synthetic "\"b".toList] :=
    .more (w := locate .synthetic "ifeq".toList) (gap := locate .synthetic [' ']) (t := locate .synthetic "'a' \"b".toList)
      (by simp [locate]) (mem_locate (q := WordChar) (by unfold WordChar; decide)) (by unfold Blanks; simp [locate])
      (by simp [locate])
      (.more (w := locate .synthetic "'a'".toList) (gap := locate .synthetic [' ']) (t := locate .synthetic "\"b".toList)
        (by simp [locate]) (mem_locate (q := WordChar) (by unfold WordChar; decide)) (by unfold Blanks; simp [locate])
        (by simp [locate]) (wordList_one (by simp [locate]) (mem_locate (q := WordChar) (by unfold WordChar; decide))))
  exact ⟨_, _, C64_ignored fs (ready_locate (l := .synthetic) (line := "ifeq 'a' \"b".toList) (rest := []) (by unfold AsciiS; decide)
      (by decide) (by decide) (by simp) (by decide) rfl St.init_wf)
    (physical_locate (l := .synthetic) (by decide) (by simp) (by decide)) (by rw [textOf_locate]; decide) unclosed_demo
    (not_varLike (by rw [textOf_locate]; decide) (by rw [textOf_locate]; unfold varWords; decide))
    (by rintro ⟨w, hw, hp⟩; rw [textOf_locate] at hp; revert w; unfold directiveWords; decide) hw⟩

/-- The same line in a branch that is not taken. -/
example (fs : Fs) : ∃ P rest, LineGives fs P P.span { PState.new with conditionals := [⟨false, false⟩], ignoring := true } St.init rest
    { PState.new with conditionals := [⟨false, false⟩], ignoring := true } St.init :=
  ⟨_, _, C64_skipped fs (atLine_locate (l := .synthetic) (line := "ifeq 'a' \"b".toList) (rest := []) (by unfold AsciiS; decide)
    (by decide) (by decide) (by simp) (by decide) rfl rfl St.init_wf) (.inl rfl)
    (by rw [dropWhile_locate (s := "ifeq 'a' \"b".toList) (by simp)]; exact unclosed_demo) rfl⟩

/-- `endif x` -/
example (fs : Fs) : Rejects fs (textBlock .synthetic "endif x\n".toList).span
    { PState.new with conditionals := [⟨true, false⟩] } St.init := by
  refine C64_rejected_partial fs (line := locate .synthetic "endif x".toList)
    (atLine_locate (line := "endif x".toList) (rest := []) (by unfold AsciiS; decide) (by decide) (by decide) (by simp)
      (by decide) rfl rfl St.init_wf) (.inl rfl) ?_
  exact .afterEndif (kw := locate .synthetic "endif".toList) (u := locate .synthetic " x".toList) (x := ('x', .synthetic))
    rfl (by decide) (by decide)

/-- `ifneq "a" "$(b"` -/
example (fs : Fs) : Rejects fs (textBlock .synthetic "ifneq \"a\" \"$(b\"\n".toList).span PState.new St.init := by
  refine C64_rejected_partial fs (line := locate .synthetic "ifneq \"a\" \"$(b\"".toList)
    (atLine_locate (line := "ifneq \"a\" \"$(b\"".toList) (rest := []) (by unfold AsciiS; decide) (by decide) (by decide) (by simp)
      (by decide) rfl rfl St.init_wf) (.inl rfl) ?_
  have he : EqArgs (locate .synthetic "\"a\" \"$(b\"".toList) [('a', .synthetic)] (locate .synthetic "$(b".toList) :=
    .quoted (l1 := .synthetic) (l2 := .synthetic) (l3 := .synthetic) (l4 := .synthetic) (a := [('a', .synthetic)])
      (b := locate .synthetic "$(b".toList) (tail := []) (q := '"') (q' := '"') (gap := [(' ', .synthetic)]) (.inl rfl) (.inl rfl)
      (by unfold Free; simp) (by unfold Blanks; simp) (free_locate (s := "$(b".toList) (by decide))
  exact .second (kw := locate .synthetic "ifneq".toList) (gap := [(' ', .synthetic)]) (a := [('a', .synthetic)])
    (b := locate .synthetic "$(b".toList) (k := .unterminatedVariable) (by rw [textOf_locate]; decide) (by unfold Blanks; simp)
    he (reads_text (by unfold Free; simp)) (.paren .unclosed)

end Hastur
