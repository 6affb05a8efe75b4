import Verif.Proofs.BrokenRule
/-
C63: rule lines that go over several physical lines.
-/
namespace Hastur

open Res

private def noFs : Fs := fun _ => .missing

/-- The full claim: wherever a line of plain words, a colon (or two) and plain words is broken with backslashes, it starts a
rule with exactly these targets and dependencies.  (That the line does not begin with a keyword of another kind of line
is assumed; see C47.) -/
def C63_full : Prop :=
  ∀ (fs : Fs) (P : Block) (i : Span) (t line rest ts cs ds : List LChar) (ws us : List (List LChar)) (double : Bool)
    (p : PState) (st : St), Ready P i t line rest p st →
    (textOf line).head? ≠ some st.commandChar → line = ts ++ (cs ++ ds) → WordList ts ws →
    textOf cs = (if double then "::".toList else ":".toList) → WordList0 ds us →
    ¬ CondLike line → ¬ VarLike line → ¬ DirectiveLike line → ¬ VarLike (ds.dropWhile lblank) →
    ∃ r : ProtoRule, LineGives fs P i p st rest { p with currentRule := some r } st ∧ r.targets.map Block.ltext = ws ∧
      r.deps.map Block.ltext = us ∧ r.recipe = [] ∧ r.ruleType = (if double then .doubleColon else .standard)

/-- C63 for lines that are broken after the beginning of the dependencies: the first physical line, `c`, has more
characters than there are in front of the dependencies. -/
theorem C63_continued_rule_partial (fs : Fs) {P : Block} {i : Span} {c : Continued} {t line rest ts cs ds : List LChar}
    {ws us : List (List LChar)} {double : Bool} {p : PState} {st : St} (h : Ready P i (c.line ++ t) line rest p st)
    (hc : c.OK) (hfirst : (ts ++ cs).length < c.body.length)
    (hch : (textOf line).head? ≠ some st.commandChar) (e : line = ts ++ (cs ++ ds))
    (hts : WordList ts ws) (hcs : textOf cs = (if double then "::".toList else ":".toList)) (hds : WordList0 ds us)
    (h1 : ¬ CondLike line) (h2 : ¬ VarLike line) (h3 : ¬ DirectiveLike line) (h4 : ¬ VarLike (ds.dropWhile lblank)) :
    ∃ r : ProtoRule, LineGives fs P i p st rest { p with currentRule := some r } st ∧ r.targets.map Block.ltext = ws ∧
      r.deps.map Block.ltext = us ∧ r.recipe = [] ∧ r.ruleType = (if double then .doubleColon else .standard) := by
  obtain ⟨hne, hdrop, j, b, e1, e2, e3, N, rest', targets, deps, f1, f2, f4⟩ := parseTargetLine_continued_words fs h.pieces
    h.mono h.at_ h.logical h.comment h.wf hc hfirst e hts hcs hds h4
  refine ⟨⟨targets, deps, [], if double then .doubleColon else .standard⟩, ⟨N, j, e2, fun n hn => ?_⟩,
    f1.map_ltext, f2.map_ltext, rfl, rfl⟩
  rw [parseLine_newRule fs h.at_ h.comment h.define h.active h.command (.inl h.rule) e1 e3.at hne hdrop hch h1 h2 h3 (f4 n hn)]
  simp [PState.closeRule, h.rule, Res.bind, handleTargetAction]

private abbrev syn (s : Str) : List LChar := s.map fun c => (c, .synthetic)

/-- `a: \⏎ c` -/
private def exFirst : Continued := ⟨[], syn "a:".toList, syn [' '], .synthetic, .synthetic⟩

private def aborts : Res LineOut → Bool
  | .panic _ => true
  | _ => false

private theorem broken_aborts {n : Nat} (hn : 1 ≤ n) : ∃ e, parseLine noFs (recF noFs n) PState.new St.init
    (textBlock .synthetic "a: \\\n c\n".toList).span = .panic e := by
  have h : aborts (parseLine noFs (recF noFs 1) PState.new St.init
    (textBlock .synthetic "a: \\\n c\n".toList).span) = true := by decide +kernel
  unfold aborts at h
  split at h
  · rename_i e he
    exact ⟨e, (parseLine_le (recF_le noFs hn) noFs _ _ _).panic he⟩
  · cases h

/-- If the line is broken after the colon, the parser aborts. -/
theorem C63_refuted : ¬ C63_full := by
  intro h
  have hl : Logical (locate .synthetic "a: \\\n c\n".toList) (syn "a: c".toList) [] :=
    .mk [exFirst] (syn [' ']) (syn ['c']) (syn ['\n']) [] (by
      intro c hc
      cases List.mem_singleton.mp hc
      exact ⟨(by intro x hx; cases hx), by unfold Blanks; simp [exFirst], by unfold Free; simp [exFirst],
        .inr ⟨⟨_, _, rfl, by decide⟩, ⟨(':', .synthetic), syn ['a'], rfl, by decide⟩⟩⟩)
      (by unfold Blanks; simp) (by unfold Free; simp) (by simp) (by decide) (.inr ⟨_, rfl⟩)
  have hr : Ready (textBlock .synthetic "a: \\\n c\n".toList) (textBlock .synthetic "a: \\\n c\n".toList).span
      (locate .synthetic "a: \\\n c\n".toList) (syn "a: c".toList) [] PState.new St.init :=
    ⟨⟨by decide, textBlock_mono _ _, textBlock_at (by unfold AsciiS; decide), hl,
      free_locate (by decide), rfl, by decide, St.init_wf⟩, rfl, rfl⟩
  obtain ⟨r, ⟨N, j, _, h1⟩, _⟩ := h noFs _ _ _ _ _ (syn ['a']) (syn [':']) (syn " c".toList) [syn ['a']] [syn ['c']]
    false _ _ hr (by decide) rfl (wordList_one (by decide) (by intro x hx; cases List.mem_singleton.mp hx; unfold WordChar; decide)) rfl
    (.some (gap := syn [' ']) (by unfold Blanks; simp)
      (wordList_one (by decide) (by intro x hx; cases List.mem_singleton.mp hx; unfold WordChar; decide)))
    (not_condLike (l := .synthetic) (s := "a: c".toList) (by simp) (by unfold condWords; decide))
    (not_varLike (by decide) (by unfold varWords; decide))
    (by rintro ⟨w, hw, hp⟩; revert w; unfold directiveWords; decide)
    (not_varLike (by decide) (by unfold varWords; decide))
  obtain ⟨e, h2⟩ := broken_aborts (n := N + 1) (by omega)
  rw [h1 (N + 1) (by omega)] at h2
  cases h2

/-- `a: b \⏎ c`: one target, two dependencies. -/
private def exGood : Continued := ⟨[], syn "a: b".toList, syn [' '], .synthetic, .synthetic⟩

private theorem one {c : Char} (hc : WordChar c) : [(c, Location.synthetic)] ≠ [] ∧
    ∀ x ∈ [(c, Location.synthetic)], WordChar x.1 :=
  ⟨by simp, by intro x hx; cases List.mem_singleton.mp hx; exact hc⟩

example (fs : Fs) : ∃ P r, P = textBlock .synthetic "a: b \\\n c\n".toList ∧
    LineGives fs P P.span PState.new St.init [] { PState.new with currentRule := some r } St.init ∧
    r.targets.map (fun b => textOf (Block.ltext b)) = [['a']] ∧
    r.deps.map (fun b => textOf (Block.ltext b)) = [['b'], ['c']] ∧ r.ruleType = .standard := by
  have hok : exGood.OK := ⟨(by intro x hx; cases hx), by unfold Blanks; simp [exGood], by unfold Free; simp [exGood],
    .inr ⟨⟨_, _, rfl, by decide⟩, ⟨('b', .synthetic), syn "a: ".toList, rfl, by decide⟩⟩⟩
  have hl : Logical (exGood.line ++ syn " c\n".toList) (syn "a: b c".toList) [] :=
    .mk [exGood] (syn [' ']) (syn ['c']) (syn ['\n']) [] (by
      intro c hc
      cases List.mem_singleton.mp hc
      exact hok)
      (by unfold Blanks; simp) (by unfold Free; simp) (by simp) (by decide) (.inr ⟨_, rfl⟩)
  have hr : Ready (textBlock .synthetic "a: b \\\n c\n".toList) (textBlock .synthetic "a: b \\\n c\n".toList).span
      (exGood.line ++ syn " c\n".toList) (syn "a: b c".toList) [] PState.new St.init :=
    ⟨⟨by decide, textBlock_mono _ _, textBlock_at (t := "a: b \\\n c\n".toList) (by unfold AsciiS; decide), hl,
      free_locate (l := .synthetic) (s := "a: b \\\n c\n".toList) (by decide), rfl, by decide, St.init_wf⟩, rfl, rfl⟩
  have wa : WordChar 'a' := by unfold WordChar; decide
  have wb : WordChar 'b' := by unfold WordChar; decide
  have wc : WordChar 'c' := by unfold WordChar; decide
  have bl : Blanks [(' ', Location.synthetic)] := by unfold Blanks; simp
  obtain ⟨r, h1, h2, h3, _, h5⟩ := C63_continued_rule_partial fs hr hok (by decide) (by decide)
    (ts := syn ['a']) (cs := syn [':']) (ds := syn " b c".toList) (double := false) rfl
    (wordList_one (one wa).1 (one wa).2) rfl
    (.some bl (.more (one wb).1 (one wb).2 bl (by simp) (wordList_one (one wc).1 (one wc).2)))
    (not_condLike (l := .synthetic) (s := "a: b c".toList) (by simp) (by unfold condWords; decide))
    (not_varLike (by decide) (by unfold varWords; decide))
    (by rintro ⟨w, hw, hp⟩; revert w; unfold directiveWords; decide)
    (not_varLike (by decide) (by unfold varWords; decide))
  refine ⟨_, r, rfl, h1, ?_, ?_, h5⟩
  · have := congrArg (List.map textOf) h2
    rwa [List.map_map] at this
  · have := congrArg (List.map textOf) h3
    rwa [List.map_map] at this

/-- If instead the first physical line, `c`, ends among the targets or right after the colons, the parser aborts.
(`X` is what the other physical lines are joined to.) -/
theorem C63_aborts (fs : Fs) {P : Block} {i : Span} {c : Continued} {t X rest ts cs ds : List LChar}
    {ws us : List (List LChar)} {double : Bool} {p : PState} {st : St} (hc : c.OK) (hb : c.body ≠ []) (hX : Logical t X rest)
    (h : Ready P i (c.line ++ t) (c.body ++ (' ', .synthetic) :: X) rest p st)
    (hbreak : c.body.length ≤ (ts ++ cs).length)
    (hch : (textOf c.body).head? ≠ some st.commandChar) (e : c.body ++ (' ', .synthetic) :: X = ts ++ (cs ++ ds))
    (hts : WordList ts ws) (hcs : textOf cs = (if double then "::".toList else ":".toList)) (hds : WordList0 ds us)
    (h1 : ¬ CondLike (ts ++ (cs ++ ds))) (h2 : ¬ VarLike (ts ++ (cs ++ ds))) (h3 : ¬ DirectiveLike (ts ++ (cs ++ ds)))
    (h4 : ¬ VarLike (ds.dropWhile lblank)) :
    ∃ N, ∀ n, N ≤ n → ∃ e, parseLine fs (recF fs n) p st i = .panic e := by
  obtain ⟨hne, hdrop, j, b, e1, e2, N, e3⟩ := parseTargetLine_broken fs h.pieces h.mono h.at_ h.logical h.comment h.wf hc hb
    rfl (by decide) hX.head_nonblank hbreak e hts hcs hds h4
  refine ⟨N, fun n hn => parseLine_target_panics fs h.at_ h.comment h.define h.active h.command (.inl h.rule) e1 e2.at hne
    hdrop ?_ (by rw [e]; exact h1) (by rw [e]; exact h2) (by rw [e]; exact h3) (e3 n hn)⟩
  cases hbody : c.body with
  | nil => exact absurd hbody hb
  | cons x l => rw [hbody] at hch; simpa using hch

/-- So a rule line that goes over several physical lines starts the rule it denotes exactly when the first of them
contains the beginning of the dependencies. -/
theorem C63_exact (fs : Fs) {P : Block} {i : Span} {c : Continued} {t X rest ts cs ds : List LChar}
    {ws us : List (List LChar)} {double : Bool} {p : PState} {st : St} (hc : c.OK) (hb : c.body ≠ []) (hX : Logical t X rest)
    (h : Ready P i (c.line ++ t) (c.body ++ (' ', .synthetic) :: X) rest p st)
    (hch : (textOf c.body).head? ≠ some st.commandChar) (e : c.body ++ (' ', .synthetic) :: X = ts ++ (cs ++ ds))
    (hts : WordList ts ws) (hcs : textOf cs = (if double then "::".toList else ":".toList)) (hds : WordList0 ds us)
    (h1 : ¬ CondLike (ts ++ (cs ++ ds))) (h2 : ¬ VarLike (ts ++ (cs ++ ds))) (h3 : ¬ DirectiveLike (ts ++ (cs ++ ds)))
    (h4 : ¬ VarLike (ds.dropWhile lblank)) :
    (∃ r : ProtoRule, LineGives fs P i p st rest { p with currentRule := some r } st ∧ r.targets.map Block.ltext = ws ∧
      r.deps.map Block.ltext = us ∧ r.recipe = [] ∧ r.ruleType = (if double then .doubleColon else .standard)) ↔
    (ts ++ cs).length < c.body.length := by
  constructor
  · rintro ⟨r, ⟨N, j, _, g⟩, _⟩
    apply Nat.lt_of_not_le
    intro hle
    obtain ⟨M, hM⟩ := C63_aborts fs hc hb hX h hle hch e hts hcs hds h1 h2 h3 h4
    obtain ⟨e', he'⟩ := hM (max N M) (by omega)
    rw [g (max N M) (by omega)] at he'
    cases he'
  · intro hlt
    refine C63_continued_rule_partial fs h hc hlt ?_ e hts hcs hds (by rw [e]; exact h1) (by rw [e]; exact h2)
      (by rw [e]; exact h3) h4
    cases hbody : c.body with
    | nil => exact absurd hbody hb
    | cons x l => rw [hbody] at hch; simpa using hch

/-- `a \⏎b: c` aborts. -/
example (fs : Fs) : ∃ N, ∀ n, N ≤ n → ∃ e, parseLine fs (recF fs n) PState.new St.init
    (textBlock .synthetic "a \\\nb: c\n".toList).span = .panic e := by
  let c : Continued := ⟨[], syn "a".toList, syn [' '], .synthetic, .synthetic⟩
  have hok : c.OK := ⟨(by intro x hx; cases hx), by unfold Blanks; simp [c], by unfold Free; simp [c],
    .inr ⟨⟨_, _, rfl, by decide⟩, ⟨('a', .synthetic), [], rfl, by decide⟩⟩⟩
  have hX : Logical (syn "b: c\n".toList) (syn "b: c".toList) [] :=
    .mk [] [] (syn "b: c".toList) (syn ['\n']) [] (by simp) (by unfold Blanks; simp) (by unfold Free; simp) (by simp)
      (by decide) (.inr ⟨_, rfl⟩)
  have hl : Logical (c.line ++ syn "b: c\n".toList) (syn "a b: c".toList) [] :=
    .mk [c] [] (syn "b: c".toList) (syn ['\n']) [] (by
      intro x hx
      cases List.mem_singleton.mp hx
      exact hok)
      (by unfold Blanks; simp) (by unfold Free; simp) (by simp) (by decide) (.inr ⟨_, rfl⟩)
  have hr : Ready (textBlock .synthetic "a \\\nb: c\n".toList) (textBlock .synthetic "a \\\nb: c\n".toList).span
      (c.line ++ syn "b: c\n".toList) (syn "a b: c".toList) [] PState.new St.init :=
    ⟨⟨by decide, textBlock_mono _ _, textBlock_at (t := "a \\\nb: c\n".toList) (by unfold AsciiS; decide), hl,
      free_locate (l := .synthetic) (s := "a \\\nb: c\n".toList) (by decide), rfl, by decide, St.init_wf⟩, rfl, rfl⟩
  have wa : WordChar 'a' := by unfold WordChar; decide
  have wb : WordChar 'b' := by unfold WordChar; decide
  have wc : WordChar 'c' := by unfold WordChar; decide
  have bl : Blanks [(' ', Location.synthetic)] := by unfold Blanks; simp
  exact C63_aborts fs (ts := syn "a b".toList) (cs := syn [':']) (ds := syn " c".toList) (double := false) hok (by simp [c]) hX hr
    (by decide) (by decide) rfl
    (.more (one wa).1 (one wa).2 bl (by simp) (wordList_one (one wb).1 (one wb).2)) rfl
    (.some bl (wordList_one (one wc).1 (one wc).2))
    (not_condLike (l := .synthetic) (s := "a b: c".toList) (by simp) (by unfold condWords; decide))
    (not_varLike (by decide) (by unfold varWords; decide))
    (by rintro ⟨w, hw, hp⟩; revert w; unfold directiveWords; decide)
    (not_varLike (by decide) (by unfold varWords; decide))

end Hastur
