import Verif.Proofs.Program
import Verif.Proofs.RuleDemo
/-
C44, C47, C55: rules, recipes, and lines that are neither.
-/
namespace Hastur

open Res

private def noFs : Fs := fun _ => .missing

/-! ### C47 -/

/-- The full claim: a line of plain words, a colon (or two) and plain words starts a rule with exactly these targets and
dependencies. -/
def C47_full : Prop :=
  ∀ (fs : Fs) (P : Block) (i : Span) (t line rest ts cs ds : List LChar) (ws us : List (List LChar)) (double : Bool)
    (p : PState) (st : St), Ready P i t line rest p st → Physical t line rest →
    (textOf line).head? ≠ some st.commandChar → line = ts ++ (cs ++ ds) → WordList ts ws →
    textOf cs = (if double then "::".toList else ":".toList) → WordList0 ds us →
    ∃ r : ProtoRule, LineGives fs P i p st rest { p with currentRule := some r } st ∧ r.targets.map Block.ltext = ws ∧
      r.deps.map Block.ltext = us ∧ r.recipe = [] ∧ r.ruleType = (if double then .doubleColon else .standard)

/-- C47 for lines that do not begin with a keyword of some other kind of line, and where what follows the colon does not
begin with `define` or the like. -/
theorem C47_rule_line_partial (fs : Fs) {P : Block} {i : Span} {t line rest ts cs ds : List LChar}
    {ws us : List (List LChar)} {double : Bool} {p : PState} {st : St} (h : Ready P i t line rest p st)
    (hl : Physical t line rest) (hc : (textOf line).head? ≠ some st.commandChar) (e : line = ts ++ (cs ++ ds))
    (hts : WordList ts ws) (hcs : textOf cs = (if double then "::".toList else ":".toList)) (hds : WordList0 ds us)
    (h1 : ¬ CondLike line) (h2 : ¬ VarLike line) (h3 : ¬ DirectiveLike line) (h4 : ¬ VarLike (ds.dropWhile lblank)) :
    ∃ r : ProtoRule, LineGives fs P i p st rest { p with currentRule := some r } st ∧ r.targets.map Block.ltext = ws ∧
      r.deps.map Block.ltext = us ∧ r.recipe = [] ∧ r.ruleType = (if double then .doubleColon else .standard) := by
  obtain ⟨tt, hT, rfl⟩ := targets_words st.env hts
  have hd : ∀ x ∈ ds, x.1 ∉ [':', '=', ';', '#', '\\'] := by
    intro x hx hm
    have key : ∀ c ∈ [':', '=', ';', '#', '\\', '$'], x.1 ≠ c := fun c hc => free_of_names hds.names hc x hx
    simp only [List.mem_cons, List.not_mem_nil, or_false] at hm
    rcases hm with h | h | h | h | h <;> exact key _ (by simp) h
  obtain ⟨r, g1, g2, g3, g4, g5⟩ := parseLine_rule fs h hl hc h1 h2 h3 (by rw [e]; exact .plain hcs hd) h4 hT
    (reads_names hds.names) (Expands.text _ _) (fileNames_of hds.names) .none
  exact ⟨r, g1, g2, by rw [g3, wordsOf_list0 hds], List.map_eq_nil_iff.mp g4, g5⟩

/-- C47 for lines with references in the targets and dependencies, and possibly a command after a semicolon: the
targets and dependencies are the words of the expansions, and the command is the first line of the recipe. -/
theorem C47_references_partial (fs : Fs) {P : Block} {i : Span} {t line rest ts after ds tt dt : List LChar} {double : Bool}
    {command : Option (List LChar)} {vs us : List Str} {des : List Expr} {recipe : List (List Expr)} {p : PState} {st : St}
    (h : Ready P i t line rest p st) (hl : Physical t line rest) (hc : (textOf line).head? ≠ some st.commandChar)
    (hr : RuleText line ts double after ds command) (hts : TargetsExpand st.env ts tt vs)
    (hds : Reads ds (.ok des)) (hde : Expands st.env des dt us) (hdt : FileNames dt) (hcmd : CommandReads command recipe)
    (h1 : ¬ CondLike line) (h2 : ¬ VarLike line) (h3 : ¬ DirectiveLike line) (h4 : ¬ VarLike (after.dropWhile lblank)) :
    ∃ (r : ProtoRule) (st' : St), LineGives fs P i p st rest { p with currentRule := some r } st' ∧ st'.db = st.db ∧
      r.targets.map Block.ltext = wordsOf tt ∧ r.deps.map Block.ltext = wordsOf dt ∧ r.recipe.map Ast.flat = recipe ∧
      r.ruleType = (if double then .doubleColon else .standard) := by
  obtain ⟨r, g1, g2⟩ := parseLine_rule fs h hl hc h1 h2 h3 hr h4 hts hds hde hdt hcmd
  exact ⟨r, _, g1, rfl, g2⟩

/-- C47: a recipe line of the open rule is added after the ones that are there already, unexpanded. -/
theorem C47_recipe_line (fs : Fs) {P : Block} {i : Span} {t line rest : List LChar} {p : PState} {st : St} {o : ProtoRule}
    {es : List Expr} (h1 : P.content.length ≤ 1) (h2 : Block.Mono P) (h3 : i.At P t) (h4 : Free '#' t)
    (h5 : isAscii st.commandChar = true) (hp : p.currentRule = some o) (hr : RecipeText st.commandChar t line rest)
    (he : Reads line (.ok es)) :
    ∃ a, LineGives fs P i p st rest { p with currentRule := some { o with recipe := o.recipe ++ [a] } } st ∧ a.flat = es := by
  obtain ⟨j, a, g1, g2, _, g4⟩ := parseLine_recipe fs (recF fs 0) h1 h2 h3 h4 h5 hp hr he
  exact ⟨a, ⟨0, j, g1, fun n _ => (parseLine_le (recF_le fs (Nat.zero_le n)) fs p st i).ok g4⟩, g2⟩

/-- C43, exactly: a line in a branch not taken that is no conditional has an effect just if a rule is open and the line is
marked as one of its commands (`hr`: such a line can be read); it is then added to the rule. -/
theorem C43_exact (fs : Fs) {P : Block} {i : Span} {t line rest : List LChar} {p : PState} {st : St}
    (h : AtLine P i t line rest p st) (hc : ¬ CondLike (line.dropWhile lblank)) (hig : p.ignoring = true)
    (hr : (textOf t).head? = some st.commandChar → ∃ line' rest' es, RecipeText st.commandChar t line' rest' ∧ Reads line' (.ok es)) :
    (∃ N j, ∀ n, N ≤ n → parseLine fs (recF fs n) p st i = .ok (.done j (), p, st)) ↔
      ¬ (p.currentRule ≠ none ∧ (textOf t).head? = some st.commandChar) := by
  refine ⟨fun ⟨N, j, hj⟩ ⟨h1, h2⟩ => ?_, fun hno => ?_⟩
  · obtain ⟨o, ho⟩ := Option.ne_none_iff_exists'.mp h1
    obtain ⟨line', rest', es, h3, h4⟩ := hr h2
    obtain ⟨a, ⟨N', j', _, h5⟩, _⟩ := C47_recipe_line fs h.pieces h.mono h.at_ h.comment h.command ho h3 h4
    have e := h5 (N + N') (Nat.le_add_left _ _)
    rw [hj (N + N') (Nat.le_add_right _ _)] at e
    have e' : p.currentRule = some { o with recipe := o.recipe ++ [a] } := by
      injection e with e
      injection e with _ e
      injection e with e _
      exact congrArg PState.currentRule e
    rw [ho] at e'
    injection e' with e'
    have := congrArg (fun r : ProtoRule => r.recipe.length) e'
    simp at this
  · have hor : p.currentRule = none ∨ (textOf t).head? ≠ some st.commandChar := by
      rcases Classical.em (p.currentRule = none) with h1 | h1
      · exact .inl h1
      · exact .inr fun h2 => hno ⟨h1, h2⟩
    obtain ⟨j, _, e⟩ := parseLine_skip fs h hor hc hig
    exact ⟨0, j, fun n _ => e _⟩

private def aborts : Res LineOut → Bool
  | .panic _ => true
  | _ => false

private theorem exports_aborts (n : Nat) : ∃ e, parseLine noFs (recF noFs n) PState.new St.init
    (textBlock .synthetic "exports: x\n".toList).span = .panic e := by
  have h : aborts (parseLine noFs (recF noFs 0) PState.new St.init
    (textBlock .synthetic "exports: x\n".toList).span) = true := by decide +kernel
  unfold aborts at h
  split at h
  · rename_i e he
    exact ⟨e, (parseLine_le (recF_le noFs (Nat.zero_le n)) noFs _ _ _).panic he⟩
  · cases h

/-- The target `exports` is taken for the keyword `export`. -/
theorem C47_refuted : ¬ C47_full := by
  intro h
  have hr : Ready _ _ _ _ _ PState.new St.init := ready_locate (l := .synthetic) (line := "exports: x".toList)
    (rest := []) (by unfold AsciiS; decide) (by decide) (by decide) (by simp) (by decide) rfl St.init_wf
  have hx : WordList (locate .synthetic ['x']) [locate .synthetic ['x']] :=
    wordList_one (by decide) (mem_locate (by unfold WordChar; decide))
  obtain ⟨r, ⟨N, j, _, h1⟩, _⟩ := h noFs _ _ _ _ _ (locate .synthetic "exports".toList) (locate .synthetic [':'])
    (locate .synthetic " x".toList) [locate .synthetic "exports".toList] [locate .synthetic "x".toList] false _ _ hr
    (physical_locate (by decide) (by simp) (by decide)) (by rw [textOf_locate]; decide) rfl
    (wordList_one (by decide) (mem_locate (by unfold WordChar; decide))) rfl
    (.some (gap := locate .synthetic [' ']) (by unfold Blanks; simp [locate]) hx)
  obtain ⟨e, h2⟩ := exports_aborts N
  have h3 := h1 N (Nat.le_refl _)
  rw [show (textBlock .synthetic ("exports: x".toList ++ '\n' :: [])) = textBlock .synthetic "exports: x\n".toList from rfl,
    h2] at h3
  cases h3

/-- `a b :: c`: two targets, one dependency, two colons. -/
example (fs : Fs) : ∃ P rest r, LineGives fs P P.span PState.new St.init rest { PState.new with currentRule := some r } St.init ∧
    r.targets.map (fun b => textOf (Block.ltext b)) = [['a'], ['b']] ∧
    r.deps.map (fun b => textOf (Block.ltext b)) = [['c']] ∧ r.ruleType = .doubleColon := by
  have hr : Ready _ _ _ _ _ PState.new St.init := ready_locate (l := .synthetic) (line := "a b :: c".toList)
    (rest := []) (by unfold AsciiS; decide) (by decide) (by decide) (by simp) (by decide) rfl St.init_wf
  have one : ∀ {c : Char} {l : Location}, WordChar c → [(c, l)] ≠ [] ∧ ∀ x ∈ [(c, l)], WordChar x.1 := fun hc =>
    ⟨by simp, by intro x hx; cases List.mem_singleton.mp hx; exact hc⟩
  have wa : WordChar 'a' := by unfold WordChar; decide
  have wb : WordChar 'b' := by unfold WordChar; decide
  have wc : WordChar 'c' := by unfold WordChar; decide
  have bl : Blanks [(' ', Location.synthetic)] := by unfold Blanks; simp
  obtain ⟨r, h1, h2, h3, _, h5⟩ := C47_rule_line_partial fs hr (physical_locate (by decide) (by simp) (by decide))
    (by rw [textOf_locate]; decide)
    (ts := locate .synthetic "a b ".toList) (cs := locate .synthetic "::".toList) (ds := locate .synthetic " c".toList)
    (double := true) rfl
    (.more (one wa).1 (one wa).2 bl (by simp) (.last (one wb).1 (one wb).2 bl)) rfl
    (.some bl (wordList_one (one wc).1 (one wc).2))
    (not_condLike (by simp) (by unfold condWords; decide))
    (not_varLike (by rw [textOf_locate]; decide) (by rw [textOf_locate]; unfold varWords; decide))
    (by rintro ⟨w, hw, hp⟩; rw [textOf_locate] at hp; revert w; unfold directiveWords; decide)
    (not_varLike (by decide) (by unfold varWords; decide))
  refine ⟨_, _, r, h1, ?_, ?_, h5⟩
  · have := congrArg (List.map textOf) h2
    rwa [List.map_map] at this
  · have := congrArg (List.map textOf) h3
    rwa [List.map_map] at this

/-- The state of a running example: `x` is `1`. -/
private def demo : St := St.init.define ['x'] (.constant .synthetic ⟨.synthetic, ['1']⟩)

private theorem demo_wf : demo.WF ∧ ∀ s, demo.env s = if s = ['x'] then some (Expr.text [('1', .synthetic)]) else none :=
  St.init_wf.define (s := ['x']) (f := .recursive) (by show AsciiS _; unfold AsciiS; decide)

private abbrev s0 : Location := .synthetic

/-- `a: $(x); echo`, where `x` is `1`. -/
example (fs : Fs) : ∃ P rest r st', LineGives fs P P.span PState.new demo rest { PState.new with currentRule := some r } st' ∧
    r.targets.map Block.ltext = [[('a', s0)]] ∧ r.deps.map Block.ltext = [[('1', s0)]] ∧
    r.recipe.map Ast.flat = [Expr.text (locate s0 " echo".toList)] ∧ r.ruleType = .standard := by
  have hr : Ready _ _ _ _ _ PState.new demo := ready_locate (l := s0) (line := "a: $(x); echo".toList)
    (rest := []) (by unfold AsciiS; decide) (by decide) (by decide) (by simp) (by decide) rfl demo_wf.1
  have hname : Reads [('x', s0)] (.ok [.char ('x', s0)]) := .char (o := .ok []) (by decide) .nil
  have href : ReadsRef s0 (closing '(' ')' 0 [('x', s0), (')', s0)]) (.ok [.ref s0 [.char ('x', s0)]]) :=
    .ref (name := [('x', s0)]) (rest := []) (o := .ok []) (by decide) hname .nil
  have hds : Reads (locate s0 " $(x)".toList) (.ok [.char (' ', s0), .ref s0 [.char ('x', s0)]]) :=
    .char (o := .ok [.ref s0 [.char ('x', s0)]]) (by decide) (.paren href)
  have hx : Expands demo.env [.ref s0 [.char ('x', s0)]] [('1', s0)] [['x']] :=
    .defined (n := [('x', s0)]) (.char .nil) not_isSubst_single (by rw [demo_wf.2]; rfl)
      (Expands.text _ [('1', s0)]) .nil
  have hde : Expands demo.env [.char (' ', s0), .ref s0 [.char ('x', s0)]] [(' ', s0), ('1', s0)] [['x']] := .char hx
  have wa : WordChar 'a' := by unfold WordChar; decide
  have ha : TargetsExpand demo.env [('a', s0)] [('a', s0)] [] := by
    have := TargetsExpand.last (env := demo.env) (w := [('a', s0)]) (gap := []) (t := [('a', s0)])
      (es := Expr.text [('a', s0)]) (vs := []) (.char wa .nil) (by simp) (by intro x hx; cases hx)
      (reads_text (by unfold Free; simp)) (Expands.text _ _) (by
        intro x hx
        cases List.mem_singleton.mp hx
        exact .inl wa) (by simp)
    exact this
  have ht : RuleText (locate s0 "a: $(x); echo".toList) [('a', s0)] false (locate s0 " $(x); echo".toList)
      (locate s0 " $(x)".toList) (some (locate s0 " echo".toList)) :=
    .command (ts := [('a', s0)]) (cs := [(':', s0)]) (ds := locate s0 " $(x)".toList) (cmd := locate s0 " echo".toList) (l := s0)
      rfl (mem_locate (q := fun c => c ∉ [':', '=', ';', '#', '\\']) (by decide))
  obtain ⟨r, st', h1, _, h2, h3, h4, h5⟩ := C47_references_partial fs hr
    (physical_locate (by decide) (by simp) (by decide)) (by rw [textOf_locate]; decide) ht ha hds hde
    (by
      intro x hx
      simp only [List.mem_cons, List.not_mem_nil, or_false] at hx
      rcases hx with rfl | rfl
      · exact .inr (by decide)
      · exact .inl (by unfold WordChar; decide))
    (.some (reads_text (free_locate (by decide))))
    (not_condLike (by simp) (by unfold condWords; decide))
    (not_varLike (by rw [textOf_locate]; decide) (by rw [textOf_locate]; unfold varWords; decide))
    (by rintro ⟨w, hw, hp⟩; rw [textOf_locate] at hp; revert w; unfold directiveWords; decide)
    (not_varLike (by decide) (by unfold varWords; decide))
  exact ⟨_, _, r, st', h1, by rw [h2]; decide, by rw [h3]; decide, h4, h5⟩

/-- `$x ${x}:`, where `x` is `1`: the targets are `1` and `x}`, because names in braces are not read as references. -/
example (fs : Fs) : ∃ P rest r st', LineGives fs P P.span PState.new demo rest { PState.new with currentRule := some r } st' ∧
    r.targets.map Block.ltext = [[('1', s0)], [('x', s0), ('}', s0)]] ∧ r.deps = [] ∧ r.recipe = [] := by
  have hr : Ready _ _ _ _ _ PState.new demo := ready_locate (l := s0) (line := "$x ${x}:".toList)
    (rest := []) (by unfold AsciiS; decide) (by decide) (by decide) (by simp) (by decide) rfl demo_wf.1
  have wx : WordChar 'x' := by unfold WordChar; decide
  have w1 : WordChar '1' := by unfold WordChar; decide
  have wb : WordChar '}' := by unfold WordChar; decide
  have hx : Expands demo.env [.ref s0 [.char ('x', s0)]] [('1', s0)] [['x']] :=
    .defined (n := [('x', s0)]) (.char .nil) not_isSubst_single (by rw [demo_wf.2]; rfl)
      (Expands.text _ [('1', s0)]) .nil
  have hy : Expands demo.env [.ref s0 [.char ('{', s0)], .char ('x', s0), .char ('}', s0)] [('x', s0), ('}', s0)] [['{']] :=
    .undefined (n := [('{', s0)]) (.char .nil) not_isSubst_single (by rw [demo_wf.2]; rfl) (Expands.text _ [('x', s0), ('}', s0)])
  have hts : TargetsExpand demo.env (locate s0 "$x ${x}".toList) [('1', s0), (' ', s0), ('x', s0), ('}', s0)]
      ([['x']] ++ [['{']]) :=
    .more (w := locate s0 "$x".toList) (gap := [(' ', s0)]) (.single (x := ('x', s0)) wx (by show 'x' ∉ _; decide) .nil) (by simp [locate])
      (by unfold Blanks; simp) (by simp) (reads_single (by decide) (by decide) (by decide)) hx
      (by intro x hx; cases List.mem_singleton.mp hx; exact .inl w1) (by simp)
      (.last (w := locate s0 "${x}".toList) (gap := []) (t := [('x', s0), ('}', s0)])
        (.brace (name := [('x', s0)]) (by intro x hx; cases List.mem_singleton.mp hx; exact ⟨wx, by show 'x' ∉ _; decide⟩) .nil)
        (by simp [locate]) (by intro x hx; cases hx)
        (.single (x := ('{', s0)) (o := .ok (Expr.text [('x', s0), ('}', s0)])) (by show '{' ≠ _; decide)
          (by show '{' ≠ _; decide) (by show '{' ≠ _; decide) (reads_text (t := [('x', s0), ('}', s0)]) (by unfold Free; simp))) hy
        (by
          intro x hx
          simp only [List.mem_cons, List.not_mem_nil, or_false] at hx
          rcases hx with rfl | rfl
          · exact .inl wx
          · exact .inl wb) (by simp))
  have ht : RuleText (locate s0 "$x ${x}:".toList) (locate s0 "$x ${x}".toList) false [] [] none :=
    .plain (ts := locate s0 "$x ${x}".toList) (cs := [(':', s0)]) (ds := []) rfl (by intro x hx; cases hx)
  obtain ⟨r, st', h1, _, h2, h3, h4, _⟩ := C47_references_partial fs hr
    (physical_locate (by decide) (by simp) (by decide)) (by rw [textOf_locate]; decide) ht hts .nil .nil
    (by intro x hx; cases hx) .none
    (not_condLike (by simp) (by unfold condWords; decide))
    (not_varLike (by rw [textOf_locate]; decide) (by rw [textOf_locate]; unfold varWords; decide))
    (by rintro ⟨w, hw, hp⟩; rw [textOf_locate] at hp; revert w; unfold directiveWords; decide)
    (not_varLike (by decide) (by unfold varWords; decide))
  exact ⟨_, _, r, st', h1, by rw [h2]; decide, List.map_eq_nil_iff.mp h3, List.map_eq_nil_iff.mp h4⟩

/-- A recipe line that is continued. -/
example (fs : Fs) (o : ProtoRule) : ∃ P rest a, LineGives fs P P.span { PState.new with currentRule := some o } demo rest
    { PState.new with currentRule := some { o with recipe := o.recipe ++ [a] } } demo ∧
    a.flat = Expr.text (locate s0 "echo \\\nx".toList) := by
  have h : RecipeText '\t' (locate s0 "\techo \\\n\tx\nfoo".toList) (locate s0 "echo \\\nx".toList) (locate s0 "foo".toList) :=
    .more (line := locate s0 "echo \\".toList) (tail := locate s0 "\n\tx\nfoo".toList) (next := locate s0 "\tx\nfoo".toList)
      (line' := locate s0 "x".toList) (free_locate (by decide)) (by rw [textOf_locate]; decide) (.inr ⟨s0, rfl⟩)
      (.last (line := locate s0 "x".toList) (tail := locate s0 "\nfoo".toList) (free_locate (by decide))
        (by rw [textOf_locate]; decide) (.inr ⟨s0, rfl⟩))
  obtain ⟨a, h1, h2⟩ := C47_recipe_line fs (p := { PState.new with currentRule := some o }) (st := demo)
    (P := textBlock s0 "\techo \\\n\tx\nfoo".toList) (i := (textBlock s0 "\techo \\\n\tx\nfoo".toList).span)
    (by simp [textBlock]) (textBlock_mono _ _) (textBlock_at (by unfold AsciiS; decide)) (free_locate (by decide)) rfl rfl h
    (reads_text (free_locate (by decide)))
  exact ⟨_, _, a, h1, h2⟩

/-- A command in a branch not taken: it has an effect just if a rule is open. -/
example (fs : Fs) (p : PState) (hd : p.currentDefine = none) (hig : p.ignoring = true) :
    (∃ N j, ∀ n, N ≤ n → parseLine fs (recF fs n) p St.init (textBlock .synthetic "\techo\n".toList).span =
      .ok (.done j (), p, St.init)) ↔ p.currentRule = none := by
  have hl : Logical (locate .synthetic "\techo\n".toList) (locate (Location.synthetic.after ['\t']) "echo".toList) [] := by
    have := Logical.mk [] [('\t', .synthetic)] (locate (Location.synthetic.after ['\t']) "echo".toList)
      [('\n', Location.synthetic)] [] (by simp)
      (by intro x hx; cases List.mem_singleton.mp hx; exact .inr rfl) (free_locate (by decide))
      (head_locate (q := fun c => ¬ (c = ' ' ∨ c = '\t')) (by intro c hc; cases hc; decide))
      (by rw [textOf_locate]; decide) (.inr ⟨_, rfl⟩)
    exact this
  have h := C43_exact fs (P := textBlock .synthetic "\techo\n".toList) (i := (textBlock .synthetic "\techo\n".toList).span) (p := p)
    ⟨by simp [textBlock], textBlock_mono _ _, textBlock_at (by unfold AsciiS; decide), hl, free_locate (by decide), hd, rfl, St.init_wf⟩
    (not_condLike_locate (by simp) (by unfold condWords; decide)) hig (fun _ => ⟨_, _, _,
      .last (l := .synthetic) (line := locate .synthetic "echo".toList) (tail := locate .synthetic "\n".toList)
        (free_locate (by decide)) (by rw [textOf_locate]; decide) (.inr ⟨.synthetic, rfl⟩), reads_text (free_locate (by decide))⟩)
  rw [h]
  have e : (textOf (locate .synthetic "\techo\n".toList)).head? = some St.init.commandChar := rfl
  exact ⟨fun hno => Classical.byContradiction fun hp => hno ⟨hp, e⟩, fun hp hno => hno.1 hp⟩

/-! ### C44 -/

/-- The full claim: after reading a makefile, the database contains all its rules, the last one included. -/
def C44_full : Prop :=
  ∀ (fs : Fs) (text name : Str) (body : List LChar) (st : St) (m : MakeState), AsciiS text →
    Headed (locate (.source 1 1 (st.names.internFile name).1) text) body → isAscii st.commandChar = true →
    st.WF → RulesKnown st.db st.names →
    Makes st.commandChar NoSwitch ⟨st.vars, st.ruleTable, [], none⟩ body m →
    ∃ st', FileGives fs name text st st' ∧ st'.ruleTable = m.close.rules

/-- C44 for all makefiles of assignments, conditionals, rules and recipes, without the rule that is still open at the
end: afterwards the database contains exactly the rules that were there before and the completed rules of the makefile,
with their dependencies and commands.  The rule at the end is missing. -/
theorem C44_completed_rules_partial (fs : Fs) {text name : Str} {st : St} {m : MakeState} (ht : AsciiS text)
    {body : List LChar} (hc : Headed (locate (.source 1 1 (st.names.internFile name).1) text) body)
    (hch : isAscii st.commandChar = true) (hw : st.WF) (hk : RulesKnown st.db st.names)
    (hm : Makes st.commandChar NoSwitch ⟨st.vars, st.ruleTable, [], none⟩ body m) :
    ∃ st', FileGives fs name text st st' ∧ st'.ruleTable = m.rules ∧ st'.vars = m.vars ∧
      (m.current = none → st'.ruleTable = m.close.rules) := by
  obtain ⟨p', st', h1, h2, _⟩ := file_makes fs ht hc hch hw hk rfl rfl hm
  exact ⟨st', h1, h2.rules, h2.vars, fun h => by rw [h2.rules]; unfold MakeState.close; rw [h]⟩

/-- C41, C43, C46 and C47 for whole makefiles with rules: the variables and rules afterwards are those of the
specification, in which a line takes effect just if all open conditionals are in their taken branch. -/
theorem C41_makefile_partial (fs : Fs) {text name : Str} {st : St} {m : MakeState} (ht : AsciiS text)
    {body : List LChar} (hc : Headed (locate (.source 1 1 (st.names.internFile name).1) text) body)
    (hch : isAscii st.commandChar = true) (hw : st.WF) (hk : RulesKnown st.db st.names)
    (hm : Makes st.commandChar NoSwitch ⟨st.vars, st.ruleTable, [], none⟩ body m) :
    ∃ st', FileGives fs name text st st' ∧ st'.vars = m.vars ∧ st'.ruleTable = m.rules ∧ st'.commandChar = st.commandChar := by
  obtain ⟨p', st', h1, h2, h3⟩ := file_makes fs ht hc hch hw hk rfl rfl hm
  exact ⟨st', h1, h2.vars, h2.rules, h3⟩

private abbrev at_ (line col : Nat) : Location := .source line col ⟨0⟩

/-- A file that begins with the rule `a: b`. -/
private theorem rule_line {rest : Str} {m : MakeState} (hb : AllTaken m.branches) (hc : m.current = none) :
    LineMeans '\t' NoSwitch m (locate (at_ 1 1) ("a: b".toList ++ '\n' :: rest)) (locate (at_ 2 1) rest)
      { m.close with current := some ⟨[[('a', at_ 1 1)]], [[('b', at_ 1 4)]], [], .standard⟩ } := by
  have wa : ∀ x ∈ [('a', at_ 1 1)], WordChar x.1 := by
    intro x hx; cases List.mem_singleton.mp hx; unfold WordChar; decide
  have wb : ∀ x ∈ [('b', at_ 1 4)], WordChar x.1 := by
    intro x hx; cases List.mem_singleton.mp hx; unfold WordChar; decide
  have hd : WordList0 [(' ', at_ 1 3), ('b', at_ 1 4)] [[('b', at_ 1 4)]] :=
    .some (gap := [(' ', at_ 1 3)]) (by unfold Blanks; simp) (wordList_one (by simp) wb)
  obtain ⟨tt, h1, h2⟩ := targets_words m.vars.env (wordList_one (w := [('a', at_ 1 1)]) (by simp) wa)
  have key := LineMeans.rule (c := '\t') (ok := NoSwitch) (m := m)
    (t := locate (at_ 1 1) ("a: b".toList ++ '\n' :: rest)) (line := locate (at_ 1 1) "a: b".toList)
    (rest := locate (at_ 2 1) rest) (ts := [('a', at_ 1 1)])
    (ds := [(' ', at_ 1 3), ('b', at_ 1 4)]) (after := [(' ', at_ 1 3), ('b', at_ 1 4)]) (double := false) (command := none)
    hb (.inl hc) (physical_locate (by decide) (by simp) (by decide)) (by rw [textOf_locate]; decide)
    (not_condLike (by simp) (by unfold condWords; decide))
    (not_varLike (by rw [textOf_locate]; decide) (by rw [textOf_locate]; unfold varWords; decide))
    (by rintro ⟨w, hw, hp⟩; rw [textOf_locate] at hp; revert w; unfold directiveWords; decide)
    (.plain (ts := [('a', at_ 1 1)]) (ds := [(' ', at_ 1 3), ('b', at_ 1 4)]) (cs := [(':', at_ 1 2)]) rfl (by decide))
    (not_varLike (by decide) (by unfold varWords; decide)) h1
    (reads_names hd.names) (Expands.text _ _) (fileNames_of hd.names) .none
  rw [h2, wordsOf_list0 hd] at key
  exact key

private theorem init_known : RulesKnown St.init.db St.init.names :=
  ⟨⟨List.nodup_nil, List.nodup_nil⟩, fun f r h => by cases h⟩

/-- The makefile `a: b`: its rule is lost. -/
theorem C44_refuted : ¬ C44_full := by
  intro h
  have hm : Makes St.init.commandChar NoSwitch ⟨St.init.vars, St.init.ruleTable, [], none⟩
      (locate (.source 1 1 (St.init.names.internFile "Makefile".toList).1) "a: b\n".toList) _ :=
    .cons (rule_line (rest := []) (by intro b hb; cases hb) rfl) .nil
  obtain ⟨st1, ⟨N, h1⟩, h2⟩ := h noFs _ _ _ St.init _ (by unfold AsciiS; decide) (.none (free_locate (by decide))) rfl St.init_wf init_known hm
  obtain ⟨st2, ⟨M, h3⟩, h4, _⟩ := C44_completed_rules_partial noFs (by unfold AsciiS; decide)
    (.none (free_locate (by decide))) rfl St.init_wf init_known hm
  have e := h1 (max N M) (by omega)
  rw [h3 (max N M) (by omega)] at e
  cases e
  rw [h4] at h2
  have : (none : Option RuleView) = some ⟨[[('b', at_ 1 4)]], [], .standard⟩ := congrFun h2 ['a']
  cases this

/-- A makefile with a rule, a recipe line and an assignment: the assignment completes the rule. -/
example (fs : Fs) : ∃ st' l lv, FileGives fs "Makefile".toList "a: b\n\techo\nx=1\n".toList St.init st' ∧
    st'.ruleTable ['a'] = some ⟨[[('b', at_ 1 4)]], [Expr.text (locate l "echo".toList)], .standard⟩ ∧
    st'.vars ['x'] = some (.recursive, Expr.text (locate lv ['1'])) := by
  have r1 := rule_line (rest := "\techo\nx=1\n".toList) (m := ⟨St.init.vars, St.init.ruleTable, [], none⟩)
    (by intro b hb; cases hb) rfl
  have r2 : LineMeans '\t' NoSwitch _ (locate (at_ 2 1) "\techo\nx=1\n".toList) (locate (at_ 3 1) "x=1\n".toList) _ :=
    .recipe (m := { (⟨St.init.vars, St.init.ruleTable, [], none⟩ : MakeState).close with
      current := some ⟨[[('a', at_ 1 1)]], [[('b', at_ 1 4)]], [], .standard⟩ }) rfl (by intro b hb; cases hb)
      (.last (line := locate ((at_ 2 1).after ['\t']) "echo".toList)
        (tail := locate (((at_ 2 1).after ['\t']).after "echo".toList) "\nx=1\n".toList) (free_locate (by decide))
        (by rw [textOf_locate]; decide) (.inr ⟨_, rfl⟩))
      (reads_text (free_locate (by decide)))
  have r3 : LineMeans '\t' NoSwitch _ (locate (at_ 3 1) "x=1\n".toList) [] _ :=
    .assign (m := { (⟨St.init.vars, St.init.ruleTable, [], none⟩ : MakeState).close with
      current := some ⟨[[('a', at_ 1 1)]], [[('b', at_ 1 4)]],
        [Expr.text (locate ((at_ 2 1).after ['\t']) "echo".toList)], .standard⟩ })
      (by intro b hb; cases hb) (.inr (by rw [textOf_locate]; decide))
      (logical_locate (line := "x=1".toList) (rest := []) (by decide) (by simp) (by decide))
      (assignText_locate (name := ['x']) (gap := []) (op := ['=']) (gap' := []) (value := ['1'])
        (by unfold NameChar; decide) (by simp) .recursive (by simp) (by simp))
      (not_condLike_locate (by simp) (by unfold condWords; decide)) (reads_text (free_locate (by decide)))
      (reads_text (free_locate (by decide))) (by simp) (.recursive (denotes_locate (by decide)) .nil)
  obtain ⟨st', h1, h2, h3, _⟩ := C44_completed_rules_partial fs (text := "a: b\n\techo\nx=1\n".toList)
    (name := "Makefile".toList) (by unfold AsciiS; decide) (.none (free_locate (by decide))) rfl St.init_wf init_known
    (.cons r1 (.cons r2 (.cons r3 .nil)))
  exact ⟨st', _, _, h1, by rw [h2]; rfl, by rw [h3]; rfl⟩

/-! ### C55 -/

/-- The full claim: a line of plain words is reported as lacking a separator, and a recipe line without a rule is an
error, unless the line begins with a keyword. -/
def C55_full : Prop :=
  ∀ (fs : Fs) (P : Block) (i : Span) (t line rest : List LChar) (p : PState) (st : St), Ready P i t line rest p st →
    Physical t line rest → ¬ CondLike line → ¬ VarLike line → ¬ DirectiveLike line →
    (∀ ws, WordList line ws → (textOf t).head? ≠ some st.commandChar →
      ∃ N, ∀ n, N ≤ n → parseLine fs (recF fs n) p st i = .ok (.err (.failure (.custom .missingSeparator)), p, st)) ∧
    ((textOf t).head? = some st.commandChar → line ≠ [] →
      ∃ N, ∀ n, N ≤ n → ∃ k p' st', parseLine fs (recF fs n) p st i = .ok (.err (.failure k), p', st'))

/-- What happens instead, for every such line and in every state: the line is ignored.  Since blanks in front of the line
are allowed, this includes lines that begin with a tab. -/
theorem C55_words_ignored (fs : Fs) {P : Block} {i : Span} {t line rest : List LChar} {ws : List (List LChar)} {p : PState}
    {st : St} (h : Ready P i t line rest p st) (hl : Physical t line rest) (h1 : ¬ CondLike line) (h2 : ¬ VarLike line)
    (h3 : ¬ DirectiveLike line) (hw : WordList line ws) (hc : (textOf line).head? ≠ some st.commandChar) :
    LineGives fs P i p st rest p st := by
  obtain ⟨tt, g1, _⟩ := targets_words st.env hw
  exact parseLine_words fs h hl hc h1 h2 h3 g1

/-- The same for words with references, if each of them expands to something. -/
theorem C55_references_ignored (fs : Fs) {P : Block} {i : Span} {t line rest tt : List LChar} {vs : List Str} {p : PState}
    {st : St} (h : Ready P i t line rest p st) (hl : Physical t line rest) (h1 : ¬ CondLike line) (h2 : ¬ VarLike line)
    (h3 : ¬ DirectiveLike line) (hw : TargetsExpand st.env line tt vs) (hc : (textOf line).head? ≠ some st.commandChar) :
    ∃ st', LineGives fs P i p st rest p st' ∧ st'.db = st.db :=
  ⟨_, parseLine_words fs h hl hc h1 h2 h3 hw, rfl⟩

/-- C55, as far as it holds: if recipe lines are marked by a character that is not a blank, a recipe line without a rule
is reported. -/
theorem C55_recipe_expected_partial (fs : Fs) {P : Block} {i : Span} {t line rest : List LChar} {p : PState} {st : St}
    (h : Ready P i t line rest p st) (hl : Physical t line rest) (h1 : ¬ CondLike line) (h2 : ¬ VarLike line)
    (h3 : ¬ DirectiveLike line) (hc : (textOf line).head? = some st.commandChar) (r : Rec) :
    parseLine fs r p st i = .ok (.err (.failure (.custom .recipeExpected)), p, st) :=
  parseLine_stray fs r h hl hc h1 h2 h3

private theorem junk_hyps {l : Location} {st : St} (hch : isAscii st.commandChar = true) (hw : st.WF) :
    Ready (textBlock l ("foo bar".toList ++ '\n' :: [])) (textBlock l ("foo bar".toList ++ '\n' :: [])).span
      (locate l ("foo bar".toList ++ '\n' :: [])) (locate l "foo bar".toList) (locate ((l.after "foo bar".toList).after ['\n']) [])
      PState.new st ∧
    Physical (locate l ("foo bar".toList ++ '\n' :: [])) (locate l "foo bar".toList)
      (locate ((l.after "foo bar".toList).after ['\n']) []) ∧
    ¬ CondLike (locate l "foo bar".toList) ∧ ¬ VarLike (locate l "foo bar".toList) ∧ ¬ DirectiveLike (locate l "foo bar".toList) :=
  ⟨ready_locate (by unfold AsciiS; decide) (by decide) (by decide) (by simp) (by decide) hch hw,
    physical_locate (by decide) (by simp) (by decide),
    not_condLike (by simp) (by unfold condWords; decide),
    not_varLike (by rw [textOf_locate]; decide) (by rw [textOf_locate]; unfold varWords; decide),
    by rintro ⟨w, hw, hp⟩; rw [textOf_locate] at hp; revert w; unfold directiveWords; decide⟩

private theorem junk_words {l : Location} : ∃ ws, WordList (locate l "foo bar".toList) ws := by
  rw [show "foo bar".toList = "foo".toList ++ ([' '] ++ "bar".toList) from rfl, locate_append, locate_append]
  refine ⟨_, .more (w := locate l "foo".toList) (gap := locate (l.after "foo".toList) [' '])
    (t := locate ((l.after "foo".toList).after [' ']) "bar".toList) (by simp [locate]) ?_
    (by unfold Blanks; simp [locate]) (by simp [locate]) (wordList_one (by simp [locate]) ?_)⟩
  all_goals exact mem_locate (q := WordChar) (by unfold WordChar; decide)

theorem C55_refuted : ¬ C55_full := by
  intro h
  obtain ⟨h1, h2, h3, h4, h5⟩ := junk_hyps (l := .synthetic) (st := St.init) rfl St.init_wf
  obtain ⟨ws, hw⟩ := junk_words (l := .synthetic)
  obtain ⟨N, hN⟩ := (h noFs _ _ _ _ _ _ _ h1 h2 h3 h4 h5).1 ws hw (by rw [textOf_locate]; decide)
  obtain ⟨M, j, _, hM⟩ := C55_words_ignored noFs h1 h2 h3 h4 h5 hw (by rw [textOf_locate]; decide)
  have e := hN (max N M) (by omega)
  rw [hM (max N M) (by omega)] at e
  cases e

/-- `foo bar` is ignored; but it is an error if recipe lines are marked by an `f`. -/
example (fs : Fs) (r : Rec) : (∃ P rest, LineGives fs P P.span PState.new St.init rest PState.new St.init) ∧
    ∃ P : Block, parseLine fs r PState.new { St.init with commandChar := 'f' } P.span =
      .ok (.err (.failure (.custom .recipeExpected)), PState.new, { St.init with commandChar := 'f' }) := by
  obtain ⟨h1, h2, h3, h4, h5⟩ := junk_hyps (l := .synthetic) (st := St.init) rfl St.init_wf
  obtain ⟨g1, g2, g3, g4, g5⟩ := junk_hyps (l := .synthetic) (st := { St.init with commandChar := 'f' }) rfl
    ⟨St.init_wf.nodup, St.init_wf.known, St.init_wf.values⟩
  obtain ⟨ws, hw⟩ := junk_words (l := .synthetic)
  exact ⟨⟨_, _, C55_words_ignored fs h1 h2 h3 h4 h5 hw (by rw [textOf_locate]; decide)⟩,
    ⟨_, C55_recipe_expected_partial fs g1 g2 g3 g4 g5 (by rw [textOf_locate]; rfl) r⟩⟩

end Hastur
